import Verif.Proof.Rng
import Verif.Props.Keys
/-!
# Properties C29, C36: random secret keys
-/

set_option exponentiation.threshold 2000

namespace Props

open Amcl Spec

seal Spec.toBE Spec.signBit Spec.enc1

theorem order_spec : rom.CURVE_ORDER.Nrm ∧ rom.CURVE_ORDER.val = (r : Int) := by
  constructor
  · constructor <;> norm_num [rom.CURVE_ORDER]
  · norm_num [rom.CURVE_ORDER, BIG.val, r]

theorem size_r : Nat.size r = 255 := by
  apply le_antisymm
  · rw [Nat.size_le]
    norm_num [r]
  · exact Nat.lt_size.2 (by norm_num [r])

/-- **C36.** Whatever 256 bytes the caller's generator yields, the secret key is the number that the
generator of the specification draws from them: SHA-256 of the bytes seeds a subtract-with-borrow
generator, whose hashed output gives 510 bits, which are reduced modulo `r`. Nothing panics. -/
theorem C36_random_key (entropy : List UInt8) (h : entropy.length = 256) :
    ∃ sk, SecretKey.random entropy = some sk ∧ sk.Rep (Rng.key entropy) := by
  obtain ⟨g, eg, hg⟩ := RAND.seed_wp RAND.new entropy (by rintro rfl; simp at h) (by omega)
  obtain ⟨⟨x, g'⟩, ex, nx, vx⟩ := BIG.randomnum_wp hg order_spec.1 (by rw [order_spec.2]; norm_num [r])
    (by rw [order_spec.2]; norm_num [r])
  dsimp only at nx vx
  rw [order_spec.2, Int.toNat_natCast, size_r, ← Int.natCast_mod] at vx
  refine ⟨⟨x⟩, ?_, ⟨nx, vx, ?_⟩⟩
  · rw [SecretKey.random, get_seeded_rng, eg]
    simp only [Option.bind_eq_bind, Option.bind_some, ex]
    rfl
  · exact (Nat.mod_lt _ (by norm_num [r])).trans (by norm_num [r])

/-- **C29.** Whatever 256 bytes the caller's generator yields, `random` ends without panic in a canonical
integer below `r`, whose 48-byte encoding starts with 16 zero bytes. -/
theorem C29_random_key_range (entropy : List UInt8) (h : entropy.length = 256) :
    ∃ sk n, SecretKey.random entropy = some sk ∧ sk.Rep n ∧ n < r ∧
      sk.as_bytes = some (List.replicate 16 0 ++ toBE 32 n) := by
  obtain ⟨sk, e, hs⟩ := C36_random_key entropy h
  have hlt : Rng.key entropy < r := Nat.mod_lt _ (by norm_num [r])
  refine ⟨sk, _, e, hs, hlt, ?_⟩
  rw [(C01_secret_key_encoding sk _ hs).1]
  congr 1
  apply beNat_inj
  · simp [length_toBE]
  · have h256 : Rng.key entropy < 256 ^ 32 := hlt.trans (by norm_num [r])
    have h0 : beNat (List.replicate 16 0) = 0 := by decide
    rw [beNat_toBE, beNat_append, beNat_toBE, h0, Nat.mod_eq_of_lt h256, Nat.mod_eq_of_lt (h256.trans (by norm_num))]
    ring

/-- **C29** for key pairs: the public key of a random pair is that multiple of the generator. -/
theorem C29_random_keypair (entropy : List UInt8) (h : entropy.length = 256) :
    ∃ kp, Keypair.random entropy = some kp ∧ kp.sk.Rep (Rng.key entropy) ∧ kp.pk.Rep (Rng.key entropy • gen1) := by
  obtain ⟨sk, e, hs⟩ := C36_random_key entropy h
  obtain ⟨pk, ep, hp, -⟩ := PublicKey.from_secret_key_wp hs
  refine ⟨⟨sk, pk⟩, ?_, hs, hp⟩
  rw [Keypair.random, e]
  simp only [Option.bind_eq_bind, Option.bind_some, ep]
  rfl

/-- The hypothesis holds for 256 zero bytes. -/
example : ∃ sk n, SecretKey.random (List.replicate 256 0) = some sk ∧ sk.Rep n ∧ n < r := by
  obtain ⟨sk, n, h1, h2, h3, -⟩ := C29_random_key_range (List.replicate 256 0) List.length_replicate
  exact ⟨sk, n, h1, h2, h3⟩

end Props
