import Verif.Proof.Reach
/-!
# Properties C01, C02, C03: secret keys and public keys
-/

set_option exponentiation.threshold 2000

namespace Props

open Amcl Spec

seal Spec.toBE Spec.signBit Spec.enc1

/-- **C01.** A secret key is accepted exactly when it has 48 bytes; the key holds the big-endian
integer of the bytes and encodes to the same bytes. No call panics. -/
theorem C01_secret_key_round_trip (b : List UInt8) :
    (b.length ≠ 48 → SecretKey.from_bytes b = some (.error .IncorrectSize)) ∧
    (b.length = 48 → ∃ sk, SecretKey.from_bytes b = some (.ok sk) ∧ sk.Rep (beNat b) ∧
      sk.as_bytes = some b) := by
  constructor
  · intro h
    rw [SecretKey.from_bytes, if_pos h]
    rfl
  · intro h
    have hl := beNat_lt48 h
    obtain ⟨x, e, nx, vx⟩ := BIG.frombytes_wp (b := b) (by omega)
    rw [List.take_of_length_le (by omega)] at vx
    refine ⟨⟨x⟩, ?_, ⟨nx, vx, hl⟩, ?_⟩
    · rw [SecretKey.from_bytes, if_neg (by simpa using h), e]
      rfl
    · rw [SecretKey.as_bytes, nx.tobytes vx hl, ← toBE_of_bytes h]

/-- The key of all ones (larger than the group order) round trips; one byte less is refused. -/
example : (∃ sk, SecretKey.from_bytes (List.replicate 48 255) = some (.ok sk) ∧
      sk.as_bytes = some (List.replicate 48 255)) ∧
    SecretKey.from_bytes (List.replicate 47 255) = some (.error .IncorrectSize) := by
  obtain ⟨sk, h1, -, h2⟩ := (C01_secret_key_round_trip (List.replicate 48 255)).2 rfl
  exact ⟨⟨sk, h1, h2⟩, (C01_secret_key_round_trip _).1 (by decide)⟩

/-- **C01**, second half: every key value, however produced, encodes to the 48 big-endian bytes of its
integer, and those bytes decode to a key with the same integer. -/
theorem C01_secret_key_encoding (sk : SecretKey) (n : Nat) (h : sk.Rep n) :
    sk.as_bytes = some (toBE 48 n) ∧
      ∃ sk', SecretKey.from_bytes (toBE 48 n) = some (.ok sk') ∧ sk'.Rep n := by
  refine ⟨h.nrm.tobytes h.val h.lt, ?_⟩
  obtain ⟨sk', h1, h2, -⟩ := (C01_secret_key_round_trip (toBE 48 n)).2 (length_toBE _ _)
  refine ⟨sk', h1, ?_⟩
  have hl := h.lt
  rwa [beNat_toBE, Nat.mod_eq_of_lt (by omega)] at h2

/-- The hypothesis holds for the key with integer `r - 1`. -/
example : ∃ sk : SecretKey, sk.Rep (r - 1) := SecretKey.exists_rep (by norm_num [r])

/-- **C02.** The public key of the 48 bytes `b` stands for `n • G`, `n` the big-endian integer of the
bytes, `G` the standard generator, in Mathlib's group of points of `y² = x³ + 4` over `Fp`; its
uncompressed encoding is the two coordinates of that point, its compressed one the flagged abscissa. -/
theorem C02_public_key_is_multiple (b : List UInt8) (hb : b.length = 48) :
    ∃ sk pk, SecretKey.from_bytes b = some (.ok sk) ∧ PublicKey.from_secret_key sk = some pk ∧
      pk.Rep (beNat b • gen1) ∧
      ∀ x y h, beNat b • gen1 = Pt.mk x y h →
        (∃ pk', pk.as_uncompressed_bytes = some (toBE 48 x.val ++ toBE 48 y.val, pk')) ∧
        pk.as_bytes = some (enc1 x.val (signBit y.val)) := by
  obtain ⟨sk, h1, h2, -⟩ := (C01_secret_key_round_trip b).2 hb
  obtain ⟨pk, e, h3, -⟩ := PublicKey.from_secret_key_wp h2
  refine ⟨sk, pk, h1, e, h3, ?_⟩
  intro x y h hg
  rw [hg] at h3
  have hx : x ≠ 0 := by
    apply Pt.x_ne_of_order (b := b1) (y := y) (h := h)
    rw [← hg, smul_comm, r_gen1, smul_zero]
  have ho : pk.point.xOut x = x.val := ECP.xOut_of_ne hx
  obtain ⟨⟨o, pk'⟩, eo, ho', -⟩ := as_uncompressed_wp h3
  dsimp only at ho'
  rw [ho] at ho'
  subst ho'
  refine ⟨⟨pk', eo⟩, ?_⟩
  rw [PublicKey.as_bytes, compress_g1_eq h3 (by norm_num), ho]

/-- The key 1 gives the generator with its published coordinates. -/
example : ∃ sk pk pk', SecretKey.from_bytes (List.replicate 47 0 ++ [1]) = some (.ok sk) ∧
    PublicKey.from_secret_key sk = some pk ∧
    pk.as_uncompressed_bytes = some (toBE 48 g1x ++ toBE 48 g1y, pk') := by
  obtain ⟨sk, pk, h1, h2, h3, h4⟩ := C02_public_key_is_multiple (List.replicate 47 0 ++ [1]) rfl
  have e1 : beNat (List.replicate 47 0 ++ [1]) = 1 := by decide
  rw [e1, one_nsmul] at h4
  obtain ⟨⟨pk', h5⟩, -⟩ := h4 _ _ g1_on rfl
  rw [ZMod.val_natCast, ZMod.val_natCast, Nat.mod_eq_of_lt (by norm_num [g1x, p]),
    Nat.mod_eq_of_lt (by norm_num [g1y, p])] at h5
  exact ⟨sk, pk, pk', h1, h2, h5⟩

/-- **C03.** Two secret keys give equal public keys exactly when their integers are congruent modulo
the group order, and then the encodings agree byte for byte. -/
theorem C03_key_modulo_order (sk sk' : SecretKey) (n m : Nat) (h : sk.Rep n) (h' : sk'.Rep m) :
    ∃ pk pk', PublicKey.from_secret_key sk = some pk ∧ PublicKey.from_secret_key sk' = some pk' ∧
      ((pk.eq pk' = some true ∧ n % r = m % r ∧ pk.as_bytes = pk'.as_bytes ∧ pk.as_bytes ≠ none ∧
          pk.as_uncompressed_bytes.map Prod.fst = pk'.as_uncompressed_bytes.map Prod.fst ∧
          pk.as_uncompressed_bytes ≠ none) ∨
       (pk.eq pk' = some false ∧ n % r ≠ m % r)) := by
  obtain ⟨pk, e, h1, -⟩ := PublicKey.from_secret_key_wp h
  obtain ⟨pk', e', h2, -⟩ := PublicKey.from_secret_key_wp h'
  refine ⟨pk, pk', e, e', ?_⟩
  obtain ⟨t, et, ht⟩ := ECP.equals_wp h1 h2 (by norm_num)
  rw [smul_gen1_iff] at ht
  by_cases hc : n % r = m % r
  · refine .inl ⟨by rw [PublicKey.eq, et, ht.2 hc], hc, ?_⟩
    rw [← smul_gen1_iff.2 hc] at h2
    rcases Pt.cases (n • gen1) with h0 | ⟨x, y, hh, h0⟩
    · rw [h0] at h1 h2
      rw [PublicKey.as_bytes, PublicKey.as_bytes, compress_g1_inf h1 (by norm_num),
        compress_g1_inf h2 (by norm_num), as_uncompressed_inf h1, as_uncompressed_inf h2]
      simp
    · have hx : x ≠ 0 := by
        apply Pt.x_ne_of_order (b := b1) (y := y) (h := hh)
        rw [← h0, smul_comm, r_gen1, smul_zero]
      rw [h0] at h1 h2
      have o1 : pk.point.xOut x = x.val := ECP.xOut_of_ne hx
      have o2 : pk'.point.xOut x = x.val := ECP.xOut_of_ne hx
      obtain ⟨⟨u, k⟩, eu, hu, -⟩ := as_uncompressed_wp h1
      obtain ⟨⟨u', k'⟩, eu', hu', -⟩ := as_uncompressed_wp h2
      rw [PublicKey.as_bytes, PublicKey.as_bytes, compress_g1_eq h1 (by norm_num),
        compress_g1_eq h2 (by norm_num), eu, eu', o1, o2]
      dsimp only at hu hu'
      rw [o1] at hu
      rw [o2] at hu'
      simp [hu, hu']
  · refine .inr ⟨?_, hc⟩
    rw [PublicKey.eq, et]
    cases t
    · rfl
    · exact absurd (ht.1 rfl) hc

/-- Keys `5` and `r + 5` agree modulo `r`, `5` and `6` do not. -/
example : (∃ sk : SecretKey, sk.Rep 5) ∧ (∃ sk : SecretKey, sk.Rep (r + 5)) ∧ 5 % r = (r + 5) % r ∧
    5 % r ≠ 6 % r :=
  ⟨SecretKey.exists_rep (by norm_num), SecretKey.exists_rep (by norm_num [r]), by simp, by norm_num [r]⟩

end Props
