import Verif.Proof.Order
import Verif.Props.Hash
/-!
# Properties C25, C26: the cofactor, the numbers of points, and where message points lie
-/

set_option exponentiation.threshold 2000

namespace Props

open Amcl Spec

/-! ### C25 -/

/-- **C25**, the number of points: the twist `y² = x³ + 4(1+i)` over the quadratic extension has exactly
`h2·r` points, so the published cofactor is right. -/
theorem C25_twist_order : Finite G2 ∧ Nat.card G2 = h2 * r := card_G2

/-- **C25**, the same for the first group: `y² = x³ + 4` over the base field has exactly `h1·r` points. -/
theorem C25_curve_order : Finite G1 ∧ Nat.card G1 = h1 * r := card_G1

theorem order_kills (g : G2) : r • h2 • g = 0 := by
  rw [smul_smul, mul_comm, ← card_G2.2]
  exact card_nsmul_eq_zero'

/-- **C25.** For every point of the twist, in every representation the interface can produce,
`multiply_cofactor` returns a representation of `h2` times the point, and `r` times the result is the
neutral element. -/
theorem C25_multiply_cofactor (P : ECP2) (g : G2) (hP : P.Rep g) :
    ∃ Q, utils.multiply_cofactor P = some Q ∧ Q.Rep (h2 • g) ∧ r • h2 • g = 0 := by
  obtain ⟨Q, e, hQ⟩ := multiply_cofactor_wp (ECP2.Ok.wide hP (by norm_num))
  exact ⟨Q, e, hQ.mono (by norm_num), order_kills g⟩

/-- The point over the abscissa 2 does not itself lie in the subgroup of order `r`; its image does, and
is not the neutral element. -/
example : ∃ P Q, ECP2.Rep P (Pt.mk _ _ two_on) ∧ r • (Pt.mk _ _ two_on : G2) ≠ 0 ∧
    utils.multiply_cofactor P = some Q ∧ Q.Rep (h2 • Pt.mk _ _ two_on) ∧
    r • h2 • (Pt.mk _ _ two_on : G2) = 0 ∧ h2 • (Pt.mk _ _ two_on : G2) ≠ 0 := by
  obtain ⟨P, hP⟩ := ECP2.exists_rep (Pt.mk _ _ two_on)
  obtain ⟨Q, e, hQ, h0⟩ := C25_multiply_cofactor P _ hP
  refine ⟨P, Q, hP, two_order, e, hQ, h0, ?_⟩
  rw [Ne, ← Eval.smul_zero_iff b2_is (two_is two_on) (f := 763) (by norm_num [h2])]
  decide +kernel

/-! ### C26 -/

/-- Images of the map lie in the subgroup of order `r`. -/
theorem mapsTo_order {x : Fp2} {g : G2} (h : MapsTo x g) : r • g = 0 := by
  obtain ⟨k, y, hy, -, -, -, e⟩ := h
  rw [e]
  exact order_kills _

/-- **C26.** For every hash function with 32-byte values, every message and every domain, hashing to the
second group ends without panic or overflow, in a representation of the point `g` that the map assigns to
the two message hashes - the point over the first usable abscissa `x0 + k`, times the cofactor - and `g`
has order dividing `r`. -/
theorem C26_hash_on_g2 (H : Keccak) (msg : List UInt8) (d : UInt64) :
    ∃ P g, utils.hash_on_g2 H msg d = some P ∧ P.Rep g ∧
      MapsTo (hashX (fun m => (H m).toList) msg d.toNat) g ∧ r • g = 0 := by
  obtain ⟨P, e, g, hg, hP⟩ := hash_on_g2_wp H msg d
  exact ⟨P, g, e, hP.mono (by norm_num), hg, mapsTo_order hg⟩

/-- **C26**, pre-hashed form: the same for two strings of at least 48 bytes. -/
theorem C26_map_to_g2 (re im : List UInt8) (hr : 48 ≤ re.length) (hi : 48 ≤ im.length) :
    ∃ P g, utils.map_to_g2 re im = some P ∧ P.Rep g ∧
      MapsTo ⟨(beNat (re.take 48) : Fp), (beNat (im.take 48) : Fp)⟩ g ∧ r • g = 0 := by
  obtain ⟨P, e, g, hg, hP⟩ := map_to_g2_total hr hi
  exact ⟨P, g, e, hP.mono (by norm_num), hg, mapsTo_order hg⟩

/-- With a hash that is constantly 0 the abscissae 0 and 1 are skipped and 2 is used. -/
example (msg : List UInt8) (d : UInt64) : ∃ P,
    utils.hash_on_g2 (fun _ => Vector.replicate 32 0) msg d = some P ∧
    P.Rep (h2 • Pt.mk _ _ two_on) ∧ r • h2 • (Pt.mk _ _ two_on : G2) = 0 := by
  obtain ⟨P, g, e, hP, hg, -⟩ := C26_hash_on_g2 (fun _ => Vector.replicate 32 0) msg d
  have e0 : beNat (Vector.replicate 32 (0 : UInt8)).toList = 0 := by decide
  rw [hashX, e0, Nat.cast_zero] at hg
  rw [hg.unique zero_mapsTo] at hP
  exact ⟨P, e, hP, order_kills _⟩

/-- **C26**, consequence: every signature lies in the subgroup of order `r`. -/
theorem C26_signature_order (H : Keccak) (msg : List UInt8) (d : UInt64) (sk : SecretKey) (n : Nat)
    (hn : sk.Rep n) : ∃ s sg, Signature.new H msg d sk = some sg ∧ sg.Rep s ∧ r • s = 0 := by
  obtain ⟨g, sg, hg, e, hs⟩ := C04_sign H msg d sk n hn
  refine ⟨n • g, sg, e, hs, ?_⟩
  rw [smul_comm, mapsTo_order hg, smul_zero]

end Props
