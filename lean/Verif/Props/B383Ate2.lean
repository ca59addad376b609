import Verif.Proof.B383.Ate2
import Verif.Props.B383Pairing
/-!
# Property C86: the double pairing of BLS12-383
-/

set_option exponentiation.threshold 6000

namespace Props.B383

open Amcl.B383 Spec.B383
open Amcl (Wp BIG)
open Spec (Pt)

seal Spec.B383.finalExp

/-- **C86**, total and textbook: for all points of the twist in affine form, of any order, and all points in any
representation, `fexp` of `ate2` ends without panic or overflow, in the canonical form of the product of the two
values that `fexp` of `ate` has. -/
theorem C86_textbook (P P' : ECP2) (Q Q' : G2) (R R' : ECP) (g g' : G1) (hP : P.Aff Q) (hR : R.Rep g)
    (hP' : P'.Aff Q') (hR' : R'.Rep g') :
    ∃ z e, pair.ate2 P R P' R' = some e ∧ pair.fexp e = some z ∧
      z.Can (signedMiller R.x.toF R.y.toF Q ^ finalExp * signedMiller R'.x.toF R'.y.toF Q' ^ finalExp) := by
  obtain ⟨z, e, hz⟩ := pair.fexp_ate2_wp hP.1 hP.2 (hR.x.mono (by norm_num)) (hR.y.mono (by norm_num))
    hP'.1 hP'.2 (hR'.x.mono (by norm_num)) (hR'.y.mono (by norm_num))
  obtain ⟨e', h1, h2⟩ := Option.bind_eq_some_iff.1 e
  exact ⟨z, e', h1, h2, hz⟩

/-- **C86**, the product of the code: the limbs are those of the product of the results of two calls of
`ate` and `fexp`, reduced. -/
theorem C86_product (P P' : ECP2) (Q Q' : G2) (R R' : ECP) (g g' : G1) (hP : P.Aff Q) (hR : R.Rep g)
    (hP' : P'.Aff Q') (hR' : R'.Rep g') :
    ∃ z e z₁ z₂ v₁ v₂, pair.ate2 P R P' R' = some e ∧ pair.fexp e = some z ∧
      (pair.ate P R >>= pair.fexp) = some z₁ ∧ (pair.ate P' R' >>= pair.fexp) = some z₂ ∧
      z₁.Can v₁ ∧ z₂.Can v₂ ∧ z.Can (v₁ * v₂) := by
  obtain ⟨z, e, h1, h2, hz⟩ := C86_textbook P P' Q Q' R R' g g' hP hR hP' hR'
  obtain ⟨z₁, e₁, h₁⟩ := C84_textbook P Q R g hP hR
  obtain ⟨z₂, e₂, h₂⟩ := C84_textbook P' Q' R' g' hP' hR'
  exact ⟨z, e, z₁, z₂, _, _, h1, h2, e₁, e₂, h₁, h₂, hz⟩

/-- **C86**, the pairing: for arguments of order dividing `r` in affine form, no pair of them both infinity,
the result is the product of the two pairings. -/
theorem C86_pairing (P P' : ECP2) (Q Q' : G2) (R R' : ECP) (g g' : G1)
    (hP : P.Aff Q) (hQ : r • Q = 0) (hR : R.Aff g) (hg : r • g = 0) (h0 : Q ≠ 0 ∨ g ≠ 0)
    (hP' : P'.Aff Q') (hQ' : r • Q' = 0) (hR' : R'.Aff g') (hg' : r • g' = 0) (h0' : Q' ≠ 0 ∨ g' ≠ 0) :
    ∃ z e, pair.ate2 P R P' R' = some e ∧ pair.fexp e = some z ∧ z.Can (pairing Q g * pairing Q' g') := by
  obtain ⟨z, e, z₁, z₂, v₁, v₂, h1, h2, e₁, e₂, h₁, h₂, hz⟩ := C86_product P P' Q Q' R R' g g' hP hR.1 hP' hR'.1
  obtain ⟨w₁, f₁, k₁⟩ := C84_pairing P Q R g hP hQ hR hg h0
  obtain ⟨w₂, f₂, k₂⟩ := C84_pairing P' Q' R' g' hP' hQ' hR' hg' h0'
  rw [e₁, Option.some_inj] at f₁
  rw [e₂, Option.some_inj] at f₂
  subst f₁ f₂
  rw [FP12.Can.inj h₁ k₁, FP12.Can.inj h₂ k₂] at hz
  exact ⟨z, e, h1, h2, hz⟩

/-- **C86**, an equation of pairings with one final exponentiation: the double pairing at `(Q, g)` and `(-Q', g')`
is 1 exactly if the pairings at `(Q, g)` and `(Q', g')` are equal. -/
theorem C86_equation (P P' : ECP2) (Q Q' : G2) (R R' : ECP) (g g' : G1)
    (hP : P.Aff Q) (hQ : r • Q = 0) (hR : R.Aff g) (hg : r • g = 0) (h0 : Q ≠ 0 ∨ g ≠ 0)
    (hP' : P'.Aff (-Q')) (hQ' : r • Q' = 0) (hR' : R'.Aff g') (hg' : r • g' = 0) (h0' : Q' ≠ 0 ∨ g' ≠ 0) :
    ∃ z e, pair.ate2 P R P' R' = some e ∧ pair.fexp e = some z ∧ (z.Can 1 ↔ pairing Q g = pairing Q' g') := by
  obtain ⟨z, e, h1, h2, hz⟩ := C86_pairing P P' Q (-Q') R R' g g' hP hQ hR hg h0 hP'
    (by rw [smul_neg, hQ', neg_zero]) hR' hg' (by rwa [neg_ne_zero])
  have hn : pairing (-Q') g' * pairing Q' g' = 1 := by
    rw [← pairing_add_left (by rw [smul_neg, hQ', neg_zero]) hQ', neg_add_cancel, pairing_zero_left]
  refine ⟨z, e, h1, h2, fun h => ?_, fun h => ?_⟩
  · have h3 := FP12.Can.inj hz h
    calc pairing Q g = pairing Q g * (pairing (-Q') g' * pairing Q' g') := by rw [hn, mul_one]
      _ = pairing Q' g' := by rw [← mul_assoc, h3, one_mul]
  · rwa [h, mul_comm, hn] at hz

/-- The double pairing at `(2 G2, 3 G1)` and `(-G2, 6 G1)` is 1, at `(2 G2, 3 G1)` and `(G2, G1)` it is the seventh
power of the pairing of the generators, which is not 1. -/
example : ∃ P P' P'' R R' R'' z z' e e', ECP2.Aff P (2 • gen2) ∧ ECP2.Aff P' (-gen2) ∧ ECP2.Aff P'' gen2 ∧
    ECP.Aff R (3 • gen1) ∧ ECP.Aff R' (6 • gen1) ∧ ECP.Aff R'' gen1 ∧
    pair.ate2 P R P' R' = some e ∧ pair.fexp e = some z ∧ z.Can 1 ∧
    pair.ate2 P R P'' R'' = some e' ∧ pair.fexp e' = some z' ∧ ¬ z'.Can 1 := by
  have := Fact.mk prime_r
  have o2 (n : Nat) : r • n • gen2 = 0 := by rw [smul_comm, r_gen2, smul_zero]
  have o1 (n : Nat) : r • n • gen1 = 0 := by rw [smul_comm, r_gen1, smul_zero]
  have n2 : (2 : Nat) • gen2 ≠ 0 := by
    rw [Ne, ← addOrderOf_dvd_iff_nsmul_eq_zero, addOrderOf_eq_prime r_gen2 gen2_ne]
    norm_num [r]
  obtain ⟨P, hP⟩ := exists_aff2 (2 • gen2)
  obtain ⟨P', hP'⟩ := exists_aff2 (-gen2)
  obtain ⟨P'', hP''⟩ := exists_aff2 gen2
  obtain ⟨R, hR⟩ := exists_aff1 (3 • gen1)
  obtain ⟨R', hR'⟩ := exists_aff1 (6 • gen1)
  obtain ⟨R'', hR''⟩ := exists_aff1 gen1
  obtain ⟨z, e, h1, h2, hz⟩ := C86_equation P P' _ gen2 R R' _ _ hP (o2 2) hR (o1 3) (.inl n2) hP' r_gen2 hR' (o1 6)
    (.inl gen2_ne)
  obtain ⟨z', e', h1', h2', hz'⟩ := C86_pairing P P'' _ gen2 R R'' _ _ hP (o2 2) hR (o1 3) (.inl n2) hP'' r_gen2 hR'' r_gen1
    (.inl gen2_ne)
  have eq6 : pairing (2 • gen2) (3 • gen1) = pairing gen2 gen1 ^ 6 := by
    rw [pairing_nsmul_right (o2 2), pairing_nsmul_left r_gen2, ← pow_mul]
  refine ⟨P, P', P'', R, R', R'', z, z', e, e', hP, hP', hP'', hR, hR', hR'', h1, h2, hz.2 ?_, h1', h2', fun h => ?_⟩
  · rw [eq6, pairing_nsmul_right r_gen2]
  · have := FP12.Can.inj hz' h
    rw [eq6, ← pow_succ] at this
    have := orderOf_dvd_of_pow_eq_one this
    rw [orderOf_pairing] at this
    exact absurd (Nat.le_of_dvd (by norm_num) this) (by norm_num [r])

end Props.B383
