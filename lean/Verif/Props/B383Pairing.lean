import Verif.Proof.B383.Aff
/-!
# Property C84: the pairing of BLS12-383

`pairing` and `signedMiller` are defined in `Verif.Spec.B383.Pairing` and `Verif.Spec.B383.Miller`. The crate has no caller, so the
theorems are about `pair.rs` itself: `ate` followed by `fexp`. The parameter of this curve is positive, so the value of Miller's
algorithm is not inverted as it is for BLS12-381.
-/

set_option exponentiation.threshold 6000

namespace Props.B383

open Amcl.B383 Spec.B383
open Amcl (Wp BIG)
open Spec (Pt)

seal Spec.B383.finalExp

/-- **C84**, the orders of the two groups are those of the family BLS12. The points of order dividing `r` are the multiples of the
generators, so those subgroups have exactly `r` elements. -/
theorem C84_orders : 3 * Nat.card G1 = (xPar - 1) ^ 2 * r ∧
    9 * (Nat.card G2 : Int) = (xPar ^ 8 - 4 * xPar ^ 7 + 5 * xPar ^ 6 - 4 * xPar ^ 4 + 6 * xPar ^ 3 - 4 * xPar ^ 2 - 4 * xPar + 13) * r ∧
    (∀ g : G1, r • g = 0 ↔ ∃ k : Nat, g = k • gen1) ∧ (∀ g : G2, r • g = 0 ↔ ∃ k : Nat, g = k • gen2) := by
  refine ⟨?_, ?_, fun g => ⟨torsion_gen1, ?_⟩, fun g => ⟨torsion_gen2, ?_⟩⟩
  · rw [card_G1.2]
    decide +kernel
  · rw [card_G2.2]
    decide +kernel
  · rintro ⟨k, rfl⟩
    rw [smul_comm, r_gen1, smul_zero]
  · rintro ⟨k, rfl⟩
    rw [smul_comm, r_gen2, smul_zero]

/-- **C84**, total and textbook: for every point `Q` of the twist in affine form - of any order,
infinity included - and every point in any representation, `ate` followed by `fexp` ends without
panic or overflow, in the canonical form of the value of Miller's algorithm at the first two coordinates of
the second argument to the power `3 (p¹² - 1) / r`. -/
theorem C84_textbook (P : ECP2) (Q : G2) (R : ECP) (g : G1) (hP : P.Aff Q) (hR : R.Rep g) :
    ∃ z, (pair.ate P R >>= pair.fexp) = some z ∧
      z.Can (signedMiller R.x.toF R.y.toF Q ^ finalExp) :=
  pair.ate_pairing_wp hP.1 hP.2 (hR.x.mono (by norm_num)) (hR.y.mono (by norm_num))

/-- **C84**, the pairing: for arguments of order dividing `r` in affine form, not both infinity,
the result is the ate pairing. -/
theorem C84_pairing (P : ECP2) (Q : G2) (R : ECP) (g : G1) (hP : P.Aff Q) (hQ : r • Q = 0) (hR : R.Aff g)
    (hg : r • g = 0) (h0 : Q ≠ 0 ∨ g ≠ 0) : ∃ z, (pair.ate P R >>= pair.fexp) = some z ∧ z.Can (pairing Q g) :=
  pairing_wp hP hQ hR fun h => ⟨h0.resolve_left (absurd h), .of_order hg⟩

/-- **C84**, the pairing outside the subgroup: the second argument may be any point, if the first
argument is not infinity. -/
theorem C84_pairing_any_key (P : ECP2) (Q : G2) (R : ECP) (g : G1) (hP : P.Aff Q) (hQ : r • Q = 0) (hR : R.Aff g)
    (hQ0 : Q ≠ 0) : ∃ z, (pair.ate P R >>= pair.fexp) = some z ∧ z.Can (pairing Q g) :=
  pairing_wp hP hQ hR fun h => absurd h hQ0

/-- **C84**, the pairing is bilinear and not degenerate: it is additive in both arguments, its values are
`r`-th roots of unity, the value at the generators has order exactly `r`, and the value is 1 only if an
argument is infinity. -/
theorem C84_bilinear (Q Q' : G2) (hQ : r • Q = 0) (hQ' : r • Q' = 0) (g g' : G1) :
    pairing (Q + Q') g = pairing Q g * pairing Q' g ∧ pairing Q (g + g') = pairing Q g * pairing Q g' ∧
    pairing Q g ^ r = 1 ∧ orderOf (pairing gen2 gen1) = r ∧
    (r • g = 0 → (pairing Q g = 1 ↔ Q = 0 ∨ g = 0)) :=
  ⟨pairing_add_left hQ hQ' g, pairing_add_right hQ g g', pairing_pow_r hQ g, orderOf_pairing,
    fun h => pairing_eq_one hQ h⟩

/-- **C84**, bilinearity of the code: with multiples of the generators as arguments. -/
theorem C84_multiples (P : ECP2) (R : ECP) (a b : Nat) (hP : P.Aff (a • gen2)) (hR : R.Aff (b • gen1))
    (hab : ¬ (r ∣ a ∧ r ∣ b)) : ∃ z, (pair.ate P R >>= pair.fexp) = some z ∧ z.Can (pairing gen2 gen1 ^ (a * b)) := by
  obtain ⟨z, e, hz⟩ := C84_pairing P _ R _ hP (by rw [smul_comm, r_gen2, smul_zero]) hR
    (by rw [smul_comm, r_gen1, smul_zero]) (by
      have := Fact.mk prime_r
      rw [Ne, Ne, smul_gen1_zero, ← addOrderOf_dvd_iff_nsmul_eq_zero, addOrderOf_eq_prime r_gen2 gen2_ne]
      exact not_and_or.1 hab)
  refine ⟨z, e, ?_⟩
  rwa [pairing_nsmul_right (by rw [smul_comm, r_gen2, smul_zero]), pairing_nsmul_left r_gen2, ← pow_mul] at hz

/-- **C84**, independence of the representation: affine forms of the same point of the twist, and points
with equal first two coordinates modulo `p`, give the same limbs. -/
theorem C84_representation (P P' : ECP2) (Q : G2) (R R' : ECP) (g g' : G1) (hP : P.Aff Q) (hP' : P'.Aff Q)
    (hR : R.Rep g) (hR' : R'.Rep g') (hx : R.x.toF = R'.x.toF) (hy : R.y.toF = R'.y.toF) :
    (pair.ate P R >>= pair.fexp) = (pair.ate P' R' >>= pair.fexp) ∧ (pair.ate P R >>= pair.fexp) ≠ none := by
  obtain ⟨z, e, hz⟩ := C84_textbook P Q R g hP hR
  obtain ⟨z', e', hz'⟩ := C84_textbook P' Q R' g' hP' hR'
  rw [hx, hy] at hz
  rw [e, e', hz.ext hz']
  exact ⟨rfl, by simp⟩

/-- Every point has an affine form. -/
theorem exists_aff2 (g : G2) : ∃ P : ECP2, P.Aff g := by
  obtain ⟨P, h⟩ := ECP2.exists_rep g
  obtain ⟨r, -, hr⟩ := ECP2.affine_aff h
  exact ⟨r, hr⟩

theorem exists_aff1 (g : G1) : ∃ P : ECP, P.Aff g := by
  obtain ⟨P, h⟩ := ECP.exists_rep g
  obtain ⟨r, -, hr⟩ := ECP.affine_aff h
  exact ⟨r, hr⟩

/-- The pairing of 2 times and 3 times the generators is the sixth power of the pairing of the generators,
and is not 1. -/
example : ∃ P R z, ECP2.Aff P (2 • gen2) ∧ ECP.Aff R (3 • gen1) ∧ (pair.ate P R >>= pair.fexp) = some z ∧
    z.Can (pairing gen2 gen1 ^ 6) ∧ pairing gen2 gen1 ^ 6 ≠ 1 := by
  obtain ⟨P, hP⟩ := exists_aff2 (2 • gen2)
  obtain ⟨R, hR⟩ := exists_aff1 (3 • gen1)
  obtain ⟨z, e, hz⟩ := C84_multiples P R 2 3 hP hR (by norm_num [r])
  refine ⟨P, R, z, hP, hR, e, hz, fun h => ?_⟩
  have := orderOf_dvd_of_pow_eq_one h
  rw [orderOf_pairing] at this
  exact absurd (Nat.le_of_dvd (by norm_num) this) (by norm_num [r])

/-- **C84.** The pairing of infinity with any point whose abscissa is not 0 is 1. -/
theorem C84_infinity (P : ECP2) (R : ECP) (x y : Fp) (h : y ^ 2 = x ^ 3 + b1) (hP : P.Rep 0) (hR : R.Aff (Pt.mk x y h))
    (hx : x ≠ 0) : ∃ z, (pair.ate P R >>= pair.fexp) = some z ∧ z.Can 1 := by
  obtain ⟨h1, h2⟩ := hR.coords
  obtain ⟨z, e, hz⟩ := pair.ate_pairing_wp hP (fun h => absurd rfl h) h1 h2
  rw [signedMiller_inf hx] at hz
  exact ⟨z, e, hz⟩

/-- **C84**, in particular with every finite point of order dividing `r`, the generator for one. -/
theorem C84_infinity_torsion (P : ECP2) (R : ECP) (g : G1) (hP : P.Rep 0) (hR : R.Aff g) (hg : r • g = 0) (h0 : g ≠ 0) :
    ∃ z, (pair.ate P R >>= pair.fexp) = some z ∧ z.Can 1 := by
  obtain ⟨z, e, hz⟩ := C84_pairing P 0 R g ⟨hP, fun h => absurd rfl h⟩ (smul_zero _) hR hg (.inr h0)
  rw [pairing_zero_left] at hz
  exact ⟨z, e, hz⟩

/-- A square root of 15. -/
def root15 : Fp := ((5613361304567412826912517447184316941697610333757200042391069238246565005007415160251434947201917728483062755039941 : Nat) : Fp)

theorem order3_on : root15 ^ 2 = 0 ^ 3 + b1 := by
  rw [b1, root15]
  decide +kernel

/-- **C84**, the exception: with a point of abscissa 0 - the two points `(0, ±√15)` of order 3 - the result is 0, not 1. -/
theorem C84_infinity_exception (P : ECP2) (R : ECP) (y : Fp) (h : y ^ 2 = 0 ^ 3 + b1) (hP : P.Rep 0)
    (hR : R.Aff (Pt.mk 0 y h)) : ∃ z, (pair.ate P R >>= pair.fexp) = some z ∧ z.Can 0 := by
  obtain ⟨h1, h2⟩ := hR.coords
  obtain ⟨z, e, hz⟩ := pair.ate_pairing_wp hP (fun h => absurd rfl h) h1 h2
  rw [signedMiller_inf_zero, zero_pow (by decide +kernel)] at hz
  exact ⟨z, e, hz⟩

/-- **C84**, the second argument infinity, in any representation: the result is 1 for every finite first
argument of order `r`. The code does not test for infinity. It evaluates at the coordinates `(0, y)` of the
representation, and all values then lie in a subfield that the final exponentiation maps to 1. -/
theorem C84_infinite_key (P : ECP2) (Q : G2) (R : ECP) (hP : P.Aff Q) (hQ : r • Q = 0) (h0 : Q ≠ 0) (hR : R.Rep 0) :
    ∃ z, (pair.ate P R >>= pair.fexp) = some z ∧ z.Can 1 :=
  C84_pairing_any_key P Q R 0 hP hQ ⟨hR, fun h => absurd rfl h⟩ h0

/-- **C84**, both arguments infinity: the result is 0. -/
theorem C84_both_infinite (P : ECP2) (R : ECP) (hP : P.Rep 0) (hR : R.Rep 0) :
    ∃ z, (pair.ate P R >>= pair.fexp) = some z ∧ z.Can 0 := by
  obtain ⟨z, e, hz⟩ := pair.ate_pairing_wp hP (fun h => absurd rfl h) (hR.x.mono (by norm_num)) (hR.y.mono (by norm_num))
  rw [hR.inf_coords.1, signedMiller_inf_zero, zero_pow (by decide +kernel)] at hz
  exact ⟨z, e, hz⟩

/-- The generator of the twist paired with infinity gives 1, infinity paired with infinity gives 0. -/
example : ∃ P P' R z z', ECP2.Aff P gen2 ∧ ECP2.Rep P' 0 ∧ ECP.Rep R 0 ∧
    (pair.ate P R >>= pair.fexp) = some z ∧ z.Can 1 ∧ (pair.ate P' R >>= pair.fexp) = some z' ∧ z'.Can 0 := by
  obtain ⟨P, hP⟩ := exists_aff2 gen2
  obtain ⟨P', hP'⟩ := exists_aff2 0
  obtain ⟨R, hR⟩ := exists_aff1 0
  obtain ⟨z, e, hz⟩ := C84_infinite_key P gen2 R hP r_gen2 gen2_ne hR.1
  obtain ⟨z', e', hz'⟩ := C84_both_infinite P' R hP'.1 hR.1
  exact ⟨P, P', R, z, z', hP, hP'.1, hR.1, e, hz, e', hz'⟩

/-- Both cases occur: the generator, and the point `(0, √15)`. -/
example : ∃ P R R' z z', ECP2.Rep P 0 ∧ ECP.Aff R gen1 ∧ ECP.Aff R' (Pt.mk 0 root15 order3_on) ∧
    (pair.ate P R >>= pair.fexp) = some z ∧ z.Can 1 ∧ (pair.ate P R' >>= pair.fexp) = some z' ∧ z'.Can 0 := by
  obtain ⟨P, hP⟩ := exists_aff2 0
  obtain ⟨R, hR⟩ := exists_aff1 gen1
  obtain ⟨R', hR'⟩ := exists_aff1 (Pt.mk 0 root15 order3_on)
  obtain ⟨z, e, hz⟩ := C84_infinity_torsion P R gen1 hP.1 hR r_gen1 gen1_ne
  obtain ⟨z', e', hz'⟩ := C84_infinity_exception P R' root15 order3_on hP.1 hR'
  exact ⟨P, R, R', z, z', hP.1, hR, hR', e, hz, e', hz'⟩

end Props.B383
