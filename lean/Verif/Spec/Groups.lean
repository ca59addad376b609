import Verif.Spec.Curve
import Verif.Spec.Field2
/-!
# Specification: the two BLS12-381 curve groups
-/

set_option exponentiation.threshold 2000

namespace Spec

theorem fp_two_ne : (2 : Fp) ≠ 0 := by
  have h2 : ((2 : Nat) : Fp) ≠ 0 := by
    rw [Ne, ZMod.natCast_eq_zero_iff]
    intro h
    have := Nat.le_of_dvd (by norm_num) h
    norm_num [p] at this
  exact_mod_cast h2

theorem fp_three_ne : (3 : Fp) ≠ 0 := by
  have h2 : ((3 : Nat) : Fp) ≠ 0 := by
    rw [Ne, ZMod.natCast_eq_zero_iff]
    intro h
    have := Nat.le_of_dvd (by norm_num) h
    norm_num [p] at this
  exact_mod_cast h2

/-- `4` is not a cube in the base field. -/
theorem four_noncube (x : Fp) : x ^ 3 ≠ 4 := by
  intro h
  have hx : x ≠ 0 := by
    rintro rfl
    rw [zero_pow (by norm_num)] at h
    have h4 : (4 : Fp) = 2 * 2 := by norm_num
    rw [h4] at h
    exact mul_ne_zero fp_two_ne fp_two_ne h.symm
  have h1 : x ^ (p - 1) = 1 := ZMod.pow_card_sub_one_eq_one hx
  have h2 : (4 : Fp) ^ ((p - 1) / 3) = 1 := by
    rw [← h, ← pow_mul, show 3 * ((p - 1) / 3) = p - 1 by norm_num [p], h1]
  have h3 : ((4 ^ ((p - 1) / 3) : Nat) : Fp) = ((1 : Nat) : Fp) := by push_cast; exact h2
  rw [ZMod.natCast_eq_natCast_iff, Nat.ModEq, ← Primes.powMod_eq p 4 400 _ (by norm_num [p])] at h3
  revert h3
  decide +kernel

/-- `b` for the curve over the base field. -/
def b1 : Fp := 4

/-- `b` for the twist. -/
def b2 : Fp2 := 4 * (1 + i)

instance good1 : GoodB b1 where
  two := fp_two_ne
  three := fp_three_ne
  nocube x h := four_noncube (-x) (by rw [b1] at h; linear_combination -h)

theorem fp2_two_ne : (2 : Fp2) ≠ 0 := by
  intro h
  have := congrArg QuadraticAlgebra.re h
  simp at this
  exact fp_two_ne this

instance good2 : GoodB b2 where
  two := fp2_two_ne
  three := by
    intro h
    have := congrArg QuadraticAlgebra.re h
    simp at this
    exact fp_three_ne this
  nocube x h := by
    have e : x ^ 3 = -b2 := by linear_combination h
    have e2 := congrArg QuadraticAlgebra.norm e
    rw [map_pow, QuadraticAlgebra.norm_neg, b2, map_mul] at e2
    have n1 : QuadraticAlgebra.norm (1 + i : Fp2) = 2 := by
      rw [QuadraticAlgebra.norm_def]
      simp [i, QuadraticAlgebra.re_one, QuadraticAlgebra.im_one]; norm_num
    have n2 : QuadraticAlgebra.norm (4 : Fp2) = 16 := by
      rw [QuadraticAlgebra.norm_def, show (4 : Fp2).re = 4 from rfl, show (4 : Fp2).im = 0 from rfl]
      norm_num
    rw [n1, n2] at e2
    have h2 := fp_two_ne
    refine four_noncube (QuadraticAlgebra.norm x * 2⁻¹) ?_
    rw [mul_pow, e2, inv_pow]
    field_simp
    norm_num

/-- The group of points over the base field. -/
abbrev G1 := Pt b1

/-- The group of points of the twist. -/
abbrev G2 := Pt b2

end Spec
