import Verif.Spec.Curve
import Verif.Spec.B383.Field2
/-!
# Specification: the two BLS12-383 curve groups
-/

set_option exponentiation.threshold 2000

namespace Spec.B383

theorem fp_two_ne : (2 : Fp) ≠ 0 := by
  have h2 : ((2 : Nat) : Fp) ≠ 0 := by
    rw [Ne, ZMod.natCast_eq_zero_iff]
    intro h
    have := Nat.le_of_dvd (by norm_num) h
    norm_num [p] at this
  exact_mod_cast h2

theorem fp_three_ne : (3 : Fp) ≠ 0 := by
  have h2 : ((3 : Nat) : Fp) ≠ 0 := by
    rw [Ne, ZMod.natCast_eq_zero_iff]
    intro h
    have := Nat.le_of_dvd (by norm_num) h
    norm_num [p] at this
  exact_mod_cast h2

/-- A number whose power with the exponent `(p - 1) / 3` is not 1 is not a cube in the base field. -/
theorem noncube (n : Nat) (h0 : n % p ≠ 0) (h1 : Primes.powMod p n 400 ((p - 1) / 3) ≠ 1) (x : Fp) : x ^ 3 ≠ n := by
  intro h
  have hx : x ≠ 0 := by
    rintro rfl
    rw [zero_pow (by norm_num), eq_comm, ZMod.natCast_eq_zero_iff, Nat.dvd_iff_mod_eq_zero] at h
    exact h0 h
  have h2 : (n : Fp) ^ ((p - 1) / 3) = 1 := by
    rw [← h, ← pow_mul, show 3 * ((p - 1) / 3) = p - 1 by norm_num [p]]
    exact ZMod.pow_card_sub_one_eq_one hx
  have h3 : ((n ^ ((p - 1) / 3) : Nat) : Fp) = ((1 : Nat) : Fp) := by push_cast; exact h2
  rw [ZMod.natCast_eq_natCast_iff, Nat.ModEq, ← Primes.powMod_eq p n 400 _ (by norm_num [p])] at h3
  exact h1 (h3.trans (by norm_num [p]))

/-- `15` is not a cube in the base field. -/
theorem fifteen_noncube (x : Fp) : x ^ 3 ≠ 15 := by
  exact_mod_cast noncube 15 (by decide +kernel) (by decide +kernel) x

/-- `450`, the norm of `15(1 + i)`, is not a cube in the base field. -/
theorem norm_noncube (x : Fp) : x ^ 3 ≠ 450 := by
  exact_mod_cast noncube 450 (by decide +kernel) (by decide +kernel) x

/-- `b` for the curve over the base field. -/
def b1 : Fp := 15

/-- `b` for the twist. -/
def b2 : Fp2 := 15 * (1 + i)

instance good1 : GoodB b1 where
  two := fp_two_ne
  three := fp_three_ne
  nocube x h := fifteen_noncube (-x) (by rw [b1] at h; linear_combination -h)

theorem fp2_two_ne : (2 : Fp2) ≠ 0 := by
  intro h
  have := congrArg QuadraticAlgebra.re h
  simp at this
  exact fp_two_ne this

instance good2 : GoodB b2 where
  two := fp2_two_ne
  three := by
    intro h
    have := congrArg QuadraticAlgebra.re h
    simp at this
    exact fp_three_ne this
  nocube x h := by
    have e : x ^ 3 = -b2 := by linear_combination h
    have e2 := congrArg QuadraticAlgebra.norm e
    rw [map_pow, QuadraticAlgebra.norm_neg, b2, map_mul] at e2
    have n1 : QuadraticAlgebra.norm (1 + i : Fp2) = 2 := by
      rw [QuadraticAlgebra.norm_def]
      simp [i, QuadraticAlgebra.re_one, QuadraticAlgebra.im_one]; norm_num
    have n2 : QuadraticAlgebra.norm (15 : Fp2) = 225 := by
      rw [QuadraticAlgebra.norm_def, show (15 : Fp2).re = 15 from rfl, show (15 : Fp2).im = 0 from rfl]
      norm_num
    rw [n1, n2] at e2
    exact norm_noncube _ (e2.trans (by norm_num))

/-- The group of points over the base field. -/
abbrev G1 := Pt b1

/-- The group of points of the twist. -/
abbrev G2 := Pt b2

end Spec.B383
