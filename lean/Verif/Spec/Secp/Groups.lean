import Verif.Spec.Curve
import Verif.Spec.Secp.Field
/-!
# Specification: the curve group of secp256k1
-/

set_option exponentiation.threshold 2000

namespace Spec.Secp

theorem fp_two_ne : (2 : Fp) ≠ 0 := by
  have h2 : ((2 : Nat) : Fp) ≠ 0 := by
    rw [Ne, ZMod.natCast_eq_zero_iff]
    intro h
    have := Nat.le_of_dvd (by norm_num) h
    norm_num [p] at this
  exact_mod_cast h2

theorem fp_three_ne : (3 : Fp) ≠ 0 := by
  have h2 : ((3 : Nat) : Fp) ≠ 0 := by
    rw [Ne, ZMod.natCast_eq_zero_iff]
    intro h
    have := Nat.le_of_dvd (by norm_num) h
    norm_num [p] at this
  exact_mod_cast h2

/-- `7` is not a cube in the base field. -/
theorem seven_noncube (x : Fp) : x ^ 3 ≠ 7 := by
  intro h
  have hx : x ≠ 0 := by
    rintro rfl
    rw [zero_pow (by norm_num)] at h
    have h2 : ((7 : Nat) : Fp) = 0 := by exact_mod_cast h.symm
    rw [ZMod.natCast_eq_zero_iff] at h2
    have := Nat.le_of_dvd (by norm_num) h2
    norm_num [p] at this
  have h1 : x ^ (p - 1) = 1 := ZMod.pow_card_sub_one_eq_one hx
  have h2 : (7 : Fp) ^ ((p - 1) / 3) = 1 := by
    rw [← h, ← pow_mul, show 3 * ((p - 1) / 3) = p - 1 by norm_num [p], h1]
  have h3 : ((7 ^ ((p - 1) / 3) : Nat) : Fp) = ((1 : Nat) : Fp) := by push_cast; exact h2
  rw [ZMod.natCast_eq_natCast_iff, Nat.ModEq, ← Primes.powMod_eq p 7 400 _ (by norm_num [p])] at h3
  revert h3
  decide +kernel

/-- `b` of the curve equation `y² = x³ + b`. -/
def b1 : Fp := 7

instance good1 : GoodB b1 where
  two := fp_two_ne
  three := fp_three_ne
  nocube x h := seven_noncube (-x) (by rw [b1] at h; linear_combination -h)

/-- The group of points. -/
abbrev G1 := Pt b1

end Spec.Secp
