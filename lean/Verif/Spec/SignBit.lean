import Verif.Spec.Bytes
import Verif.Spec.Field
/-!
# Specification: the sign bit of the compressed encodings

`docBit` is the documented rule (is `y` the larger root?), `signBit` the rule the encoders follow.
-/

set_option exponentiation.threshold 2000

namespace Spec

/-- The documented bit `⌊2y/p⌋`. -/
def docBit (y : Nat) : Nat := if 2 * y > p then 1 else 0

/-- The bit in the encodings, in terms of the two leading bytes of the 48-byte number `y`:
1 if the first byte is at least 14, or it is 13 and the second is neither 0 nor 128. -/
def signBit (y : Nat) : Nat :=
  if 14 ≤ y / 256 ^ 47 ∨ (y / 256 ^ 47 = 13 ∧ y / 256 ^ 46 % 256 ≠ 0 ∧ y / 256 ^ 46 % 256 ≠ 128) then 1 else 0

theorem signBit_lt (y : Nat) : signBit y < 2 := by
  unfold signBit; split <;> norm_num

theorem toBE_succ (n v : Nat) : toBE (n + 1) v = UInt8.ofNat (v / 256 ^ n % 256) :: toBE n v := by
  induction n generalizing v with
  | zero => simp [toBE]
  | succ n ih =>
    rw [toBE, ih, toBE, List.cons_append]
    congr 3
    rw [Nat.div_div_eq_div_mul, pow_succ, mul_comm 256]

end Spec
