import Verif.Spec.B383.Tower
/-!
# Specification: the ate pairing

`E : y² = x³ + 15` over `Fp`, and its sextic twist `E' : y² = x³ + 15(1 + i)` over `Fp2`, are
isomorphic over `Fp12` by the untwisting map `(x, y) ↦ (x / W², y / W³)` from `E'` to `E`.
-/

set_option exponentiation.threshold 6000

namespace Spec.B383

/-- The (positive) parameter of the curve. -/
def xPar : Nat := 2 ^ 64 + 2 ^ 51 + 2 ^ 24 + 2 ^ 12 + 2 ^ 9

/-- The exponent of the final exponentiation: three times `(p¹² - 1) / r`. -/
def finalExp : Nat := 3 * ((p ^ 12 - 1) / r)

/-- The first coordinate of the untwisted point. -/
noncomputable def ux (x : Fp2) : Fp12 := ι2 x / W ^ 2

/-- The second coordinate of the untwisted point. -/
noncomputable def uy (y : Fp2) : Fp12 := ι2 y / W ^ 3

/-- The value at `(x, y)` of the vertical line through the untwisted point `A`; the function 1 for
the point at infinity. -/
noncomputable def vertAt (x : Fp) : G2 → Fp12
  | .zero => 1
  | .some a _ _ => ι1 x - ux a

/-- The value at `(x, y)` of the line through the untwisted points `A` and `B`: the chord, the
tangent, or a vertical line if `A`, `B` or `A + B` is the point at infinity. -/
noncomputable def lineAt (x y : Fp) : G2 → G2 → Fp12
  | .zero, B => vertAt x B
  | A, .zero => vertAt x A
  | .some a b _, .some c d _ =>
    if a = c ∧ b = -d then ι1 x - ux a
    else ι1 y - uy b - ι2 (if a = c then 3 * a ^ 2 / (2 * b) else (b - d) / (a - c)) / W * (ι1 x - ux a)

/-- The value at `(x, y)` of Miller's function `f_{n,Q}`, whose divisor is
`n (Q) - (n Q) - (n - 1) (O)`: the product of `l_{kQ,Q} / v_{(k+1)Q}` for `k < n`. -/
noncomputable def miller (x y : Fp) (Q : G2) : Nat → Fp12
  | 0 => 1
  | n + 1 => miller x y Q n * (lineAt x y (n • Q) Q / vertAt x ((n + 1) • Q))

/-- The ate pairing: `f_{x,Q}(P)` raised to the power `3 (p¹² - 1) / r`, where `x = xPar`. -/
noncomputable def pairing (Q : G2) : G1 → Fp12
  | .zero => 1
  | .some x y _ => miller x y Q xPar ^ finalExp

end Spec.B383
