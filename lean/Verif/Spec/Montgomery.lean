import Mathlib.AlgebraicGeometry.EllipticCurve.Affine.Point
/-!
# Specification: Montgomery curves `y² = x³ + A x² + x`

The group law is Mathlib's (`WeierstrassCurve.Affine.Point`).
-/

namespace Spec

variable {F : Type} [Field F] [DecidableEq F]

/-- The curve `y² = x³ + A x² + x`. -/
def montgomery (A : F) : WeierstrassCurve F := ⟨0, A, 0, 1, 0⟩

/-- The group of its points. -/
abbrev MPt (A : F) := (montgomery A).toAffine.Point

/-- `X : Z` is the abscissa of the point; the one of infinity is `1 : 0`. -/
def HasX {A : F} (X Z : F) : MPt A → Prop
  | .zero => X ≠ 0 ∧ Z = 0
  | .some x _ _ => Z ≠ 0 ∧ X = x * Z

end Spec
