import Mathlib.AlgebraicGeometry.EllipticCurve.Affine.Point
import Mathlib.Tactic.FieldSimp
import Mathlib.Tactic.LinearCombination
/-!
# Specification: curves `y² = x³ + b` and their groups

The group law is Mathlib's (`WeierstrassCurve.Affine.Point`).
-/

namespace Spec

variable {F : Type} [Field F] [DecidableEq F]

/-- The curve `y² = x³ + b`. -/
def curve (b : F) : WeierstrassCurve F := ⟨0, 0, 0, 0, b⟩

/-- The group of points of `y² = x³ + b`. -/
abbrev Pt (b : F) := (curve b).toAffine.Point

/-- Characteristic not 2 or 3 and no point with `y = 0`. -/
class GoodB (b : F) : Prop where
  two : (2 : F) ≠ 0
  three : (3 : F) ≠ 0
  nocube : ∀ x : F, x ^ 3 + b ≠ 0

namespace Pt

variable {b : F}

omit [DecidableEq F] in
theorem equation_iff {x y : F} : (curve b).toAffine.Equation x y ↔ y ^ 2 = x ^ 3 + b := by
  rw [WeierstrassCurve.Affine.equation_iff]
  simp [curve]

variable [g : GoodB b]

include g in
omit [DecidableEq F] in
theorem y_ne {x y : F} (h : y ^ 2 = x ^ 3 + b) : y ≠ 0 := by
  rintro rfl
  rw [zero_pow (by norm_num)] at h
  exact g.nocube x h.symm

include g in
omit [DecidableEq F] in
theorem nonsingular_iff {x y : F} : (curve b).toAffine.Nonsingular x y ↔ y ^ 2 = x ^ 3 + b := by
  rw [WeierstrassCurve.Affine.nonsingular_iff, equation_iff]
  simp only [curve, and_iff_left_iff_imp]
  intro h
  right
  have := y_ne h
  have h2 := g.two
  simp only [zero_mul, sub_zero]
  intro e
  apply mul_ne_zero h2 this
  linear_combination e

/-- The affine point with given coordinates. -/
def mk (x y : F) (h : y ^ 2 = x ^ 3 + b) : Pt b := .some x y (nonsingular_iff.2 h)

omit [DecidableEq F] in
theorem cases (P : Pt b) : P = 0 ∨ ∃ x y h, P = mk x y h := by
  cases P with
  | zero => left; rfl
  | some x y h => right; exact ⟨x, y, nonsingular_iff.1 h, rfl⟩

omit [DecidableEq F] in
theorem mk_ne {x y : F} (h : y ^ 2 = x ^ 3 + b) : mk x y h ≠ 0 :=
  WeierstrassCurve.Affine.Point.some_ne_zero _

omit [DecidableEq F] in
theorem mk_inj {x y x' y' : F} {h : y ^ 2 = x ^ 3 + b} {h' : y' ^ 2 = x' ^ 3 + b} :
    mk x y h = mk x' y' h' ↔ x = x' ∧ y = y' := by
  unfold mk
  constructor
  · intro e
    injection e with e1 e2
    exact ⟨e1, e2⟩
  · rintro ⟨rfl, rfl⟩; rfl

omit [DecidableEq F] in
theorem neg_mk {x y : F} (h : y ^ 2 = x ^ 3 + b) :
    -(mk x y h) = mk x (-y) (by rw [neg_sq]; exact h) := by
  unfold mk
  rw [WeierstrassCurve.Affine.Point.neg_some]
  congr 1
  simp [curve]

theorem add_opp {x y : F} (h : y ^ 2 = x ^ 3 + b) (h' : (-y) ^ 2 = x ^ 3 + b) :
    mk x y h + mk x (-y) h' = 0 := by
  have : mk x (-y) h' = -(mk x y h) := by rw [neg_mk]
  rw [this, add_neg_cancel]

/-- Addition of points with different `x`. -/
theorem add_ne {x y x' y' : F} (h : y ^ 2 = x ^ 3 + b) (h' : y' ^ 2 = x' ^ 3 + b) (hx : x ≠ x')
    {l x3 y3 : F} (hl : l * (x - x') = y - y') (hx3 : x3 = l ^ 2 - x - x')
    (hy3 : y3 = l * (x - x3) - y) :
    ∃ h3, mk x y h + mk x' y' h' = mk (b := b) x3 y3 h3 := by
  have e := WeierstrassCurve.Affine.Point.add_of_X_ne (W := (curve b).toAffine)
    (h₁ := nonsingular_iff.2 h) (h₂ := nonsingular_iff.2 h') hx
  have hd : x - x' ≠ 0 := sub_ne_zero.2 hx
  have hs : (curve b).toAffine.slope x x' y y' = l := by
    rw [WeierstrassCurve.Affine.slope_of_X_ne hx, div_eq_iff hd, hl]
  have e1 : (curve b).toAffine.addX x x' ((curve b).toAffine.slope x x' y y') = x3 := by
    rw [hs, hx3]; simp [WeierstrassCurve.Affine.addX, curve]
  have e2 : (curve b).toAffine.addY x x' y ((curve b).toAffine.slope x x' y y') = y3 := by
    rw [WeierstrassCurve.Affine.addY, WeierstrassCurve.Affine.negAddY, e1, hs,
      WeierstrassCurve.Affine.negY, hy3]
    simp [curve]; ring
  have h3 : y3 ^ 2 = x3 ^ 3 + b := by
    rw [← e1, ← e2]
    apply nonsingular_iff.1
    exact WeierstrassCurve.Affine.nonsingular_add (nonsingular_iff.2 h) (nonsingular_iff.2 h')
      (fun ⟨hx', _⟩ => hx hx')
  refine ⟨h3, ?_⟩
  unfold mk
  rw [e]
  congr 1

/-- Doubling. -/
theorem add_self {x y : F} (h : y ^ 2 = x ^ 3 + b) {l x3 y3 : F} (hl : l * (2 * y) = 3 * x ^ 2)
    (hx3 : x3 = l ^ 2 - x - x) (hy3 : y3 = l * (x - x3) - y) :
    ∃ h3, mk x y h + mk x y h = mk (b := b) x3 y3 h3 := by
  have hy : y ≠ (curve b).toAffine.negY x y := by
    rw [WeierstrassCurve.Affine.negY]
    simp only [curve, zero_mul, sub_zero]
    intro e
    apply mul_ne_zero g.two (y_ne h)
    linear_combination e
  have e := WeierstrassCurve.Affine.Point.add_self_of_Y_ne (W := (curve b).toAffine)
    (h₁ := nonsingular_iff.2 h) hy
  have hs : (curve b).toAffine.slope x x y y = l := by
    rw [WeierstrassCurve.Affine.slope_of_Y_ne rfl hy, div_eq_iff (sub_ne_zero.2 hy),
      WeierstrassCurve.Affine.negY]
    simp only [curve, zero_mul, sub_zero, mul_zero, add_zero]
    linear_combination -hl
  have e1 : (curve b).toAffine.addX x x ((curve b).toAffine.slope x x y y) = x3 := by
    rw [hs, hx3]; simp [WeierstrassCurve.Affine.addX, curve]
  have e2 : (curve b).toAffine.addY x x y ((curve b).toAffine.slope x x y y) = y3 := by
    rw [WeierstrassCurve.Affine.addY, WeierstrassCurve.Affine.negAddY, e1, hs,
      WeierstrassCurve.Affine.negY, hy3]
    simp [curve]; ring
  have h3 : y3 ^ 2 = x3 ^ 3 + b := by
    rw [← e1, ← e2]
    apply nonsingular_iff.1
    exact WeierstrassCurve.Affine.nonsingular_add (nonsingular_iff.2 h) (nonsingular_iff.2 h)
      (fun ⟨_, hy'⟩ => hy hy')
  refine ⟨h3, ?_⟩
  unfold mk
  rw [e]
  congr 1

end Pt

end Spec
