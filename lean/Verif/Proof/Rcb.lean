import Verif.Spec.Curve
/-!
# The complete projective addition formulas for `y² = x³ + b`

(Renes, Costello, Batina; the formulas of `ECP::add`/`ECP2::add` and `dbl`.)
-/

namespace Amcl

open Spec

variable {F : Type} [Field F] [DecidableEq F] {b : F} [g : GoodB b]

/-- `(X : Y : Z)` are projective coordinates of `P`. -/
def Proj (X Y Z : F) (P : Pt b) : Prop :=
  (X = 0 ∧ Y ≠ 0 ∧ Z = 0 ∧ P = 0) ∨
  (Z ≠ 0 ∧ ∃ x y h, X = x * Z ∧ Y = y * Z ∧ P = Pt.mk x y h)

namespace Rcb

theorem z_ne {x1 y1 x2 y2 : F} (h1 : y1 ^ 2 = x1 ^ 3 + b) (h2 : y2 ^ 2 = x2 ^ 3 + b) (hx : x1 ≠ x2) :
    (y1 + y2) * (y1 * y2 + 3 * b) + 3 * x1 * x2 * (x1 * y2 + x2 * y1) ≠ 0 := by
  have hd : x1 - x2 ≠ 0 := sub_ne_zero.2 hx
  have hi : (x1 - x2) * (x1 - x2)⁻¹ = 1 := mul_inv_cancel₀ hd
  generalize (x1 - x2)⁻¹ = d at hi
  -- the difference of the two points
  obtain ⟨h3, -⟩ := Pt.add_ne (x' := x2) (y' := -y2) h1 (by rw [neg_sq]; exact h2) hx
    (l := (y1 + y2) * d) (by linear_combination (y1 + y2) * hi) rfl rfl
  have hy := Pt.y_ne h3
  intro e
  apply hy
  apply mul_right_cancel₀ (pow_ne_zero 3 hd)
  rw [zero_mul]
  set l := (y1 + y2) * d with hl
  have hl' : l * (x1 - x2) = y1 + y2 := by rw [hl]; linear_combination (y1 + y2) * hi
  have e2 : (l * (x1 - (l ^ 2 - x1 - x2)) - y1) * (x1 - x2) ^ 3 =
      (y1 + y2) * ((2 * x1 + x2) * (x1 - x2) ^ 2 - (y1 + y2) ^ 2) - y1 * (x1 - x2) ^ 3 := by
    rw [← hl']; ring
  rw [e2]
  linear_combination -e - (2 * (y1 + y2) - y1) * h1 - (y1 + y2 + y1) * h2

omit [DecidableEq F] g in
theorem x_id {x1 y1 x2 y2 : F} (h1 : y1 ^ 2 = x1 ^ 3 + b) (h2 : y2 ^ 2 = x2 ^ 3 + b) :
    (x1 - x2) ^ 2 * ((x1 * y2 + x2 * y1) * (y1 * y2 - 3 * b) - 3 * b * (y1 + y2) * (x1 + x2)) =
      ((y1 - y2) ^ 2 - (x1 + x2) * (x1 - x2) ^ 2) *
        ((y1 + y2) * (y1 * y2 + 3 * b) + 3 * x1 * x2 * (x1 * y2 + x2 * y1)) := by grind

omit [DecidableEq F] g in
theorem y_id {x1 y1 x2 y2 : F} (h1 : y1 ^ 2 = x1 ^ 3 + b) (h2 : y2 ^ 2 = x2 ^ 3 + b) :
    (x1 - x2) ^ 3 * ((y1 * y2 + 3 * b) * (y1 * y2 - 3 * b) + 9 * b * x1 * x2 * (x1 + x2)) =
      ((y1 - y2) * (x1 * (x1 - x2) ^ 2 - ((y1 - y2) ^ 2 - (x1 + x2) * (x1 - x2) ^ 2))
          - y1 * (x1 - x2) ^ 3) *
        ((y1 + y2) * (y1 * y2 + 3 * b) + 3 * x1 * x2 * (x1 * y2 + x2 * y1)) := by grind

omit [DecidableEq F] in
include g in
theorem y4_ne {x y : F} (h : y ^ 2 = x ^ 3 + b) [DecidableEq F] :
    y ^ 4 + 18 * b * y ^ 2 - 27 * b ^ 2 ≠ 0 := by
  have hy := Pt.y_ne h
  have h2y : 2 * y ≠ 0 := mul_ne_zero g.two hy
  have hi : 2 * y * (2 * y)⁻¹ = 1 := mul_inv_cancel₀ h2y
  generalize (2 * y)⁻¹ = d at hi
  obtain ⟨h3, -⟩ := Pt.add_self h (l := 3 * x ^ 2 * d) (by linear_combination 3 * x ^ 2 * hi) rfl rfl
  have hy3 := Pt.y_ne h3
  intro e
  apply hy3
  apply mul_right_cancel₀ (pow_ne_zero 3 h2y)
  rw [zero_mul]
  set l := 3 * x ^ 2 * d with hl
  have hl' : l * (2 * y) = 3 * x ^ 2 := by rw [hl]; linear_combination 3 * x ^ 2 * hi
  have e2 : (l * (x - (l ^ 2 - x - x)) - y) * (2 * y) ^ 3 =
      3 * x ^ 2 * (3 * x * (2 * y) ^ 2 - (3 * x ^ 2) ^ 2) - y * (2 * y) ^ 3 := by
    rw [← hl']; ring
  rw [e2]
  have hx : x ^ 3 = y ^ 2 - b := by rw [h]; ring
  have e3 : 3 * x ^ 2 * (3 * x * (2 * y) ^ 2 - (3 * x ^ 2) ^ 2) - y * (2 * y) ^ 3 =
      36 * x ^ 3 * y ^ 2 - 27 * (x ^ 3) ^ 2 - 8 * y ^ 4 := by ring
  rw [e3, hx]
  linear_combination e

end Rcb

theorem Proj.dbl {X Y Z : F} {P : Pt b} (h : Proj X Y Z P) :
    Proj (2 * (Y * Y - 9 * b * (Z * Z)) * (X * Y))
      ((Y * Y + 3 * b * (Z * Z)) * (Y * Y - 9 * b * (Z * Z)) + 24 * b * (Y * Y) * (Z * Z))
      (8 * (Y * Y) * (Y * Z)) (P + P) := by
  rcases h with ⟨rfl, hY, rfl, rfl⟩ | ⟨hZ, x, y, h, rfl, rfl, rfl⟩
  · left
    refine ⟨by ring, ?_, by ring, add_zero _⟩
    have : (Y * Y) * (Y * Y) ≠ 0 := mul_ne_zero (mul_ne_zero hY hY) (mul_ne_zero hY hY)
    convert this using 1; ring
  · right
    have hy := Pt.y_ne h
    have h2y : 2 * y ≠ 0 := mul_ne_zero g.two hy
    have hi : 2 * y * (2 * y)⁻¹ = 1 := mul_inv_cancel₀ h2y
    generalize (2 * y)⁻¹ = d at hi
    obtain ⟨h3, e⟩ := Pt.add_self h (l := 3 * x ^ 2 * d) (by linear_combination 3 * x ^ 2 * hi) rfl rfl
    set l := 3 * x ^ 2 * d with hl
    have hl' : l * (2 * y) = 3 * x ^ 2 := by rw [hl]; linear_combination 3 * x ^ 2 * hi
    refine ⟨?_, _, _, h3, ?_, ?_, e⟩
    · have : (2 * y) ^ 3 * Z ^ 4 ≠ 0 := mul_ne_zero (pow_ne_zero 3 h2y) (pow_ne_zero 4 hZ)
      convert this using 1; ring
    · have e2 : (l ^ 2 - x - x) * (8 * (y * Z * (y * Z)) * (y * Z * Z)) =
          ((l * (2 * y)) ^ 2 - 2 * x * (2 * y) ^ 2) * (2 * y * Z ^ 4) := by ring
      rw [e2, hl']
      linear_combination 18 * x * y * Z ^ 4 * h
    · have e2 : (l * (x - (l ^ 2 - x - x)) - y) * (8 * (y * Z * (y * Z)) * (y * Z * Z)) =
          (l * (2 * y) * (3 * x * (2 * y) ^ 2 - (l * (2 * y)) ^ 2) - y * (2 * y) ^ 3) * Z ^ 4 := by ring
      rw [e2, hl']
      have hx : x ^ 3 = y ^ 2 - b := by rw [h]; ring
      have e3 : 3 * x ^ 2 * (3 * x * (2 * y) ^ 2 - (3 * x ^ 2) ^ 2) - y * (2 * y) ^ 3 =
          36 * x ^ 3 * y ^ 2 - 27 * (x ^ 3) ^ 2 - 8 * y ^ 4 := by ring
      rw [e3, hx]
      ring

/-- The addition formulas are correct for every pair of points. -/
theorem Proj.add {X1 Y1 Z1 X2 Y2 Z2 : F} {P Q : Pt b} (hP : Proj X1 Y1 Z1 P) (hQ : Proj X2 Y2 Z2 Q) :
    Proj ((X1 * Y2 + X2 * Y1) * (Y1 * Y2 - 3 * b * (Z1 * Z2))
        - 3 * b * (Y1 * Z2 + Y2 * Z1) * (X1 * Z2 + X2 * Z1))
      ((Y1 * Y2 + 3 * b * (Z1 * Z2)) * (Y1 * Y2 - 3 * b * (Z1 * Z2))
        + 9 * b * (X1 * X2) * (X1 * Z2 + X2 * Z1))
      ((Y1 * Z2 + Y2 * Z1) * (Y1 * Y2 + 3 * b * (Z1 * Z2)) + 3 * (X1 * X2) * (X1 * Y2 + X2 * Y1))
      (P + Q) := by
  rcases hP with ⟨rfl, hY1, rfl, rfl⟩ | ⟨hZ1, x1, y1, h1, rfl, rfl, rfl⟩ <;>
  rcases hQ with ⟨rfl, hY2, rfl, rfl⟩ | ⟨hZ2, x2, y2, h2, rfl, rfl, rfl⟩
  · left
    refine ⟨by ring, ?_, by ring, add_zero _⟩
    have : (Y1 * Y2) * (Y1 * Y2) ≠ 0 := mul_ne_zero (mul_ne_zero hY1 hY2) (mul_ne_zero hY1 hY2)
    convert this using 1; ring
  · right
    have hy2 := Pt.y_ne h2
    refine ⟨?_, x2, y2, h2, by ring, by ring, zero_add _⟩
    have : Y1 * Z2 * (Y1 * (y2 * Z2)) ≠ 0 :=
      mul_ne_zero (mul_ne_zero hY1 hZ2) (mul_ne_zero hY1 (mul_ne_zero hy2 hZ2))
    convert this using 1; ring
  · right
    have hy1 := Pt.y_ne h1
    refine ⟨?_, x1, y1, h1, by ring, by ring, add_zero _⟩
    have : Y2 * Z1 * (Y2 * (y1 * Z1)) ≠ 0 :=
      mul_ne_zero (mul_ne_zero hY2 hZ1) (mul_ne_zero hY2 (mul_ne_zero hy1 hZ1))
    convert this using 1; ring
  · have hz4 : Z1 ^ 2 * Z2 ^ 2 ≠ 0 := mul_ne_zero (pow_ne_zero 2 hZ1) (pow_ne_zero 2 hZ2)
    by_cases hx : x1 = x2
    · subst hx
      have hyy : (y1 - y2) * (y1 + y2) = 0 := by linear_combination h1 - h2
      rcases mul_eq_zero.1 hyy with hy | hy
      · -- doubling
        have hy' : y2 = y1 := by linear_combination -hy
        subst hy'
        have hd := (Proj.dbl (b := b) (X := x1) (Y := y2) (Z := 1) (P := Pt.mk x1 y2 h1)
          (Or.inr ⟨one_ne_zero, x1, y2, h1, by ring, by ring, rfl⟩))
        rcases hd with ⟨_, _, _, e⟩ | ⟨hz, x3, y3, h3, ex, ey, e⟩
        · exfalso
          have : 8 * (y2 * y2) * (y2 * 1) ≠ 0 := by
            have := pow_ne_zero 3 (mul_ne_zero g.two (Pt.y_ne h1))
            convert this using 1; ring
          contradiction
        · right
          have ez : (y2 * Z1 * Z2 + y2 * Z2 * Z1) * (y2 * Z1 * (y2 * Z2) + 3 * b * (Z1 * Z2)) +
              3 * (x1 * Z1 * (x1 * Z2)) * (x1 * Z1 * (y2 * Z2) + x1 * Z2 * (y2 * Z1)) =
              8 * (y2 * y2) * (y2 * 1) * (Z1 ^ 2 * Z2 ^ 2) := by
            linear_combination -6 * y2 * (Z1 ^ 2 * Z2 ^ 2) * h1
          refine ⟨?_, x3, y3, h3, ?_, ?_, e⟩
          · rw [ez]; exact mul_ne_zero hz hz4
          · rw [ez]
            linear_combination (Z1 ^ 2 * Z2 ^ 2) * ex
          · rw [ez]
            linear_combination (Z1 ^ 2 * Z2 ^ 2) * ey - 18 * b * Z1 ^ 2 * Z2 ^ 2 * h1
      · -- opposite points
        have hy' : y2 = -y1 := by linear_combination hy
        subst hy'
        left
        refine ⟨by ring, ?_, by ring, Pt.add_opp h1 h2⟩
        have := mul_ne_zero (Rcb.y4_ne h1) hz4
        convert this using 1
        linear_combination -18 * b * Z1 ^ 2 * Z2 ^ 2 * h1
    · right
      have hd : x1 - x2 ≠ 0 := sub_ne_zero.2 hx
      have hi : (x1 - x2) * (x1 - x2)⁻¹ = 1 := mul_inv_cancel₀ hd
      generalize (x1 - x2)⁻¹ = d at hi
      obtain ⟨h3, e⟩ := Pt.add_ne h1 h2 hx (l := (y1 - y2) * d)
        (by linear_combination (y1 - y2) * hi) rfl rfl
      set l := (y1 - y2) * d with hl
      have hl' : l * (x1 - x2) = y1 - y2 := by rw [hl]; linear_combination (y1 - y2) * hi
      have hz := Rcb.z_ne h1 h2 hx
      have ez : (y1 * Z1 * Z2 + y2 * Z2 * Z1) * (y1 * Z1 * (y2 * Z2) + 3 * b * (Z1 * Z2)) +
              3 * (x1 * Z1 * (x2 * Z2)) * (x1 * Z1 * (y2 * Z2) + x2 * Z2 * (y1 * Z1)) =
          ((y1 + y2) * (y1 * y2 + 3 * b) + 3 * x1 * x2 * (x1 * y2 + x2 * y1)) * (Z1 ^ 2 * Z2 ^ 2) := by
        ring
      have ix := Rcb.x_id h1 h2
      have iy := Rcb.y_id h1 h2
      generalize hzz : (y1 + y2) * (y1 * y2 + 3 * b) + 3 * x1 * x2 * (x1 * y2 + x2 * y1) = zz at *
      refine ⟨?_, _, _, h3, ?_, ?_, e⟩
      · rw [ez]; exact mul_ne_zero hz hz4
      · rw [ez]
        apply mul_left_cancel₀ (pow_ne_zero 2 hd)
        have e2 : (x1 - x2) ^ 2 * ((l ^ 2 - x1 - x2) * (zz * (Z1 ^ 2 * Z2 ^ 2))) =
            ((l * (x1 - x2)) ^ 2 - (x1 + x2) * (x1 - x2) ^ 2) * zz * (Z1 ^ 2 * Z2 ^ 2) := by ring
        rw [e2, hl', ← ix]
        ring
      · rw [ez]
        apply mul_left_cancel₀ (pow_ne_zero 3 hd)
        have e2 : (x1 - x2) ^ 3 * ((l * (x1 - (l ^ 2 - x1 - x2)) - y1) * (zz * (Z1 ^ 2 * Z2 ^ 2))) =
            ((l * (x1 - x2)) * (x1 * (x1 - x2) ^ 2 - ((l * (x1 - x2)) ^ 2 - (x1 + x2) * (x1 - x2) ^ 2))
              - y1 * (x1 - x2) ^ 3) * zz * (Z1 ^ 2 * Z2 ^ 2) := by ring
        rw [e2, hl', ← iy]
        ring

omit [DecidableEq F] in
theorem Proj.neg {X Y Z : F} {P : Pt b} (h : Proj X Y Z P) : Proj X (-Y) Z (-P) := by
  rcases h with ⟨rfl, hY, rfl, rfl⟩ | ⟨hZ, x, y, h, rfl, rfl, rfl⟩
  · left
    exact ⟨rfl, neg_ne_zero.2 hY, rfl, WeierstrassCurve.Affine.Point.neg_zero⟩
  · right
    exact ⟨hZ, x, -y, by rw [neg_sq]; exact h, rfl, by ring, Pt.neg_mk h⟩

omit [DecidableEq F] in
theorem Proj.inf_iff {X Y Z : F} {P : Pt b} (h : Proj X Y Z P) : (X = 0 ∧ Z = 0) ↔ P = 0 := by
  rcases h with ⟨rfl, hY, rfl, rfl⟩ | ⟨hZ, x, y, h, rfl, rfl, rfl⟩
  · simp
  · simp [hZ, Pt.mk_ne h]

omit [DecidableEq F] in
/-- Cross-multiplied equality of coordinates is equality of points. -/
theorem Proj.eq_iff {X1 Y1 Z1 X2 Y2 Z2 : F} {P Q : Pt b} (hP : Proj X1 Y1 Z1 P)
    (hQ : Proj X2 Y2 Z2 Q) : (X1 * Z2 = X2 * Z1 ∧ Y1 * Z2 = Y2 * Z1) ↔ P = Q := by
  rcases hP with ⟨rfl, hY1, rfl, rfl⟩ | ⟨hZ1, x1, y1, h1, rfl, rfl, rfl⟩ <;>
  rcases hQ with ⟨rfl, hY2, rfl, rfl⟩ | ⟨hZ2, x2, y2, h2, rfl, rfl, rfl⟩
  · simp
  · simp [hY1, hZ2, (Pt.mk_ne h2).symm]
  · simp [hY2, hZ1, Pt.mk_ne h1]
  · rw [Pt.mk_inj]
    have hz := mul_ne_zero hZ1 hZ2
    constructor
    · rintro ⟨e1, e2⟩
      exact ⟨mul_right_cancel₀ hz (by linear_combination e1), mul_right_cancel₀ hz (by linear_combination e2)⟩
    · rintro ⟨rfl, rfl⟩
      exact ⟨by ring, by ring⟩

omit [DecidableEq F] in
theorem Proj.aff {X Y Z : F} {P : Pt b} (h : Proj X Y Z P) (h0 : P ≠ 0) :
    Z ≠ 0 ∧ ∃ h', P = Pt.mk (X * Z⁻¹) (Y * Z⁻¹) h' := by
  rcases h with ⟨rfl, hY, rfl, rfl⟩ | ⟨hZ, x, y, h, rfl, rfl, rfl⟩
  · exact absurd rfl h0
  · have ex : x * Z * Z⁻¹ = x := by field_simp
    have ey : y * Z * Z⁻¹ = y := by field_simp
    refine ⟨hZ, by rw [ex, ey]; exact h, ?_⟩
    rw [Pt.mk_inj]
    exact ⟨ex.symm, ey.symm⟩

omit [DecidableEq F] in
theorem Proj.mk {x y : F} (h : y ^ 2 = x ^ 3 + b) : Proj x y 1 (Pt.mk x y h) :=
  Or.inr ⟨one_ne_zero, x, y, h, by ring, by ring, rfl⟩

omit [DecidableEq F] in
theorem Proj.zero {Y : F} (h : Y ≠ 0) : Proj 0 Y 0 (0 : Pt b) := Or.inl ⟨rfl, h, rfl, rfl⟩

omit [DecidableEq F] in
theorem Proj.coords {X Y Z : F} {P : Pt b} (h : Proj X Y Z P) (hZ : Z = 1) :
    ∃ h', P = Pt.mk X Y h' := by
  rcases h with ⟨rfl, hY, rfl, rfl⟩ | ⟨_, x, y, h, rfl, rfl, rfl⟩
  · exact absurd hZ zero_ne_one
  · subst hZ
    refine ⟨by simpa using h, ?_⟩
    rw [Pt.mk_inj]
    simp

omit [DecidableEq F] in
theorem Proj.congr {X Y Z X' Y' Z' : F} {P P' : Pt b} (h : Proj X Y Z P) (hX : X = X') (hY : Y = Y')
    (hZ : Z = Z') (hP : P = P') : Proj X' Y' Z' P' := by subst hX hY hZ hP; exact h

end Amcl
