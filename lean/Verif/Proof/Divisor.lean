import Verif.Spec.Curve
/-!
# Lines on an elliptic curve and their divisors

For points `A`, `B` let `line A B` be the chord (or tangent, or vertical line) through them, and
`vert A` the vertical line through `A`. The ideal relation
`vert (A + B) · D A · D B = line A B · D (A + B)` gives the cocycle relation of Miller's functions
up to a constant.
-/

open Polynomial Polynomial.Bivariate

namespace Spec.Div

open WeierstrassCurve.Affine WeierstrassCurve.Affine.CoordinateRing

variable {F : Type} [Field F] [DecidableEq F] {E : WeierstrassCurve.Affine F}

omit [DecidableEq F] in
/-- The units of the coordinate ring are the constants. -/
theorem unit_const {u : E.CoordinateRing} (h : IsUnit u) : ∃ c : F, c ≠ 0 ∧ u = algebraMap F _ c := by
  obtain ⟨p, q, rfl⟩ := exists_smul_basis_eq u
  have hn : IsUnit (Algebra.norm F[X] (p • (1 : E.CoordinateRing) + q • mk E Y)) := h.map _
  have hd := degree_eq_zero_of_isUnit hn
  rw [degree_norm_smul_basis] at hd
  have hq : q = 0 := by
    by_contra hq
    have h1 : 2 • q.degree + 3 ≤ 0 := hd ▸ le_max_right _ _
    rw [degree_eq_natDegree hq] at h1
    have h2 : ((2 * q.natDegree + 3 : ℕ) : WithBot ℕ) ≤ ((0 : ℕ) : WithBot ℕ) := by
      push_cast
      rw [nsmul_eq_mul] at h1
      exact_mod_cast h1
    have := Nat.cast_le.1 h2
    omega
  subst hq
  have hp0 : p ≠ 0 := by
    rintro rfl
    simp at h
  have hp : p.natDegree = 0 := by
    have h1 : 2 • p.degree ≤ 0 := hd ▸ le_max_left _ _
    rw [degree_eq_natDegree hp0] at h1
    have h2 : ((2 * p.natDegree : ℕ) : WithBot ℕ) ≤ ((0 : ℕ) : WithBot ℕ) := by
      push_cast
      rw [nsmul_eq_mul] at h1
      exact_mod_cast h1
    have := Nat.cast_le.1 h2
    omega
  rw [eq_C_of_natDegree_eq_zero hp]
  refine ⟨p.coeff 0, ?_, ?_⟩
  · intro e
    apply hp0
    rw [eq_C_of_natDegree_eq_zero hp, e, C_0]
  · rw [zero_smul, add_zero, IsScalarTower.algebraMap_apply F F[X], Algebra.algebraMap_eq_smul_one (A := E.CoordinateRing)]
    rfl

/-- The ideal of a point. -/
noncomputable def D : E.Point → Ideal E.CoordinateRing
  | .zero => ⊤
  | .some x y _ => XYIdeal E x (C y)

/-- The vertical line through a point. -/
noncomputable def vert : E.Point → E.CoordinateRing
  | .zero => 1
  | .some x _ _ => XClass E x

/-- The line through two points. -/
noncomputable def line : E.Point → E.Point → E.CoordinateRing
  | .zero, B => vert B
  | A, .zero => vert A
  | .some x₁ y₁ _, .some x₂ y₂ _ =>
    if x₁ = x₂ ∧ y₁ = E.negY x₂ y₂ then XClass E x₁
    else YClass E (linePolynomial x₁ y₁ (E.slope x₁ x₂ y₁ y₂))

omit [DecidableEq F] in
theorem D_zero : D (0 : E.Point) = ⊤ := rfl

omit [DecidableEq F] in
theorem vert_zero : vert (0 : E.Point) = 1 := rfl

theorem zero_line (B : E.Point) : line 0 B = vert B := rfl

theorem line_zero (A : E.Point) : line A 0 = vert A := by cases A <;> rfl

omit [DecidableEq F] in
theorem vert_ne (A : E.Point) : vert A ≠ 0 := by
  cases A with
  | zero => exact one_ne_zero
  | some x y h => exact XClass_ne_zero _

theorem line_ne (A B : E.Point) : line A B ≠ 0 := by
  cases A with
  | zero => exact vert_ne B
  | some x y h =>
    cases B with
    | zero => rw [← Point.zero_def, line_zero]; exact vert_ne (E := E) _
    | some x' y' h' =>
      simp only [line]
      split
      · exact XClass_ne_zero _
      · exact YClass_ne_zero _

omit [DecidableEq F] in
theorem D_neg (A : E.Point) : D (-A) * D A = Ideal.span {vert A} := by
  cases A with
  | zero => simp [D, vert, Point.neg_def, Point.neg]
  | some x y h => exact XYIdeal_neg_mul h

theorem line_ideal (A B : E.Point) :
    Ideal.span {vert (A + B)} * (D A * D B) = Ideal.span {line A B} * D (A + B) := by
  cases A with
  | zero =>
    rw [← Point.zero_def, zero_add]
    rw [D_zero, zero_line, Ideal.top_mul]
  | some x y h =>
    cases B with
    | zero =>
      rw [← Point.zero_def, add_zero]
      rw [D_zero, line_zero, Ideal.mul_top]
    | some x' y' h' =>
      by_cases hc : x = x' ∧ y = E.negY x' y'
      · rw [Point.add_of_Y_eq hc.1 hc.2]
        simp only [line, if_pos hc]
        rw [vert_zero, D_zero, Ideal.span_singleton_one, Ideal.top_mul, Ideal.mul_top]
        obtain ⟨rfl, rfl⟩ := hc
        exact XYIdeal_neg_mul h'
      · rw [Point.add_some hc]
        simp only [line, if_neg hc]
        exact XYIdeal_mul_XYIdeal h.1 h'.1 hc

omit [DecidableEq F] in
/-- Two elements with the same ideal up to a point differ by a constant. -/
theorem const_of_ideal {a b : E.CoordinateRing} {A : E.Point}
    (h : Ideal.span {a} * D A = Ideal.span {b} * D A) : ∃ c : F, c ≠ 0 ∧ a = algebraMap F _ c * b := by
  have h1 := congrArg (fun I => I * D (-A)) h
  simp only [mul_assoc, mul_comm (D A), D_neg, Ideal.span_singleton_mul_span_singleton,
    Ideal.span_singleton_eq_span_singleton] at h1
  obtain ⟨u, hu⟩ := h1
  obtain ⟨c, hc, e⟩ := unit_const u.isUnit
  refine ⟨c⁻¹, inv_ne_zero hc, ?_⟩
  have h2 : algebraMap F E.CoordinateRing c⁻¹ * algebraMap F E.CoordinateRing c = 1 := by
    rw [← map_mul, inv_mul_cancel₀ hc, map_one]
  apply mul_right_cancel₀ (vert_ne A)
  rw [e] at hu
  linear_combination (-a * vert A) * h2 + algebraMap F E.CoordinateRing c⁻¹ * hu

/-- Miller's functions form a cocycle, up to a constant. -/
theorem cocycle (A B C : E.Point) : ∃ c : F, c ≠ 0 ∧
    vert (B + C) * (line A B * line (A + B) C) =
      algebraMap F _ c * (vert (A + B) * (line B C * line A (B + C))) := by
  apply const_of_ideal (A := A + B + C)
  have h1 := line_ideal A B
  have h2 := line_ideal (A + B) C
  have h3 := line_ideal B C
  have h4 := line_ideal A (B + C)
  rw [← add_assoc] at h4
  simp only [← Ideal.span_singleton_mul_span_singleton]
  generalize Ideal.span {vert (A + B)} = vab at *
  generalize Ideal.span {vert (B + C)} = vbc at *
  generalize Ideal.span {vert (A + B + C)} = vabc at *
  generalize Ideal.span {line A B} = lab at *
  generalize Ideal.span {line B C} = lbc at *
  generalize Ideal.span {line (A + B) C} = labc at *
  generalize Ideal.span {line A (B + C)} = labc' at *
  calc vbc * (lab * labc) * D (A + B + C) = vbc * lab * (labc * D (A + B + C)) := by ring
    _ = vbc * vabc * (lab * D (A + B)) * D C := by rw [← h2]; ring
    _ = vab * vabc * D A * (vbc * (D B * D C)) := by rw [← h1]; ring
    _ = vab * lbc * (vabc * (D A * D (B + C))) := by rw [h3]; ring
    _ = _ := by rw [h4]; ring

/-- The line does not depend on the order of the points, up to a constant. -/
theorem line_comm (A B : E.Point) : ∃ c : F, c ≠ 0 ∧ line A B = algebraMap F _ c * line B A := by
  apply const_of_ideal (A := A + B)
  rw [← line_ideal, add_comm A B, ← line_ideal, mul_comm (D A)]

end Spec.Div
