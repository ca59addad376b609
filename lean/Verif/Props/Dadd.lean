import Verif.Proof.EcpAdd
import Verif.Spec.Montgomery
import Verif.Model.Dadd
import Mathlib.Tactic.LinearCombination
/-!
# C79: differential addition
-/

set_option exponentiation.threshold 2000

namespace Props
open Amcl Spec WeierstrassCurve.Affine

section
variable {F : Type} [Field F] [DecidableEq F] {A : F}

omit [DecidableEq F] in
theorem mont_eq {x y : F} (h : (montgomery A).toAffine.Nonsingular x y) : y ^ 2 = x ^ 3 + A * x ^ 2 + x := by
  have := (WeierstrassCurve.Affine.equation_iff x y).1 h.1
  simpa [montgomery] using this

omit [DecidableEq F] in
theorem mont_neg {x y : F} (h : (montgomery A).toAffine.Nonsingular x y) :
    ∃ h', -(Point.some x y h) = Point.some (W' := (montgomery A).toAffine) x (-y) h' := by
  have h' : (montgomery A).toAffine.Nonsingular x (-y) := by
    have := (WeierstrassCurve.Affine.nonsingular_neg x y).2 h
    simpa [WeierstrassCurve.Affine.negY, montgomery] using this
  refine ⟨h', ?_⟩
  rw [Point.neg_some]
  congr 1
  simp [WeierstrassCurve.Affine.negY, montgomery]

/-- The abscissa of a sum of points with different abscissas. -/
theorem mont_add {x₁ y₁ x₂ y₂ : F} (h₁ : (montgomery A).toAffine.Nonsingular x₁ y₁) (h₂ : (montgomery A).toAffine.Nonsingular x₂ y₂)
    (hx : x₁ ≠ x₂) : ∃ x₃ y₃ h₃, Point.some x₁ y₁ h₁ + Point.some x₂ y₂ h₂ = Point.some (W' := (montgomery A).toAffine) x₃ y₃ h₃ ∧
      (x₃ + A + x₁ + x₂) * (x₁ - x₂) ^ 2 = (y₁ - y₂) ^ 2 := by
  refine ⟨_, _, _, Point.add_of_X_ne hx, ?_⟩
  have hd : x₁ - x₂ ≠ 0 := sub_ne_zero.2 hx
  rw [WeierstrassCurve.Affine.slope_of_X_ne hx, WeierstrassCurve.Affine.addX]
  simp only [montgomery]
  field_simp
  ring

/-- The abscissa of a double. -/
theorem mont_dbl (h2 : (2 : F) ≠ 0) {x y : F} (h : (montgomery A).toAffine.Nonsingular x y) (hy : y ≠ 0) :
    ∃ x₃ y₃ h₃, Point.some x y h + Point.some x y h = Point.some (W' := (montgomery A).toAffine) x₃ y₃ h₃ ∧
      (x₃ + A + 2 * x) * (2 * y) ^ 2 = (3 * x ^ 2 + 2 * A * x + 1) ^ 2 := by
  have hn : y ≠ (montgomery A).toAffine.negY x y := by
    rw [WeierstrassCurve.Affine.negY]
    simp only [montgomery, zero_mul, sub_zero]
    intro e
    exact mul_ne_zero h2 hy (by linear_combination e)
  refine ⟨_, _, _, Point.add_self_of_Y_ne hn, ?_⟩
  rw [WeierstrassCurve.Affine.slope_of_Y_ne rfl hn, WeierstrassCurve.Affine.addX, WeierstrassCurve.Affine.negY]
  simp only [montgomery, zero_mul, sub_zero, add_zero]
  rw [show y - -y = 2 * y by ring]
  have h3 := mul_ne_zero h2 hy
  generalize 2 * y = z at h3 ⊢
  field_simp
  ring

/-- Montgomery's formula, with all exceptional cases. -/
theorem mont_diff (h2 : (2 : F) ≠ 0) {P Q : MPt A} {X₁ Z₁ X₂ Z₂ x y : F} (h : (montgomery A).toAffine.Nonsingular x y)
    (hP : HasX X₁ Z₁ P) (hQ : HasX X₂ Z₂ Q) (hD : P - Q = .some x y h) :
    (x ≠ 0 → HasX ((2 * (X₁ * X₂ - Z₁ * Z₂)) ^ 2) (x * (2 * (X₂ * Z₁ - X₁ * Z₂)) ^ 2) (P + Q)) ∧
      (x = 0 → X₁ * X₂ - Z₁ * Z₂ = 0) := by
  cases P with
  | zero =>
    cases Q with
    | zero => exact absurd hD (by rw [sub_self]; exact fun e => nomatch e)
    | some x₂ y₂ h₂ =>
      obtain ⟨h', e⟩ := mont_neg h₂
      rw [show (Point.zero : MPt A) = 0 from rfl, zero_sub, e] at hD
      injection hD with e1 e2
      subst e1
      obtain ⟨a, rfl⟩ := hP
      obtain ⟨b, rfl⟩ := hQ
      constructor
      · intro hx
        rw [show (Point.zero : MPt A) = 0 from rfl, zero_add]
        refine ⟨mul_ne_zero hx (pow_ne_zero _ (mul_ne_zero h2 ?_)), by ring⟩
        rw [mul_zero, zero_sub]
        exact neg_ne_zero.2 (mul_ne_zero a b)
      · rintro rfl
        ring
  | some x₁ y₁ h₁ =>
    have q₁ := mont_eq h₁
    cases Q with
    | zero =>
      rw [show (Point.zero : MPt A) = 0 from rfl, sub_zero] at hD
      injection hD with e1 e2
      subst e1
      obtain ⟨a, rfl⟩ := hP
      obtain ⟨b, rfl⟩ := hQ
      constructor
      · intro hx
        rw [show (Point.zero : MPt A) = 0 from rfl, add_zero]
        refine ⟨mul_ne_zero hx (pow_ne_zero _ (mul_ne_zero h2 ?_)), by ring⟩
        rw [mul_zero, sub_zero]
        exact mul_ne_zero b a
      · rintro rfl
        ring
    | some x₂ y₂ h₂ =>
      have q₂ := mont_eq h₂
      obtain ⟨h', e⟩ := mont_neg h₂
      rw [sub_eq_add_neg, e] at hD
      obtain ⟨a, rfl⟩ := hP
      obtain ⟨b, rfl⟩ := hQ
      by_cases hx : x₁ = x₂
      · subst hx
        have hy : (y₁ - y₂) * (y₁ + y₂) = 0 := by linear_combination q₁ - q₂
        rcases mul_eq_zero.1 hy with hy | hy
        · have hy := sub_eq_zero.1 hy
          subst hy
          rw [← e, add_neg_cancel] at hD
          exact absurd hD fun e => nomatch e
        · have hy : y₂ = -y₁ := by linear_combination hy
          subst hy
          obtain ⟨h'', e'⟩ := mont_neg h₁
          have e0 : Point.some x₁ (-y₁) h₂ = -Point.some x₁ y₁ h₁ := by rw [e']
          have hn : y₁ ≠ 0 := by
            rintro rfl
            rw [← e, e0, neg_neg] at hD
            have : Point.some x₁ 0 h₁ = -Point.some x₁ 0 h₁ := by rw [e']; congr 1; rw [neg_zero]
            nth_rewrite 2 [this] at hD
            rw [add_neg_cancel] at hD
            exact absurd hD fun e => nomatch e
          obtain ⟨x₃, y₃, h₃, e3, k⟩ := mont_dbl h2 h₁ hn
          rw [← e, e0, neg_neg, e3] at hD
          injection hD with e4 e5
          subst e4
          have k' : x₃ * (2 * y₁) ^ 2 = (x₁ ^ 2 - 1) ^ 2 := by linear_combination k - (4 * A + 8 * x₁) * q₁
          constructor
          · intro hx
            rw [e0, add_neg_cancel]
            refine ⟨pow_ne_zero _ (mul_ne_zero h2 ?_), by ring⟩
            intro e6
            have e7 : (x₁ ^ 2 - 1) * (Z₁ * Z₂) = 0 := by linear_combination e6
            have e8 := (mul_eq_zero.1 e7).resolve_right (mul_ne_zero a b)
            rw [e8, zero_pow two_ne_zero] at k'
            exact mul_ne_zero hx (pow_ne_zero 2 (mul_ne_zero h2 hn)) k'
          · rintro rfl
            have e8 : x₁ ^ 2 - 1 = 0 := by
              rw [zero_mul] at k'
              exact pow_eq_zero_iff two_ne_zero |>.1 k'.symm
            linear_combination (Z₁ * Z₂) * e8
      · obtain ⟨x₃, y₃, h₃, e3, k⟩ := mont_add h₁ h₂ hx
        obtain ⟨x₄, y₄, h₄, e4, k'⟩ := mont_add h₁ h' hx
        rw [e4] at hD
        injection hD with e5 e6
        subst e5
        have hd : x₁ - x₂ ≠ 0 := sub_ne_zero.2 hx
        have key : x₃ * x₄ * (x₁ - x₂) ^ 2 = (x₁ * x₂ - 1) ^ 2 := by
          have hs : (x₁ - x₂) ^ 2 ≠ 0 := pow_ne_zero 2 hd
          apply mul_right_cancel₀ hs
          have f1 : x₃ * (x₁ - x₂) ^ 2 = (y₁ - y₂) ^ 2 - (A + x₁ + x₂) * (x₁ - x₂) ^ 2 := by linear_combination k
          have f2 : x₄ * (x₁ - x₂) ^ 2 = (y₁ + y₂) ^ 2 - (A + x₁ + x₂) * (x₁ - x₂) ^ 2 := by linear_combination k'
          have f3 : x₃ * x₄ * (x₁ - x₂) ^ 2 * (x₁ - x₂) ^ 2 = (x₃ * (x₁ - x₂) ^ 2) * (x₄ * (x₁ - x₂) ^ 2) := by ring
          rw [f3, f1, f2]
          have f4 : ((y₁ - y₂) ^ 2 - (A + x₁ + x₂) * (x₁ - x₂) ^ 2) * ((y₁ + y₂) ^ 2 - (A + x₁ + x₂) * (x₁ - x₂) ^ 2) =
              (y₁ ^ 2 - y₂ ^ 2) ^ 2 - 2 * (A + x₁ + x₂) * (x₁ - x₂) ^ 2 * (y₁ ^ 2 + y₂ ^ 2) + (A + x₁ + x₂) ^ 2 * (x₁ - x₂) ^ 4 := by ring
          rw [f4, q₁, q₂]
          ring
        constructor
        · intro h0
          rw [e3]
          refine ⟨mul_ne_zero h0 (pow_ne_zero _ (mul_ne_zero h2 ?_)), ?_⟩
          · rw [show x₂ * Z₂ * Z₁ - x₁ * Z₁ * Z₂ = -((x₁ - x₂) * (Z₁ * Z₂)) by ring]
            exact neg_ne_zero.2 (mul_ne_zero hd (mul_ne_zero a b))
          · linear_combination (-4 * Z₁ ^ 2 * Z₂ ^ 2) * key
        · rintro rfl
          have e8 : x₁ * x₂ - 1 = 0 := by
            rw [mul_zero, zero_mul] at key
            exact pow_eq_zero_iff two_ne_zero |>.1 key.symm
          linear_combination (Z₁ * Z₂) * e8

end

theorem dadd_wp {P Q W : ECP} {X₁ Z₁ X₂ Z₂ x : Fp} (p1 : FP.Ok P.x 1 (2 ^ 14) X₁) (p2 : FP.Ok P.z 1 (2 ^ 14) Z₁)
    (q1 : FP.Ok Q.x 1 (2 ^ 14) X₂) (q2 : FP.Ok Q.z 1 (2 ^ 14) Z₂) (w : FP.Ok W.x 1 (2 ^ 14) x) :
    Wp (ECP.dadd P Q W) fun r => FP.Ok r.x 1 2 ((2 * (X₁ * X₂ - Z₁ * Z₂)) ^ 2) ∧ FP.Ok r.z 1 2 (x * (2 * (X₂ * Z₁ - X₁ * Z₂)) ^ 2) ∧ r.y = P.y := by
  unfold ECP.dadd
  repeat fp_step
  refine Wp.ret ⟨FP.Ok.congr (by assumption) (by ring), FP.Ok.congr (by assumption) (by ring), rfl⟩

/-- **C79**. On every Montgomery curve over the field: if `P` and `Q` hold the abscissas of two points and `W` the affine
abscissa of their difference, which is neither infinity nor a point with abscissa 0, then `dadd` returns the abscissa
of the sum. This includes all exceptional cases: one of the points, or the sum, may be infinity. `y` is not touched. -/
theorem C79_dadd (A : Fp) (S T : MPt A) (x y : Fp) (h : (montgomery A).toAffine.Nonsingular x y) (hD : S - T = .some x y h) (hx : x ≠ 0)
    (P Q W : ECP) (p1 : FP.Ok P.x 1 (2 ^ 14) P.x.toF) (p2 : FP.Ok P.z 1 (2 ^ 14) P.z.toF) (q1 : FP.Ok Q.x 1 (2 ^ 14) Q.x.toF)
    (q2 : FP.Ok Q.z 1 (2 ^ 14) Q.z.toF) (w : FP.Ok W.x 1 (2 ^ 14) x) (hP : HasX P.x.toF P.z.toF S) (hQ : HasX Q.x.toF Q.z.toF T) :
    ∃ r, ECP.dadd P Q W = some r ∧ HasX r.x.toF r.z.toF (S + T) ∧ r.y = P.y ∧ FP.Ok r.x 1 2 r.x.toF ∧ FP.Ok r.z 1 2 r.z.toF := by
  obtain ⟨r, e, r1, r2, r3⟩ := dadd_wp p1 p2 q1 q2 w
  refine ⟨r, e, ?_, r3, ?_, ?_⟩
  · rw [r1.res, r2.res]
    exact (mont_diff (by decide +kernel) h hP hQ hD).1 hx
  · rw [r1.res]; exact r1
  · rw [r2.res]; exact r2

/-- If the difference has abscissa 0 then the result is `0 : 0`, which stands for no point. -/
theorem C79_dadd_zero (A : Fp) (S T : MPt A) (y : Fp) (h : (montgomery A).toAffine.Nonsingular 0 y) (hD : S - T = .some 0 y h)
    (P Q W : ECP) (p1 : FP.Ok P.x 1 (2 ^ 14) P.x.toF) (p2 : FP.Ok P.z 1 (2 ^ 14) P.z.toF) (q1 : FP.Ok Q.x 1 (2 ^ 14) Q.x.toF)
    (q2 : FP.Ok Q.z 1 (2 ^ 14) Q.z.toF) (w : FP.Ok W.x 1 (2 ^ 14) 0) (hP : HasX P.x.toF P.z.toF S) (hQ : HasX Q.x.toF Q.z.toF T) :
    ∃ r, ECP.dadd P Q W = some r ∧ r.x.toF = 0 ∧ r.z.toF = 0 ∧ ∀ U : MPt A, ¬ HasX r.x.toF r.z.toF U := by
  obtain ⟨r, e, r1, r2, r3⟩ := dadd_wp p1 p2 q1 q2 w
  have h0 := (mont_diff (by decide +kernel) h hP hQ hD).2 rfl
  have e1 : r.x.toF = 0 := by rw [r1.res, h0]; ring
  have e2 : r.z.toF = 0 := by rw [r2.res]; ring
  refine ⟨r, e, e1, e2, fun U => ?_⟩
  rw [e1, e2]
  cases U with
  | zero => exact fun h => h.1 rfl
  | some a b c => exact fun h => h.1 rfl

/-- The point (4, 12) of the curve with `4 A = 19`. -/
theorem onCurve : (montgomery (19 / 4 : Fp)).toAffine.Nonsingular 4 12 := by
  rw [WeierstrassCurve.Affine.nonsingular_iff, WeierstrassCurve.Affine.equation_iff]
  simp only [montgomery]
  decide +kernel

/-- From `2 T = (25 : 64)` and `T = (4 : 1)` to `3 T`. -/
example : ∃ P Q W r, ECP.dadd P Q W = some r ∧ P.x.toF = 25 ∧ P.z.toF = 64 ∧ Q.x.toF = 4 ∧ Q.z.toF = 1 ∧ W.x.toF = 4 ∧
    HasX r.x.toF r.z.toF (Point.some 4 12 onCurve + Point.some 4 12 onCurve + Point.some 4 12 onCurve) := by
  obtain ⟨a, -, ha⟩ := FP.new_int_wp (a := 25) (by norm_num) (by norm_num)
  obtain ⟨b, -, hb⟩ := FP.new_int_wp (a := 64) (by norm_num) (by norm_num)
  obtain ⟨c, -, hc⟩ := FP.new_int_wp (a := 4) (by norm_num) (by norm_num)
  obtain ⟨d, -, hd⟩ := FP.new_int_wp (a := 1) (by norm_num) (by norm_num)
  obtain ⟨x, y, h, e, k⟩ := mont_dbl (A := (19 / 4 : Fp)) (by decide +kernel) onCurve (by decide +kernel)
  have f : ∀ {u : FP} {n : Int}, FP.Ok u 1 2 n → FP.Ok u 1 (2 ^ 14) u.toF := fun hu => by rw [hu.res]; exact hu.mono (by norm_num)
  have e1 : a.toF = 25 := by rw [ha.res]; norm_num
  have e2 : b.toF = 64 := by rw [hb.res]; norm_num
  have e3 : c.toF = 4 := by rw [hc.res]; norm_num
  have e4 : d.toF = 1 := by rw [hd.res]; norm_num
  obtain ⟨r, e5, e6, -⟩ := C79_dadd _ (Point.some 4 12 onCurve + Point.some 4 12 onCurve) (Point.some 4 12 onCurve) 4 12 onCurve
    (add_sub_cancel_right _ _) (by decide +kernel) ⟨a, a, b⟩ ⟨c, c, d⟩ ⟨c, c, d⟩ (f ha) (f hb) (f hc) (f hd)
    (by have := f hc; rwa [e3] at this) (by
      rw [e1, e2, e]
      refine ⟨by decide +kernel, ?_⟩
      have k0 : (576 : Fp) ≠ 0 := by decide +kernel
      apply mul_right_cancel₀ k0
      have k1 : (4 : Fp) * (19 / 4) = 19 := by decide +kernel
      have k2 : x * 576 = 225 := by
        generalize (19 / 4 : Fp) = t at k k1
        linear_combination k + (2 * (8 * t + 136) - 144) * k1
      linear_combination (-64 : Fp) * k2) (by
      rw [e3, e4]
      exact ⟨one_ne_zero, (mul_one _).symm⟩)
  exact ⟨⟨a, a, b⟩, ⟨c, c, d⟩, ⟨c, c, d⟩, r, e5, e1, e2, e3, e4, e3, e6⟩

end Props
