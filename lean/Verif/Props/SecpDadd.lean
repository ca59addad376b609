import Verif.Proof.Secp.EcpMul
import Verif.Model.Secp.EcpRest
import Verif.Props.Dadd
/-!
# C97: differential addition in secp256k1
-/

set_option exponentiation.threshold 2000

namespace Props.Secp
open Amcl.Secp Spec.Secp WeierstrassCurve.Affine
open Amcl (Wp)
open Spec (montgomery MPt HasX)

theorem dadd_wp {P Q W : ECP} {X₁ Z₁ X₂ Z₂ x : Fp} (p1 : FP.Ok P.x 1 (2 ^ 14) X₁) (p2 : FP.Ok P.z 1 (2 ^ 14) Z₁)
    (q1 : FP.Ok Q.x 1 (2 ^ 14) X₂) (q2 : FP.Ok Q.z 1 (2 ^ 14) Z₂) (w : FP.Ok W.x 1 (2 ^ 14) x) :
    Wp (ECP.dadd P Q W) fun r => FP.Ok r.x 1 2 ((2 * (X₁ * X₂ - Z₁ * Z₂)) ^ 2) ∧ FP.Ok r.z 1 2 (x * (2 * (X₂ * Z₁ - X₁ * Z₂)) ^ 2) ∧ r.y = P.y := by
  unfold ECP.dadd
  repeat secp_step
  refine Wp.ret ⟨FP.Ok.congr (by assumption) (by ring), FP.Ok.congr (by assumption) (by ring), rfl⟩

/-- **C97**. On every Montgomery curve over the field: if `P` and `Q` hold the abscissas of two points and `W` the affine
abscissa of their difference, which is neither infinity nor a point with abscissa 0, then `dadd` returns the abscissa
of the sum. This includes all exceptional cases: one of the points, or the sum, may be infinity. `y` is not touched. -/
theorem C97_dadd (A : Fp) (S T : MPt A) (x y : Fp) (h : (montgomery A).toAffine.Nonsingular x y) (hD : S - T = .some x y h) (hx : x ≠ 0)
    (P Q W : ECP) (p1 : FP.Ok P.x 1 (2 ^ 14) P.x.toF) (p2 : FP.Ok P.z 1 (2 ^ 14) P.z.toF) (q1 : FP.Ok Q.x 1 (2 ^ 14) Q.x.toF)
    (q2 : FP.Ok Q.z 1 (2 ^ 14) Q.z.toF) (w : FP.Ok W.x 1 (2 ^ 14) x) (hP : HasX P.x.toF P.z.toF S) (hQ : HasX Q.x.toF Q.z.toF T) :
    ∃ r, ECP.dadd P Q W = some r ∧ HasX r.x.toF r.z.toF (S + T) ∧ r.y = P.y ∧ FP.Ok r.x 1 2 r.x.toF ∧ FP.Ok r.z 1 2 r.z.toF := by
  obtain ⟨r, e, r1, r2, r3⟩ := dadd_wp p1 p2 q1 q2 w
  refine ⟨r, e, ?_, r3, ?_, ?_⟩
  · rw [r1.res, r2.res]
    exact (Props.mont_diff (by decide +kernel) h hP hQ hD).1 hx
  · rw [r1.res]; exact r1
  · rw [r2.res]; exact r2

/-- If the difference has abscissa 0 then the result is `0 : 0`, which stands for no point. -/
theorem C97_dadd_zero (A : Fp) (S T : MPt A) (y : Fp) (h : (montgomery A).toAffine.Nonsingular 0 y) (hD : S - T = .some 0 y h)
    (P Q W : ECP) (p1 : FP.Ok P.x 1 (2 ^ 14) P.x.toF) (p2 : FP.Ok P.z 1 (2 ^ 14) P.z.toF) (q1 : FP.Ok Q.x 1 (2 ^ 14) Q.x.toF)
    (q2 : FP.Ok Q.z 1 (2 ^ 14) Q.z.toF) (w : FP.Ok W.x 1 (2 ^ 14) 0) (hP : HasX P.x.toF P.z.toF S) (hQ : HasX Q.x.toF Q.z.toF T) :
    ∃ r, ECP.dadd P Q W = some r ∧ r.x.toF = 0 ∧ r.z.toF = 0 ∧ ∀ U : MPt A, ¬ HasX r.x.toF r.z.toF U := by
  obtain ⟨r, e, r1, r2, r3⟩ := dadd_wp p1 p2 q1 q2 w
  have h0 := (Props.mont_diff (by decide +kernel) h hP hQ hD).2 rfl
  have e1 : r.x.toF = 0 := by rw [r1.res, h0]; ring
  have e2 : r.z.toF = 0 := by rw [r2.res]; ring
  refine ⟨r, e, e1, e2, fun U => ?_⟩
  rw [e1, e2]
  cases U with
  | zero => exact fun h => h.1 rfl
  | some a b c => exact fun h => h.1 rfl

/-- The point (4, 12) of the curve with `4 A = 19`. -/
theorem onCurve : (montgomery (19 / 4 : Fp)).toAffine.Nonsingular 4 12 := by
  rw [WeierstrassCurve.Affine.nonsingular_iff, WeierstrassCurve.Affine.equation_iff]
  simp only [montgomery]
  decide +kernel

/-- From `2 T = (25 : 64)` and `T = (4 : 1)` to `3 T`. -/
example : ∃ P Q W r, ECP.dadd P Q W = some r ∧ P.x.toF = 25 ∧ P.z.toF = 64 ∧ Q.x.toF = 4 ∧ Q.z.toF = 1 ∧ W.x.toF = 4 ∧
    HasX r.x.toF r.z.toF (Point.some 4 12 onCurve + Point.some 4 12 onCurve + Point.some 4 12 onCurve) := by
  obtain ⟨a, -, ha⟩ := FP.new_int_wp (a := 25) (by norm_num) (by norm_num)
  obtain ⟨b, -, hb⟩ := FP.new_int_wp (a := 64) (by norm_num) (by norm_num)
  obtain ⟨c, -, hc⟩ := FP.new_int_wp (a := 4) (by norm_num) (by norm_num)
  obtain ⟨d, -, hd⟩ := FP.new_int_wp (a := 1) (by norm_num) (by norm_num)
  obtain ⟨x, y, h, e, k⟩ := Props.mont_dbl (A := (19 / 4 : Fp)) (by decide +kernel) onCurve (by decide +kernel)
  have f : ∀ {u : FP} {n : Int}, FP.Ok u 1 2 (n : Fp) → FP.Ok u 1 (2 ^ 14) u.toF := fun hu => by rw [hu.res]; exact hu.mono (by norm_num)
  have e1 : a.toF = 25 := by rw [ha.res]; norm_num
  have e2 : b.toF = 64 := by rw [hb.res]; norm_num
  have e3 : c.toF = 4 := by rw [hc.res]; norm_num
  have e4 : d.toF = 1 := by rw [hd.res]; norm_num
  obtain ⟨r, e5, e6, -⟩ := C97_dadd _ (Point.some 4 12 onCurve + Point.some 4 12 onCurve) (Point.some 4 12 onCurve) 4 12 onCurve
    (add_sub_cancel_right _ _) (by decide +kernel) ⟨a, a, b⟩ ⟨c, c, d⟩ ⟨c, c, d⟩ (f ha) (f hb) (f hc) (f hd)
    (by have := f hc; rwa [e3] at this) (by
      rw [e1, e2, e]
      refine ⟨by decide +kernel, ?_⟩
      have k0 : (576 : Fp) ≠ 0 := by decide +kernel
      apply mul_right_cancel₀ k0
      have k1 : (4 : Fp) * (19 / 4) = 19 := by decide +kernel
      have k2 : x * 576 = 225 := by
        generalize (19 / 4 : Fp) = t at k k1
        linear_combination k + (2 * (8 * t + 136) - 144) * k1
      linear_combination (-64 : Fp) * k2) (by
      rw [e3, e4]
      exact ⟨one_ne_zero, (mul_one _).symm⟩)
  exact ⟨⟨a, a, b⟩, ⟨c, c, d⟩, ⟨c, c, d⟩, r, e5, e1, e2, e3, e4, e3, e6⟩

end Props.Secp
