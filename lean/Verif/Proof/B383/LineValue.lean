import Verif.Spec.B383.Pairing
import Verif.Proof.B383.Tower
import Verif.Proof.Divisor
import Verif.Proof.Cocycle
import Verif.Proof.B383.Fexp
/-!
# Values of lines, up to factors killed by the final exponentiation
-/

set_option exponentiation.threshold 6000

namespace Spec.B383

open Polynomial Polynomial.Bivariate

/-- The easy part of the final exponentiation kills elements of `Fp6` and of `W Fp6`. -/
theorem kill {z : Fp12} (h0 : z ≠ 0) (h : τ z = z ∨ τ z = -z) : z ^ finalExp = 1 := by
  have h1 : (z ^ (p ^ 6 - 1)) ^ 2 = 1 := by
    have e : z ^ (p ^ 6 - 1) * z = τ z := by
      rw [τ_eq, ← pow_succ]
      congr 1
    rcases h with h | h
    · rw [h] at e
      rw [mul_eq_right₀ h0] at e
      rw [e, one_pow]
    · rw [h, ← neg_one_mul] at e
      rw [mul_right_cancel₀ h0 e]; norm_num
  have e : finalExp = (p ^ 6 - 1) * 2 * ((p ^ 2 + 1) / 2 * hardExp) := by
    rw [finalExp_eq]; decide +kernel
  rw [e, pow_mul, pow_mul z, h1, one_pow]

theorem kill_ι2 {c : Fp2} (h : c ≠ 0) : (ι2 c) ^ finalExp = 1 :=
  kill ((map_ne_zero ι2).2 h) (Or.inl (τ_ι2 c))

theorem kill_W : W ^ finalExp = 1 := kill W_ne (Or.inr τ_W)

theorem τ_ι1 (z : Fp) : τ (ι1 z) = ι1 z := τ_ι2 (algebraMap Fp Fp2 z)

theorem τ_ux (a : Fp2) : τ (ux a) = ux a := by
  rw [ux, map_div₀, map_pow, τ_ι2, τ_W, neg_sq]

theorem kill_vert {x : Fp} {a : Fp2} (h : ι1 x - ux a ≠ 0) : (ι1 x - ux a) ^ finalExp = 1 :=
  kill h (Or.inl (by rw [map_sub, τ_ι1, τ_ux]))

theorem ι2_b2 : ι2 b2 = 15 * W ^ 6 := by
  rw [W_six, b2, map_mul, map_ofNat]

theorem uxy {a b : Fp2} (h : b ^ 2 = a ^ 3 + b2) : uy b ^ 2 = ux a ^ 3 + 15 := by
  have := congrArg ι2 h
  have hW := W_ne
  rw [map_pow, map_add, map_pow, ι2_b2] at this
  rw [ux, uy]
  field_simp
  linear_combination this

/-- No point of the twist has first coordinate zero. -/
theorem a_ne {a b : Fp2} (h : b ^ 2 = a ^ 3 + b2) : a ≠ 0 := by
  rintro rfl
  rw [zero_pow (by norm_num), zero_add, b2] at h
  have e := congrArg QuadraticAlgebra.norm h
  have n15 : QuadraticAlgebra.norm (15 : Fp2) = 15 ^ 2 := by
    rw [QuadraticAlgebra.norm_def, show (15 : Fp2).re = 15 from rfl, show (15 : Fp2).im = 0 from rfl]
    norm_num
  have h15 : (15 : Fp) ≠ 0 := fun h => fifteen_noncube 0 (by rw [h]; norm_num)
  rw [map_pow, map_mul, norm_one_add_i, n15] at e
  have h2 : IsSquare (2 : Fp) := ⟨QuadraticAlgebra.norm b / 15, by
    field_simp
    linear_combination -e⟩
  rw [ZMod.exists_sq_eq_two_iff (by norm_num [p])] at h2
  norm_num [p] at h2

/-- `1`, `W`, …, `W⁵` are independent over `Fp2`; here the powers needed. -/
theorem W_indep {a b c : Fp2} (h : ι2 a + ι2 b * W ^ 2 + ι2 c * W ^ 3 = 0) : a = 0 ∧ b = 0 ∧ c = 0 := by
  have e : ι4 ⟨a, c⟩ + ι4 0 * W + ι4 ⟨b, 0⟩ * W ^ 2 = ι4 0 + ι4 0 * W + ι4 0 * W ^ 2 := by
    rw [map_zero, ι4_mk, ι4_mk b, map_zero]
    linear_combination h
  obtain ⟨e0, -, e2⟩ := Fp12_ext_iff.1 e
  have h1 := congrArg QuadraticAlgebra.re e0
  have h2 := congrArg QuadraticAlgebra.im e0
  have h3 := congrArg QuadraticAlgebra.re e2
  exact ⟨h1, h3, h2⟩

theorem ι1_eq (z : Fp) : ι1 z = ι2 (algebraMap Fp Fp2 z) := rfl

theorem vert_ne {x : Fp} {a : Fp2} (h : a ≠ 0) : ι1 x - ux a ≠ 0 := by
  intro e
  have hW := W_ne
  rw [ux, ι1_eq] at e
  field_simp at e
  have := (W_indep (a := -a) (b := algebraMap Fp Fp2 x) (c := 0) (by rw [map_neg, map_zero]; linear_combination e)).1
  exact h (neg_eq_zero.1 this)

theorem chord_ne {x y : Fp} (hy : y ≠ 0) (l k : Fp2) : ι1 y - ι2 l / W * ι1 x - ι2 k / W ^ 3 ≠ 0 := by
  intro e
  have hW := W_ne
  rw [ι1_eq, ι1_eq] at e
  have e2 : ι2 (algebraMap Fp Fp2 y) * W ^ 3 - ι2 l * ι2 (algebraMap Fp Fp2 x) * W ^ 2 - ι2 k = 0 := by
    field_simp at e
    apply mul_left_cancel₀ hW
    linear_combination W * e
  have := (W_indep (a := -k) (b := -(l * algebraMap Fp Fp2 x)) (c := algebraMap Fp Fp2 y)
    (by rw [map_neg, map_neg, map_mul]; linear_combination e2)).2.2
  exact hy ((map_eq_zero _).1 this)

section point

variable {x y : Fp}

theorem slope_eq {F : Type} [Field F] [DecidableEq F] {b0 : F} [GoodB b0] {a b c d : F} (h : b ^ 2 = a ^ 3 + b0) (h' : d ^ 2 = c ^ 3 + b0)
    (hc : ¬ (a = c ∧ b = -d)) :
    (curve b0).toAffine.slope a c b d = if a = c then 3 * a ^ 2 / (2 * b) else (b - d) / (a - c) := by
  split
  · next e =>
    subst e
    have hbd : b = d := by
      have : (b - d) * (b + d) = 0 := by linear_combination h - h'
      rcases mul_eq_zero.1 this with e | e
      · exact sub_eq_zero.1 e
      · exact absurd ⟨rfl, eq_neg_of_add_eq_zero_left e⟩ hc
    subst hbd
    have hb : b ≠ -b := fun e => hc ⟨rfl, e⟩
    rw [WeierstrassCurve.Affine.slope_of_Y_ne rfl (by simpa [WeierstrassCurve.Affine.negY, curve] using hb)]
    simp only [WeierstrassCurve.Affine.negY, curve]
    congr 1 <;> ring
  · next e => rw [WeierstrassCurve.Affine.slope_of_X_ne e]

theorem vertAt_mk {a b : Fp2} (h : b ^ 2 = a ^ 3 + b2) : vertAt x (Pt.mk a b h) = ι1 x - ux a := rfl

theorem vertAt_zero : vertAt x 0 = 1 := rfl

theorem zero_lineAt (B : G2) : lineAt x y 0 B = vertAt x B := rfl

theorem lineAt_zero (A : G2) : lineAt x y A 0 = vertAt x A := by cases A <;> rfl

theorem lineAt_opp {a b : Fp2} (h : b ^ 2 = a ^ 3 + b2) (h' : (-b) ^ 2 = a ^ 3 + b2) :
    lineAt x y (Pt.mk a b h) (Pt.mk a (-b) h') = ι1 x - ux a := by
  change (if a = a ∧ b = - -b then _ else _) = _
  rw [if_pos ⟨rfl, (neg_neg b).symm⟩]

theorem lineAt_mk {a b c d : Fp2} (h : b ^ 2 = a ^ 3 + b2) (h' : d ^ 2 = c ^ 3 + b2) (hc : ¬ (a = c ∧ b = -d)) :
    lineAt x y (Pt.mk a b h) (Pt.mk c d h') =
      ι1 y - uy b - ι2 (if a = c then 3 * a ^ 2 / (2 * b) else (b - d) / (a - c)) / W * (ι1 x - ux a) := by
  change (if a = c ∧ b = -d then _ else _) = _
  rw [if_neg hc]

theorem lineAt_chord {a b : Fp2} (l : Fp2) :
    ι1 y - uy b - ι2 l / W * (ι1 x - ux a) = ι1 y - ι2 l / W * ι1 x - ι2 (b - l * a) / W ^ 3 := by
  have hW := W_ne
  rw [ux, uy, map_sub, map_mul]
  field_simp
  ring

theorem vertAt_ne (A : G2) : vertAt x A ≠ 0 := by
  rcases Pt.cases A with rfl | ⟨a, b, h, rfl⟩
  · exact one_ne_zero
  · exact vert_ne (a_ne h)

theorem kill_vertAt (A : G2) : vertAt x A ^ finalExp = 1 := by
  rcases Pt.cases A with rfl | ⟨a, b, h, rfl⟩
  · exact one_pow _
  · exact kill_vert (vert_ne (a_ne h))

variable (hP : y ^ 2 = x ^ 3 + b1)

/-- Evaluation of functions on the twist at the twisted point `(x W², y W³)`. -/
noncomputable def ev : (curve b2).toAffine.CoordinateRing →+* Fp12 :=
  AdjoinRoot.lift (eval₂RingHom ι2 (ι1 x * W ^ 2)) (ι1 y * W ^ 3) (by
    have e := congrArg ι1 hP
    rw [map_pow, map_add, map_pow, b1, map_ofNat] at e
    have e2 := ι2_b2
    simp [WeierstrassCurve.Affine.polynomial, curve]
    rw [e2, eval₂_pow, eval₂_C, coe_eval₂RingHom, eval₂_X]
    linear_combination W ^ 6 * e)

theorem ev_const (c : Fp2) : ev hP (algebraMap Fp2 _ c) = ι2 c := by
  change ev hP (AdjoinRoot.mk _ (C (C c))) = _
  rw [ev, AdjoinRoot.lift_mk]
  simp

theorem ev_XClass (a : Fp2) :
    ev hP (WeierstrassCurve.Affine.CoordinateRing.XClass _ a) = W ^ 2 * (ι1 x - ux a) := by
  have hW := W_ne
  rw [WeierstrassCurve.Affine.CoordinateRing.XClass, ev, WeierstrassCurve.Affine.CoordinateRing.mk, AdjoinRoot.lift_mk]
  simp
  rw [ux]
  field_simp

theorem ev_YClass (a b l : Fp2) :
    ev hP (WeierstrassCurve.Affine.CoordinateRing.YClass _ (WeierstrassCurve.Affine.linePolynomial a b l)) =
      W ^ 3 * (ι1 y - uy b - ι2 l / W * (ι1 x - ux a)) := by
  have hW := W_ne
  rw [WeierstrassCurve.Affine.CoordinateRing.YClass, ev, WeierstrassCurve.Affine.CoordinateRing.mk, AdjoinRoot.lift_mk]
  simp [WeierstrassCurve.Affine.linePolynomial]
  rw [ux, uy]
  field_simp
  ring

theorem ev_vert (A : G2) : ∃ k, ev hP (Div.vert A) = W ^ k * vertAt x A := by
  rcases Pt.cases A with rfl | ⟨a, b, h, rfl⟩
  · exact ⟨0, by rw [Div.vert_zero, vertAt_zero, map_one]; ring⟩
  · exact ⟨2, ev_XClass hP a⟩

theorem ev_line (A B : G2) : ∃ k, ev hP (Div.line A B) = W ^ k * lineAt x y A B := by
  rcases Pt.cases A with rfl | ⟨a, b, h, rfl⟩
  · rw [Div.zero_line, zero_lineAt]; exact ev_vert hP B
  · rcases Pt.cases B with rfl | ⟨c, d, h', rfl⟩
    · rw [Div.line_zero, lineAt_zero]; exact ev_vert hP _
    · have e : (curve b2).toAffine.negY c d = -d := by simp [WeierstrassCurve.Affine.negY, curve]
      by_cases hc : a = c ∧ b = -d
      · refine ⟨2, ?_⟩
        obtain ⟨rfl, rfl⟩ := hc
        have : Div.line (Pt.mk a (-d) h) (Pt.mk a d h') = WeierstrassCurve.Affine.CoordinateRing.XClass _ a := by
          change (if a = a ∧ -d = (curve b2).toAffine.negY a d then _ else _) = _
          rw [e, if_pos ⟨rfl, rfl⟩]
        rw [this, ev_XClass]
        congr 1
        change _ = (if a = a ∧ -d = - d then _ else _)
        rw [if_pos ⟨rfl, rfl⟩]
      · refine ⟨3, ?_⟩
        have : Div.line (Pt.mk a b h) (Pt.mk c d h') = WeierstrassCurve.Affine.CoordinateRing.YClass _
            (WeierstrassCurve.Affine.linePolynomial a b ((curve b2).toAffine.slope a c b d)) := by
          change (if a = c ∧ b = (curve b2).toAffine.negY c d then _ else _) = _
          rw [e, if_neg hc]
        rw [this, ev_YClass, lineAt_mk h h' hc, slope_eq h h' hc]

include hP in
theorem lineAt_ne (A B : G2) : lineAt x y A B ≠ 0 := by
  have hy : y ≠ 0 := Pt.y_ne hP
  rcases Pt.cases A with rfl | ⟨a, b, h, rfl⟩
  · rw [zero_lineAt]; exact vertAt_ne B
  · rcases Pt.cases B with rfl | ⟨c, d, h', rfl⟩
    · rw [lineAt_zero]; exact vertAt_ne _
    · by_cases hc : a = c ∧ b = -d
      · obtain ⟨rfl, rfl⟩ := hc
        change (if a = a ∧ -d = - d then _ else _) ≠ _
        rw [if_pos ⟨rfl, rfl⟩]
        exact vert_ne (a_ne h)
      · rw [lineAt_mk h h' hc, lineAt_chord]
        exact chord_ne hy _ _

/-- The value of a line after the final exponentiation. -/
noncomputable def U (A B : G2) : Fp12ˣ := Units.mk0 (lineAt x y A B ^ finalExp) (pow_ne_zero _ (lineAt_ne hP A B))

theorem U_of_ev {A B : G2} : ev hP (Div.line A B) ^ finalExp = U hP A B := by
  obtain ⟨k, hk⟩ := ev_line hP A B
  rw [hk, mul_pow, ← pow_mul, mul_comm k, pow_mul, kill_W, one_pow, one_mul]
  rfl

theorem V_of_ev {A : G2} : ev hP (Div.vert A) ^ finalExp = 1 := by
  obtain ⟨k, hk⟩ := ev_vert hP A
  rw [hk, mul_pow, ← pow_mul, mul_comm k, pow_mul, kill_W, one_pow, one_mul, kill_vertAt]

theorem U_cocycle : Cocycle (U hP) where
  comm A B := by
    obtain ⟨c, hc, e⟩ := Div.line_comm A B
    have := congrArg (fun z => ev hP z ^ finalExp) e
    simp only [map_mul, mul_pow, ev_const, kill_ι2 hc, U_of_ev, one_mul] at this
    exact Units.ext this
  coc A B C := by
    obtain ⟨c, hc, e⟩ := Div.cocycle A B C
    have := congrArg (fun z => ev hP z ^ finalExp) e
    simp only [map_mul, mul_pow, ev_const, kill_ι2 hc, U_of_ev, V_of_ev, one_mul] at this
    exact Units.ext this
  zero A := Units.ext (kill_vertAt A)
  neg A := by
    apply Units.ext
    change lineAt x y A (-A) ^ finalExp = 1
    rcases Pt.cases A with rfl | ⟨a, b, h, rfl⟩
    · rw [neg_zero, zero_lineAt]; exact kill_vertAt _
    · rw [Pt.neg_mk, lineAt_opp]
      exact kill_vertAt (Pt.mk a b h)

theorem U_pow (A B : G2) {n : Nat} (h : r ∣ n) : U hP A B ^ n = 1 := by
  obtain ⟨m, rfl⟩ := h
  apply Units.ext
  change (lineAt x y A B ^ finalExp) ^ (r * m) = 1
  have hn := lineAt_ne hP A B
  have h1 : lineAt x y A B ^ (p ^ 12 - 1) = 1 := by
    have : Fintype Fp12 := Fintype.ofFinite _
    have := FiniteField.pow_card_sub_one_eq_one _ hn
    rwa [← Nat.card_eq_fintype_card, card_Fp12] at this
  rw [← pow_mul, ← mul_assoc, finalExp_mul_r, mul_comm 3, mul_assoc, pow_mul, h1, one_pow]

/-- Miller's function after the final exponentiation. -/
theorem mill_eq (Q : G2) (n : Nat) : ((mill (U hP) Q n : Fp12ˣ) : Fp12) = miller x y Q n ^ finalExp := by
  induction n with
  | zero => simp [mill, miller]
  | succ n ih =>
    rw [mill, miller, Units.val_mul, ih, mul_pow, div_pow, kill_vertAt, div_one]
    rfl

end point

end Spec.B383
