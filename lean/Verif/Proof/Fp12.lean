import Verif.Proof.Fp4
import Verif.Proof.Tower
import Verif.Model.Fp12
/-!
# Correctness of `FP12`: exact arithmetic in `Fp4(W)`, `W³ = V`
-/

set_option exponentiation.threshold 2000

namespace Amcl

open Spec

/-- One step of straight-line `FP4` code. -/
macro "fp4_step" : tactic => `(tactic| first
  | refine Wp.bind (FP4.mul_wp (by assumption) (by assumption) (by norm_num)) (fun _ _ => ?_)
  | refine Wp.bind (FP4.sqr_wp (by assumption) (by norm_num)) (fun _ _ => ?_)
  | refine Wp.bind (FP4.norm_wp (by assumption) (by norm_num)) (fun _ _ => ?_)
  | refine Wp.bind (FP4.add_wp (by assumption) (by assumption) (by norm_num)) (fun _ _ => ?_)
  | refine Wp.bind (FP4.sub_wp (by assumption) (by assumption) (by norm_num)) (fun _ _ => ?_)
  | refine Wp.bind (FP4.dbl_wp (by assumption) (by norm_num)) (fun _ _ => ?_)
  | refine Wp.bind (FP4.neg_wp (by assumption) (by norm_num)) (fun _ _ => ?_)
  | refine Wp.bind (FP4.conj_wp (by assumption) (by norm_num)) (fun _ _ => ?_)
  | refine Wp.bind (FP4.nconj_wp (by assumption) (by norm_num)) (fun _ _ => ?_)
  | refine Wp.bind (FP4.pmul_wp (by assumption) (by assumption) (by norm_num)) (fun _ _ => ?_)
  | refine Wp.bind (FP4.times_i_wp (by assumption) (by norm_num)) (fun _ _ => ?_)
  | refine Wp.bind (FP4.inverse_wp (by assumption) (by norm_num)) (fun _ _ => ?_))

seal FP4.mul FP4.sqr FP4.norm FP4.add FP4.sub FP4.dbl FP4.neg FP4.conj FP4.nconj FP4.pmul FP4.times_i FP4.inverse FP4.reduce FP4.frob FP4.equals

namespace FP12

/-- `f` denotes `v`; all components have limbs at most `L·2^58` and excess at most `E`. -/
def Ok (f : FP12) (L E : Int) (v : Fp12) : Prop :=
  ∃ a b c, FP4.Ok f.a L E a ∧ FP4.Ok f.b L E b ∧ FP4.Ok f.c L E c ∧ v = ι4 a + ι4 b * W + ι4 c * W ^ 2

/-- All components are canonical. -/
def Can (f : FP12) (v : Fp12) : Prop :=
  ∃ a b c, FP4.Can f.a a ∧ FP4.Can f.b b ∧ FP4.Can f.c c ∧ v = ι4 a + ι4 b * W + ι4 c * W ^ 2

theorem Can.ok {f : FP12} {v : Fp12} : Can f v → Ok f 1 1 v := by
  rintro ⟨a, b, c, ha, hb, hc, e⟩
  exact ⟨a, b, c, ha.ok, hb.ok, hc.ok, e⟩

theorem Ok.mono {f : FP12} {L E L' E' : Int} {v : Fp12} (h : Ok f L E v)
    (h1 : 1 ≤ L ∧ L ≤ L' ∧ E ≤ E') : Ok f L' E' v := by
  obtain ⟨a, b, c, ha, hb, hc, e⟩ := h
  exact ⟨a, b, c, ha.mono h1, hb.mono h1, hc.mono h1, e⟩

theorem Ok.congr {f : FP12} {L E : Int} {v w : Fp12} (h : Ok f L E v) (e : v = w) : Ok f L E w := e ▸ h

theorem Can.ext {f g : FP12} {v : Fp12} (hf : Can f v) (hg : Can g v) : f = g := by
  obtain ⟨a, b, c, ha, hb, hc, e⟩ := hf
  obtain ⟨a', b', c', ha', hb', hc', e'⟩ := hg
  rw [e, Fp12_ext_iff] at e'
  obtain ⟨rfl, rfl, rfl⟩ := e'
  exact FP12.ext (ha.ext ha') (hb.ext hb') (hc.ext hc')

theorem new_int_wp {a : Int} (h0 : 0 ≤ a) (h1 : a < 2 ^ 58) :
    Wp (new_int a) fun f => Ok f 1 2 (a : Fp12) := by
  unfold new_int
  refine Wp.bind (FP4.new_int_wp h0 h1) fun x hx => ?_
  exact Wp.ret ⟨_, _, _, hx, FP4.new_can.ok.mono (by norm_num), FP4.new_can.ok.mono (by norm_num), by simp⟩

theorem reduce_wp {f : FP12} {L E : Int} {v : Fp12} (hf : Ok f L E v) (h : L ≤ 16 ∧ E ≤ 2 ^ 27) :
    Wp (reduce f) fun r => Can r v := by
  obtain ⟨a, b, c, ha, hb, hc, e⟩ := hf
  unfold reduce
  refine Wp.bind (FP4.reduce_wp ha h) fun x hx => ?_
  refine Wp.bind (FP4.reduce_wp hb h) fun y hy => ?_
  refine Wp.bind (FP4.reduce_wp hc h) fun z hz => ?_
  exact Wp.ret ⟨_, _, _, hx, hy, hz, e⟩

theorem norm_wp {f : FP12} {L E : Int} {v : Fp12} (hf : Ok f L E v) (h : L ≤ 16 ∧ E ≤ 2 ^ 25) :
    Wp (norm f) fun r => Ok r 1 E v := by
  obtain ⟨a, b, c, ha, hb, hc, e⟩ := hf
  unfold norm
  refine Wp.bind (FP4.norm_wp ha h) fun x hx => ?_
  refine Wp.bind (FP4.norm_wp hb h) fun y hy => ?_
  refine Wp.bind (FP4.norm_wp hc h) fun z hz => ?_
  exact Wp.ret ⟨_, _, _, hx, hy, hz, e⟩

theorem equals_wp {f g : FP12} {L E L' E' : Int} {v w : Fp12} (hf : Ok f L E v) (hg : Ok g L' E' w)
    (h : 1 ≤ L ∧ L ≤ 16 ∧ 1 ≤ E ∧ E ≤ 2 ^ 27 ∧ 1 ≤ L' ∧ L' ≤ 16 ∧ 1 ≤ E' ∧ E' ≤ 2 ^ 27) :
    Wp (equals f g) fun r => r = true ↔ v = w := by
  obtain ⟨a, b, c, ha, hb, hc, rfl⟩ := hf
  obtain ⟨a', b', c', ha', hb', hc', rfl⟩ := hg
  rw [Fp12_ext_iff]
  unfold equals
  refine Wp.bind (FP4.equals_wp ha ha' h) fun e he => ?_
  split
  · next hz =>
    refine Wp.bind (FP4.equals_wp hb hb' h) fun e' he' => ?_
    split
    · next hz' =>
      refine (FP4.equals_wp hc hc' h).mono fun r hr => ?_
      rw [hr]
      have := he.1 hz
      have := he'.1 hz'
      tauto
    · next hz' =>
      refine Wp.ret ?_
      simp only [Bool.false_eq_true, false_iff]
      tauto
  · next hz =>
    refine Wp.ret ?_
    simp only [Bool.false_eq_true, false_iff]
    tauto

seal FP12.norm FP12.reduce

/-- `conj` is the Frobenius map of the subfield of degree 6. -/
theorem conj_wp {f : FP12} {E : Int} {v : Fp12} (hf : Ok f 1 E v) (h : 1 ≤ E ∧ 5 * E ≤ 2 ^ 24) :
    Wp (conj f) fun r => Ok r 1 (5 * E) (τ v) := by
  obtain ⟨a, b, c, ha, hb, hc, rfl⟩ := hf
  unfold conj
  refine Wp.bind (FP4.conj_wp ha (by omega)) fun x hx => ?_
  refine Wp.bind (FP4.nconj_wp hb (by omega)) fun y hy => ?_
  refine Wp.bind (FP4.conj_wp hc (by omega)) fun z hz => ?_
  refine Wp.ret ⟨_, _, _, hx, hy, hz, ?_⟩
  simp only [map_add, map_mul, map_pow, τ_ι4, τ_W, map_neg]
  ring

set_option maxHeartbeats 4000000 in
theorem sqr_wp {f : FP12} {v : Fp12} (hf : Ok f 1 (2 ^ 18) v) :
    Wp (sqr f) fun r => Ok r 1 (2 ^ 12) (v ^ 2) := by
  obtain ⟨a, b, c, ha, hb, hc, rfl⟩ := hf
  unfold sqr
  repeat fp4_step
  refine norm_wp (L := 4) ⟨_, _, _, FP4.Ok.mono (by assumption) (by norm_num),
    FP4.Ok.mono (by assumption) (by norm_num), FP4.Ok.mono (by assumption) (by norm_num), ?_⟩ (by norm_num)
  have h := W_cube
  simp only [map_add, map_mul, map_neg]
  linear_combination (2 * ι4 b * ι4 c + ι4 c ^ 2 * W) * h

set_option maxHeartbeats 4000000 in
theorem mul_wp {f y : FP12} {v w : Fp12} (hf : Ok f 1 (2 ^ 20) v) (hy : Ok y 1 (2 ^ 20) w) :
    Wp (mul f y) fun r => Ok r 1 (2 ^ 12) (v * w) := by
  obtain ⟨a, b, c, ha, hb, hc, rfl⟩ := hf
  obtain ⟨a', b', c', ha', hb', hc', rfl⟩ := hy
  unfold mul
  repeat fp4_step
  refine norm_wp (L := 6) ⟨_, _, _, FP4.Ok.mono (by assumption) (by norm_num),
    FP4.Ok.mono (by assumption) (by norm_num), FP4.Ok.mono (by assumption) (by norm_num), ?_⟩ (by norm_num)
  have h := W_cube
  simp only [map_add, map_mul, map_neg]
  linear_combination (ι4 b * ι4 c' + ι4 c * ι4 b' + ι4 c * ι4 c' * W) * h

set_option maxHeartbeats 4000000 in
/-- `smul` multiplies by an element `y` with `y.b = 0` and `y.c = c₁ V`. -/
theorem smul_wp {f y : FP12} {v : Fp12} {a' : Fp4} {c' : Fp2} (hf : Ok f 1 (2 ^ 18) v)
    (ha' : FP4.Ok y.a 1 (2 ^ 18) a') (hc' : FP4.Ok y.c 1 (2 ^ 18) ⟨0, c'⟩) :
    Wp (smul f y) fun r => Ok r 1 (2 ^ 12) (v * (ι4 a' + ι2 c' * W ^ 5)) := by
  obtain ⟨a, b, c, ha, hb, hc, rfl⟩ := hf
  unfold smul
  have hcb : FP2.Ok y.c.b 1 (2 ^ 18) c' := hc'.b
  repeat fp4_step
  refine norm_wp (L := 6) ⟨_, _, _, FP4.Ok.mono (by assumption) (by norm_num),
    FP4.Ok.mono (by assumption) (by norm_num), FP4.Ok.mono (by assumption) (by norm_num), ?_⟩ (by norm_num)
  have h := W_cube
  have h2 : ι4 (algebraMap Fp2 Fp4 c') = ι2 c' := rfl
  have h3 : ι4 ⟨0, c'⟩ = ι2 c' * W ^ 3 := by rw [ι4_mk, map_zero, zero_add]
  simp only [map_add, map_mul, map_neg, h2, h3, ← h]
  ring

/-- The inverse by the adjugate. -/
theorem inv_formula {a b c : Fp4} : (ι4 a + ι4 b * W + ι4 c * W ^ 2)⁻¹ =
    ι4 ((a * a - b * c * V) * (b * (b * b - a * c) * V + a * (a * a - b * c * V) +
        c * (c * c * V - a * b) * V)⁻¹) +
      ι4 ((c * c * V - a * b) * (b * (b * b - a * c) * V + a * (a * a - b * c * V) +
        c * (c * c * V - a * b) * V)⁻¹) * W +
      ι4 ((b * b - a * c) * (b * (b * b - a * c) * V + a * (a * a - b * c * V) +
        c * (c * c * V - a * b) * V)⁻¹) * W ^ 2 := by
  have h := W_cube
  set D := b * (b * b - a * c) * V + a * (a * a - b * c * V) + c * (c * c * V - a * b) * V with hD
  set v := ι4 a + ι4 b * W + ι4 c * W ^ 2 with hv
  have e : v * (ι4 (a * a - b * c * V) + ι4 (c * c * V - a * b) * W + ι4 (b * b - a * c) * W ^ 2) = ι4 D := by
    rw [hv, hD]
    simp only [map_add, map_mul, map_sub, ← h]
    ring
  by_cases v0 : v = 0
  · have : a = 0 ∧ b = 0 ∧ c = 0 := Fp12_eq_zero (hv.symm.trans v0)
    obtain ⟨ra, rb, rc⟩ := this
    rw [v0, ra, rb, rc]
    simp
  have D0 : D ≠ 0 := by
    intro hz
    rw [hz, map_zero, mul_eq_zero, or_iff_right v0] at e
    obtain ⟨e0, e1, e2⟩ := Fp12_eq_zero e
    apply v0
    have hV : V ≠ 0 := by
      intro hV0
      rw [hV0, map_zero] at h
      exact W_ne (pow_eq_zero_iff (by norm_num) |>.1 h)
    by_cases hc : c = 0
    · rw [hc] at e0 e2
      have a0 : a = 0 := by simpa using e0
      have b0 : b = 0 := by simpa using e2
      rw [hv, a0, b0, hc]
      simp
    · by_cases hb : b = 0
      · rw [hb] at e1
        simp [hV, hc] at e1
      exfalso
      apply V_noncube (b * c⁻¹)
      have : b ^ 3 = c ^ 3 * V := by
        apply mul_left_cancel₀ hb
        linear_combination (b ^ 2 + a * c) * e2 + c ^ 2 * e0
      rw [mul_pow, this, inv_pow]
      field_simp
  have D1 : ι4 D ≠ 0 := (map_ne_zero ι4).2 D0
  apply mul_left_cancel₀ v0
  apply mul_right_cancel₀ D1
  have hi : ι4 D⁻¹ * ι4 D = 1 := by rw [← map_mul, inv_mul_cancel₀ D0, map_one]
  rw [mul_inv_cancel₀ v0, one_mul]
  generalize ι4 D = d at *
  simp only [map_mul ι4 _ D⁻¹]
  generalize ι4 D⁻¹ = d' at *
  generalize ι4 (a * a - b * c * V) = x at *
  generalize ι4 (c * c * V - a * b) = y at *
  generalize ι4 (b * b - a * c) = z at *
  linear_combination (-d * d') * e - d * hi

set_option maxHeartbeats 4000000 in
theorem inverse_wp {f : FP12} {v : Fp12} (hf : Ok f 1 (2 ^ 18) v) :
    Wp (inverse f) fun r => Ok r 1 (2 ^ 12) v⁻¹ := by
  obtain ⟨a, b, c, ha, hb, hc, rfl⟩ := hf
  unfold inverse
  refine Wp.bind (norm_wp (f := f) ⟨_, _, _, ha, hb, hc, rfl⟩ (by norm_num)) ?_
  rintro g ⟨a', b', c', ha', hb', hc', e⟩
  rw [Fp12_ext_iff] at e
  obtain ⟨rfl, rfl, rfl⟩ := e
  repeat fp4_step
  refine Wp.ret ⟨_, _, _, FP4.Ok.mono (by assumption) (by norm_num),
    FP4.Ok.mono (by assumption) (by norm_num), FP4.Ok.mono (by assumption) (by norm_num), ?_⟩
  exact inv_formula

/-- `frob` with the constant `W^(p-1)` is the Frobenius map. -/
theorem frob_wp {f : FP12} {x : FP2} {E : Int} {v : Fp12} (hf : Ok f 1 E v) (hx : FP2.Ok x 1 2 γ)
    (h : 2 ≤ E ∧ E ≤ 2 ^ 23) :
    Wp (frob f x) fun r => Ok r 1 (2 * E) (φ v) := by
  obtain ⟨a, b, c, ha, hb, hc, rfl⟩ := hf
  unfold frob
  refine Wp.bind (FP2.sqr_wp hx (by norm_num)) fun f2 h2 => ?_
  refine Wp.bind (FP2.mul_wp hx h2 (by norm_num)) fun f3 h3 => ?_
  refine Wp.bind (FP4.frob_wp ha h3 (by omega)) fun a1 h4 => ?_
  refine Wp.bind (FP4.frob_wp hb h3 (by omega)) fun b1 h5 => ?_
  refine Wp.bind (FP4.frob_wp hc h3 (by omega)) fun c1 h6 => ?_
  refine Wp.bind (FP4.pmul_wp h5 hx (by omega)) fun b2 h5 => ?_
  refine Wp.bind (FP4.pmul_wp h6 h2 (by omega)) fun c2 h6 => ?_
  refine Wp.ret ⟨_, _, _, h4, h5.mono (by omega), h6.mono (by omega), ?_⟩
  have e : ∀ z, ι4 (algebraMap Fp2 Fp4 z) = ι2 z := fun _ => rfl
  simp only [map_add, map_mul, map_pow, φ_ι4, φ_W, e]
  rw [show γ * (γ * γ) = γ ^ 3 by ring]
  ring

end FP12

end Amcl
