import Verif.Proof.B383.Ecp2Add
import Verif.Spec.B383.Tower
import Verif.Model.B383.Fp4
/-!
# Correctness of `FP4`: exact arithmetic in `Fp2(V)`, `V² = 1 + i`
-/

set_option exponentiation.threshold 2000

namespace Amcl.B383

open Spec Spec.B383 QuadraticAlgebra

theorem FP2.pmul_ok {f : FP2} {s : FP} {L L' E E' : Int} {v : Fp2} {w : Fp} (hf : FP2.Ok f L E v)
    (hs : FP.Ok s L' E' w) (h : 1 ≤ L ∧ L ≤ 8 ∧ L' ≤ 8 ∧ E ≤ 2 ^ 23 ∧ E' ≤ 2 ^ 23) :
    Wp (FP2.pmul f s) fun r => FP2.Ok r 1 2 (v * algebraMap Fp Fp2 w) := FP2.pmul_wp hf hs h

namespace FP4

seal FP2.conj FP2.times_i FP2.inverse FP2.reduce FP2.equals FP2.pmul

/-- `f` denotes `v`; all components have limbs at most `L·2^58` and excess at most `E`. -/
structure Ok (f : FP4) (L E : Int) (v : Fp4) : Prop where
  a : FP2.Ok f.a L E v.re
  b : FP2.Ok f.b L E v.im

/-- All components are canonical. -/
structure Can (f : FP4) (v : Fp4) : Prop where
  a : FP2.Can f.a v.re
  b : FP2.Can f.b v.im

theorem Can.ok {f : FP4} {v : Fp4} (h : Can f v) : Ok f 1 1 v := ⟨h.a.ok, h.b.ok⟩

theorem Ok.mono {f : FP4} {L E L' E' : Int} {v : Fp4} (h : Ok f L E v)
    (h1 : 1 ≤ L ∧ L ≤ L' ∧ E ≤ E') : Ok f L' E' v := ⟨h.a.mono h1, h.b.mono h1⟩

theorem Ok.congr {f : FP4} {L E : Int} {v w : Fp4} (h : Ok f L E v) (e : v = w) : Ok f L E w := e ▸ h

theorem Ok.cast {f : FP4} {L E L' E' : Int} {v v' : Fp4} (h : Ok f L E v) (hL : L = L')
    (hE : E = E') (hv : v = v') : Ok f L' E' v' := by subst hL hE hv; exact h

theorem Can.ext {f g : FP4} {v : Fp4} (hf : Can f v) (hg : Can g v) : f = g :=
  FP4.ext (hf.a.ext hg.a) (hf.b.ext hg.b)

theorem new_can : Can new 0 := ⟨FP2.new_can, FP2.new_can⟩

theorem new_int_wp {a : Int} (h0 : 0 ≤ a) (h1 : a < 2 ^ 58) :
    Wp (new_int a) fun f => Ok f 1 2 (a : Fp4) := by
  unfold new_int
  refine Wp.bind (FP2.new_int_wp h0 h1) fun x hx => ?_
  exact Wp.ret ⟨hx, FP2.new_can.ok.mono (by norm_num)⟩

theorem new_fp2_ok {c : FP2} {L E : Int} {v : Fp2} (hc : FP2.Ok c L E v) (h : 1 ≤ L ∧ 1 ≤ E) :
    Ok (new_fp2 c) L E (algebraMap Fp2 Fp4 v) :=
  ⟨hc.congr (by simp), (FP2.new_can.ok.mono ⟨le_refl _, h⟩).congr (by simp)⟩

theorem reduce_wp {f : FP4} {L E : Int} {v : Fp4} (hf : Ok f L E v) (h : L ≤ 16 ∧ E ≤ 2 ^ 25) :
    Wp (reduce f) fun r => Can r v := by
  unfold reduce
  refine Wp.bind (FP2.reduce_wp hf.a h) fun x hx => ?_
  refine Wp.bind (FP2.reduce_wp hf.b h) fun y hy => ?_
  exact Wp.ret ⟨hx, hy⟩

theorem norm_wp {f : FP4} {L E : Int} {v : Fp4} (hf : Ok f L E v) (h : L ≤ 16 ∧ E ≤ 2 ^ 23) :
    Wp (norm f) fun r => Ok r 1 E v := by
  unfold norm
  refine Wp.bind (FP2.norm_ok hf.a h) fun x hx => ?_
  refine Wp.bind (FP2.norm_ok hf.b h) fun y hy => ?_
  exact Wp.ret ⟨hx, hy⟩

theorem equals_wp {f g : FP4} {L E L' E' : Int} {v w : Fp4} (hf : Ok f L E v) (hg : Ok g L' E' w)
    (h : 1 ≤ L ∧ L ≤ 16 ∧ 1 ≤ E ∧ E ≤ 2 ^ 25 ∧ 1 ≤ L' ∧ L' ≤ 16 ∧ 1 ≤ E' ∧ E' ≤ 2 ^ 25) :
    Wp (equals f g) fun r => r = true ↔ v = w := by
  unfold equals
  refine Wp.bind (FP2.equals_wp hf.a hg.a h) ?_
  rintro ⟨e, _, _⟩ ⟨he, -⟩
  dsimp only at he ⊢
  split
  · next hz =>
    refine Wp.bind (FP2.equals_wp hf.b hg.b h) ?_
    rintro ⟨e', _, _⟩ ⟨he', -⟩
    refine Wp.ret ?_
    dsimp only at he' ⊢
    rw [he', QuadraticAlgebra.ext_iff (x := v), he.1 hz]
    simp
  · next hz =>
    refine Wp.ret ?_
    constructor
    · intro h; cases h
    · rintro rfl; exact absurd (he.2 rfl) hz

theorem neg_wp {f : FP4} {L E : Int} {v : Fp4} (hf : Ok f L E v)
    (h : L ≤ 16 ∧ 1 ≤ E ∧ 11 * E ≤ 2 ^ 22) :
    Wp (neg f) fun r => Ok r 1 (11 * E) (-v) := by
  unfold neg
  refine Wp.bind (norm_wp hf (by omega)) fun f hf => ?_
  refine Wp.bind (FP2.add_wp hf.a hf.b (by omega)) fun m hm => ?_
  refine Wp.bind (FP2.neg_wp hm (by omega)) fun m' hm' => ?_
  refine Wp.bind (FP2.add_wp hm' hf.b (by omega)) fun t ht => ?_
  refine Wp.bind (FP2.add_wp hm' hf.a (by omega)) fun b hb => ?_
  refine norm_wp (L := 8) ⟨ht.cast (by norm_num) (by ring) ?_, hb.cast (by norm_num) (by ring) ?_⟩ (by omega)
  · rw [re_neg]; ring
  · rw [im_neg]; ring

theorem conj_wp {f : FP4} {L E : Int} {v : Fp4} (hf : Ok f L E v)
    (h : 1 ≤ L ∧ L ≤ 5 ∧ 1 ≤ E ∧ 5 * E ≤ 2 ^ 22) :
    Wp (conj f) fun r => Ok r 1 (5 * E) (star v) := by
  unfold conj
  refine Wp.bind (FP2.neg_wp hf.b (by omega)) fun b hb => ?_
  refine norm_wp (L := 3 * L + 1) ⟨(hf.a.mono (by omega)).congr ?_, hb.congr ?_⟩ (by omega)
  · simp
  · simp

theorem nconj_wp {f : FP4} {L E : Int} {v : Fp4} (hf : Ok f L E v)
    (h : 1 ≤ L ∧ L ≤ 5 ∧ 1 ≤ E ∧ 5 * E ≤ 2 ^ 22) :
    Wp (nconj f) fun r => Ok r 1 (5 * E) (-star v) := by
  unfold nconj
  refine Wp.bind (FP2.neg_wp hf.a (by omega)) fun b hb => ?_
  refine norm_wp (L := 3 * L + 1) ⟨hb.congr ?_, (hf.b.mono (by omega)).congr ?_⟩ (by omega)
  · simp
  · simp

theorem add_wp {f b : FP4} {L L' E E' : Int} {v w : Fp4} (hf : Ok f L E v) (hb : Ok b L' E' w)
    (h : 1 ≤ L ∧ 1 ≤ L' ∧ L + L' ≤ 16 ∧ E + E' ≤ 2 ^ 23) :
    Wp (add f b) fun r => Ok r (L + L') (E + E') (v + w) := by
  unfold add
  refine Wp.bind (FP2.add_wp hf.a hb.a h) fun x hx => ?_
  refine Wp.bind (FP2.add_wp hf.b hb.b h) fun y hy => ?_
  exact Wp.ret ⟨hx, hy⟩

theorem dbl_wp {f : FP4} {L E : Int} {v : Fp4} (hf : Ok f L E v)
    (h : 1 ≤ L ∧ L + L ≤ 16 ∧ E + E ≤ 2 ^ 23) :
    Wp (dbl f) fun r => Ok r (L + L) (E + E) (v + v) := by
  unfold dbl
  refine Wp.bind (FP2.dbl_wp hf.a h) fun x hx => ?_
  refine Wp.bind (FP2.dbl_wp hf.b h) fun y hy => ?_
  exact Wp.ret ⟨hx, hy⟩

theorem sub_wp {f b : FP4} {L L' E E' : Int} {v w : Fp4} (hf : Ok f L E v) (hb : Ok b L' E' w)
    (h : 1 ≤ L ∧ L + 1 ≤ 16 ∧ L' ≤ 16 ∧ 1 ≤ E' ∧ E + 11 * E' ≤ 2 ^ 22 ∧ 1 ≤ E) :
    Wp (sub f b) fun r => Ok r (L + 1) (E + 11 * E') (v - w) := by
  unfold sub
  refine Wp.bind (neg_wp hb (by omega)) fun n hn => ?_
  rw [sub_eq_add_neg]
  exact add_wp hf hn (by omega)

theorem pmul_wp {f : FP4} {s : FP2} {L L' E E' : Int} {v : Fp4} {w : Fp2} (hf : Ok f L E v)
    (hs : FP2.Ok s L' E' w) (h : 1 ≤ L ∧ L ≤ 8 ∧ 1 ≤ L' ∧ L' ≤ 8 ∧ 1 ≤ E ∧ E ≤ 2 ^ 23 ∧ 1 ≤ E' ∧ E' ≤ 2 ^ 21) :
    Wp (pmul f s) fun r => Ok r 1 3 (v * algebraMap Fp2 Fp4 w) := by
  unfold pmul
  refine Wp.bind (FP2.mul_wp hf.a hs h) fun x hx => ?_
  refine Wp.bind (FP2.mul_wp hf.b hs h) fun y hy => ?_
  exact Wp.ret ⟨hx.congr (by simp), hy.congr (by simp)⟩

theorem sqr_wp {f : FP4} {L E : Int} {v : Fp4} (hf : Ok f L E v)
    (h : 1 ≤ L ∧ L ≤ 5 ∧ 1 ≤ E ∧ E ≤ 2 ^ 19) :
    Wp (sqr f) fun r => Ok r 1 63 (v * v) := by
  unfold sqr
  refine Wp.bind (FP2.mul_wp hf.a hf.b (by omega)) fun t3 h3 => ?_
  refine Wp.bind (FP2.add_wp hf.a hf.b (by omega)) fun t1 h1 => ?_
  refine Wp.bind (FP2.mul_ip_wp hf.b (by omega)) fun t2 h2 => ?_
  refine Wp.bind (FP2.add_wp h2 hf.a (by omega)) fun t2 h2 => ?_
  refine Wp.bind (FP2.norm_ok h1 (by omega)) fun t1 h1 => ?_
  refine Wp.bind (FP2.norm_ok h2 (by omega)) fun t2 h2 => ?_
  refine Wp.bind (FP2.mul_wp h1 h2 (by omega)) fun a ha => ?_
  refine Wp.bind (FP2.mul_ip_wp h3 (by omega)) fun t2 h2 => ?_
  refine Wp.bind (FP2.add_wp h2 h3 (by omega)) fun t2 h2 => ?_
  refine Wp.bind (FP2.norm_ok h2 (by omega)) fun t2 h2 => ?_
  refine Wp.bind (FP2.neg_wp h2 (by omega)) fun t2 h2 => ?_
  refine Wp.bind (FP2.add_wp ha h2 (by omega)) fun a ha => ?_
  refine Wp.bind (FP2.dbl_wp h3 (by omega)) fun b hb => ?_
  refine norm_wp (L := 5) ⟨(ha.mono (by omega)).congr ?_, (hb.mono (by omega)).congr ?_⟩ (by omega)
  · rw [re_mul]; ring
  · rw [im_mul]; ring

theorem mul_wp {f y : FP4} {L L' E E' : Int} {v w : Fp4} (hf : Ok f L E v) (hy : Ok y L' E' w)
    (h : L ≤ 16 ∧ 1 ≤ L' ∧ L' ≤ 8 ∧ 1 ≤ E ∧ E ≤ 2 ^ 21 ∧ 1 ≤ E' ∧ E' ≤ 2 ^ 20) :
    Wp (mul f y) fun r => Ok r 1 33 (v * w) := by
  unfold mul
  refine Wp.bind (norm_wp hf (by omega)) fun f hf => ?_
  refine Wp.bind (FP2.mul_wp hf.a hy.a (by omega)) fun t1 h1 => ?_
  refine Wp.bind (FP2.mul_wp hf.b hy.b (by omega)) fun t2 h2 => ?_
  refine Wp.bind (FP2.add_wp hy.b hy.a (by omega)) fun t3 h3 => ?_
  refine Wp.bind (FP2.add_wp hf.b hf.a (by omega)) fun t4 h4 => ?_
  refine Wp.bind (FP2.norm_ok h3 (by omega)) fun t3 h3 => ?_
  refine Wp.bind (FP2.norm_ok h4 (by omega)) fun t4 h4 => ?_
  refine Wp.bind (FP2.mul_wp h4 h3 (by omega)) fun t4 h4 => ?_
  refine Wp.bind (FP2.neg_wp h1 (by omega)) fun t3 h3 => ?_
  refine Wp.bind (FP2.add_wp h4 h3 (by omega)) fun t4 h4 => ?_
  refine Wp.bind (FP2.norm_ok h4 (by omega)) fun t4 h4 => ?_
  refine Wp.bind (FP2.neg_wp h2 (by omega)) fun t3 h3 => ?_
  refine Wp.bind (FP2.add_wp h4 h3 (by omega)) fun b hb => ?_
  refine Wp.bind (FP2.mul_ip_wp h2 (by omega)) fun t2 h2 => ?_
  refine Wp.bind (FP2.add_wp h2 h1 (by omega)) fun a ha => ?_
  refine norm_wp (L := 5) ⟨(ha.mono (by omega)).congr ?_, (hb.mono (by omega)).congr ?_⟩ (by omega)
  · rw [re_mul]; ring
  · rw [im_mul]; ring

theorem inverse_wp {f : FP4} {L E : Int} {v : Fp4} (hf : Ok f L E v)
    (h : L ≤ 16 ∧ 1 ≤ E ∧ E ≤ 2 ^ 20) : Wp (inverse f) fun r => Ok r 1 3 v⁻¹ := by
  unfold inverse
  refine Wp.bind (norm_wp hf (by omega)) fun f hf => ?_
  refine Wp.bind (FP2.sqr_wp hf.a (by omega)) fun t1 h1 => ?_
  refine Wp.bind (FP2.sqr_wp hf.b (by omega)) fun t2 h2 => ?_
  refine Wp.bind (FP2.mul_ip_wp h2 (by omega)) fun t2 h2 => ?_
  refine Wp.bind (FP2.norm_ok h2 (by omega)) fun t2 h2 => ?_
  refine Wp.bind (FP2.sub_wp h1 h2 (by omega)) fun t1 h1 => ?_
  refine Wp.bind (FP2.inverse_wp h1 (by omega)) fun t1 h1 => ?_
  refine Wp.bind (FP2.mul_wp hf.a h1 (by omega)) fun a ha => ?_
  refine Wp.bind (FP2.neg_wp h1 (by omega)) fun t1 h1 => ?_
  refine Wp.bind (FP2.norm_ok h1 (by omega)) fun t1 h1 => ?_
  refine Wp.bind (FP2.mul_wp hf.b h1 (by omega)) fun b hb => ?_
  have e : QuadraticAlgebra.norm v = v.re * v.re - v.im * v.im * (1 + i) := by rw [norm_def]; ring
  refine Wp.ret ⟨ha.congr ?_, hb.congr ?_⟩
  · rw [re_inv, e]; simp; ring
  · rw [im_inv, e]; simp; ring

/-- `times_i` multiplies by `V`. -/
theorem times_i_wp {f : FP4} {L E : Int} {v : Fp4} (hf : Ok f L E v)
    (h : 1 ≤ L ∧ L ≤ 7 ∧ 1 ≤ E ∧ 3 * E ≤ 2 ^ 22) : Wp (times_i f) fun r => Ok r 1 (3 * E) (v * V) := by
  unfold times_i
  refine Wp.bind (FP2.times_i_wp hf.b (by omega)) fun s hs => ?_
  refine Wp.bind (FP2.add_wp hf.b hs (by omega)) fun t ht => ?_
  refine norm_wp (L := 2 * L + 1) ⟨ht.cast (by ring) (by ring) ?_, (hf.a.mono (by omega)).congr ?_⟩ (by omega)
  · rw [re_mul]; simp [V]; ring
  · rw [im_mul]; simp [V]

theorem frob_wp {f : FP4} {x : FP2} {L L' E E' : Int} {v : Fp4} {w : Fp2} (hf : Ok f L E v)
    (hx : FP2.Ok x L' E' w)
    (h : 1 ≤ L ∧ L ≤ 8 ∧ 2 ≤ E ∧ E ≤ 2 ^ 22 ∧ 1 ≤ L' ∧ L' ≤ 8 ∧ 1 ≤ E' ∧ E' ≤ 2 ^ 21) :
    Wp (frob f x) fun r => Ok r L (2 * E) (⟨star v.re, star v.im * w⟩ : Fp4) := by
  unfold frob
  refine Wp.bind (FP2.conj_wp hf.a (by omega)) fun a ha => ?_
  refine Wp.bind (FP2.conj_wp hf.b (by omega)) fun b hb => ?_
  refine Wp.bind (FP2.mul_wp hb hx (by omega)) fun b hb => ?_
  exact Wp.ret ⟨ha, hb.mono (by omega)⟩

end FP4

end Amcl.B383
