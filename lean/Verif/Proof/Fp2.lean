import Verif.Proof.Jacobi
import Verif.Spec.Field2
import Verif.Model.Fp2
/-!
# Correctness of `FP2`: exact arithmetic in `Fp(i)`
-/

set_option exponentiation.threshold 2000

namespace Amcl

open Spec QuadraticAlgebra

theorem FP.Ok.cast {f : FP} {L E L' E' : Int} {v v' : Fp} (h : FP.Ok f L E v) (hL : L = L')
    (hE : E = E') (hv : v = v') : FP.Ok f L' E' v' := by subst hL hE hv; exact h

namespace FP2

/-- `f` denotes `v`; both components have limbs at most `L·2^58` and excess at most `E`. -/
structure Ok (f : FP2) (L E : Int) (v : Fp2) : Prop where
  a : FP.Ok f.a L E v.re
  b : FP.Ok f.b L E v.im

/-- Both components are canonical. -/
structure Can (f : FP2) (v : Fp2) : Prop where
  a : FP.Can f.a v.re
  b : FP.Can f.b v.im

theorem Can.ok {f : FP2} {v : Fp2} (h : Can f v) : Ok f 1 1 v := ⟨h.a.ok, h.b.ok⟩

theorem Ok.mono {f : FP2} {L E L' E' : Int} {v : Fp2} (h : Ok f L E v)
    (h1 : 1 ≤ L ∧ L ≤ L' ∧ E ≤ E') : Ok f L' E' v := ⟨h.a.mono h1, h.b.mono h1⟩

theorem Ok.congr {f : FP2} {L E : Int} {v w : Fp2} (h : Ok f L E v) (e : v = w) : Ok f L E w := e ▸ h

theorem Ok.cast {f : FP2} {L E L' E' : Int} {v v' : Fp2} (h : Ok f L E v) (hL : L = L')
    (hE : E = E') (hv : v = v') : Ok f L' E' v' := by subst hL hE hv; exact h

theorem Can.ext {f g : FP2} {v : Fp2} (hf : Can f v) (hg : Can g v) : f = g :=
  FP2.ext (hf.a.ext hg.a) (hf.b.ext hg.b)

theorem new_can : Can new 0 := ⟨FP.new_can, FP.new_can⟩

theorem one_wp : Wp one fun f => Ok f 1 2 1 := by
  unfold one
  refine Wp.bind FP.one_wp fun x hx => ?_
  exact Wp.ret ⟨hx, FP.new_can.ok.mono (by norm_num)⟩

theorem new_int_wp {a : Int} (h0 : 0 ≤ a) (h1 : a < 2 ^ 58) :
    Wp (new_int a) fun f => Ok f 1 2 (a : Fp2) := by
  unfold new_int
  refine Wp.bind (FP.new_int_wp h0 h1) fun x hx => ?_
  exact Wp.ret ⟨hx, FP.new_can.ok.mono (by norm_num)⟩

theorem new_bigs_wp {c d : BIG} (hc : c.Lim (2 ^ 61)) (hd : d.Lim (2 ^ 61)) (c0 : 0 ≤ c.val)
    (d0 : 0 ≤ d.val) (c1 : c.val ≤ 2 ^ 25 * p) (d1 : d.val ≤ 2 ^ 25 * p) :
    Wp (new_bigs c d) fun f => Ok f 1 2 (⟨(c.val : Fp), (d.val : Fp)⟩ : Fp2) ∧
      (f.a.x.val = 0 ↔ c.val = 0) ∧ (f.b.x.val = 0 ↔ d.val = 0) := by
  unfold new_bigs FP.new_big
  refine Wp.bind ((FP.nres_wp hc c0 c1).and (FP.nres_zero_wp hc c0 c1)) fun x hx => ?_
  refine Wp.bind ((FP.nres_wp hd d0 d1).and (FP.nres_zero_wp hd d0 d1)) fun y hy => ?_
  exact Wp.ret ⟨⟨hx.1, hy.1⟩, hx.2, hy.2⟩

theorem reduce_wp {f : FP2} {L E : Int} {v : Fp2} (hf : Ok f L E v) (h : L ≤ 16 ∧ E ≤ 2 ^ 27) :
    Wp (reduce f) fun r => Can r v := by
  unfold reduce
  refine Wp.bind (FP.reduce_wp hf.a h) fun x hx => ?_
  refine Wp.bind (FP.reduce_wp hf.b h) fun y hy => ?_
  exact Wp.ret ⟨hx, hy⟩

theorem norm_wp {f : FP2} {L E : Int} {v : Fp2} (hf : Ok f L E v) (h : L ≤ 16 ∧ E ≤ 2 ^ 25) :
    Wp (norm f) fun r => Ok r 1 E v ∧ r.a.x.val = f.a.x.val ∧ r.b.x.val = f.b.x.val := by
  unfold norm
  refine Wp.bind (FP.norm_wp hf.a h) fun x hx => ?_
  refine Wp.bind (FP.norm_wp hf.b h) fun y hy => ?_
  exact Wp.ret ⟨⟨hx.1, hy.1⟩, hx.2.2, hy.2.2⟩

theorem iszilch_wp {f : FP2} {L E : Int} {v : Fp2} (hf : Ok f L E v) (h : L ≤ 16 ∧ E ≤ 2 ^ 27) :
    Wp (iszilch f) fun r => (r.1 = true ↔ v = 0) ∧ Can r.2 v := by
  unfold iszilch
  refine Wp.bind (reduce_wp hf h) fun g hg => ?_
  refine Wp.bind (FP.iszilch_wp hg.a.ok (by norm_num)) ?_
  rintro ⟨za, a⟩ ⟨ha, ca⟩
  dsimp only at ha ca ⊢
  split
  · next hz =>
    refine Wp.bind (FP.iszilch_wp hg.b.ok (by norm_num)) ?_
    rintro ⟨zb, b⟩ ⟨hb, cb⟩
    dsimp only at hb cb ⊢
    refine Wp.ret ⟨?_, ca, cb⟩
    dsimp only
    rw [hb, QuadraticAlgebra.ext_iff]
    simp [ha.1 hz]
  · next hz =>
    refine Wp.ret ⟨?_, ca, hg.b⟩
    dsimp only
    constructor
    · intro h; cases h
    · rintro rfl; exact absurd (ha.2 rfl) hz

theorem cmove_eq {f g : FP2} {L E L' E' : Int} {v w : Fp2} (hf : Ok f L E v) (hg : Ok g L' E' w)
    (h : L ≤ 16 ∧ L' ≤ 16 ∧ E ≤ 2 ^ 27 ∧ E' ≤ 2 ^ 27) {d : Int} (hd : d = 0 ∨ d = 1) :
    cmove f g d = if d = 0 then f else g := by
  rw [cmove, FP.cmove_eq hf.a hg.a h hd, FP.cmove_eq hf.b hg.b h hd]
  split <;> rfl

theorem equals_wp {f g : FP2} {L E L' E' : Int} {v w : Fp2} (hf : Ok f L E v) (hg : Ok g L' E' w)
    (h : 1 ≤ L ∧ L ≤ 16 ∧ 1 ≤ E ∧ E ≤ 2 ^ 27 ∧ 1 ≤ L' ∧ L' ≤ 16 ∧ 1 ≤ E' ∧ E' ≤ 2 ^ 27) :
    Wp (equals f g) fun r => (r.1 = true ↔ v = w) ∧ Ok r.2.1 L E v ∧ Ok r.2.2 L' E' w ∧
      (r.1 = true → Can r.2.1 v ∧ Can r.2.2 w) := by
  unfold equals
  refine Wp.bind (FP.equals_wp hf.a hg.a (by omega)) ?_
  rintro ⟨ea, fa, ga⟩ ⟨ha, ca, da⟩
  dsimp only at ha ca da ⊢
  have m1 : (1:Int) ≤ 1 ∧ 1 ≤ L ∧ 1 ≤ E := by omega
  have m2 : (1:Int) ≤ 1 ∧ 1 ≤ L' ∧ 1 ≤ E' := by omega
  split
  · next hz =>
    refine Wp.bind (FP.equals_wp hf.b hg.b (by omega)) ?_
    rintro ⟨eb, fb, gb⟩ ⟨hb, cb, db⟩
    dsimp only at hb cb db ⊢
    refine Wp.ret ⟨?_, ⟨ca.ok.mono m1, cb.ok.mono m1⟩, ⟨da.ok.mono m2, db.ok.mono m2⟩, fun _ => ⟨⟨ca, cb⟩, ⟨da, db⟩⟩⟩
    dsimp only
    rw [hb, QuadraticAlgebra.ext_iff]
    simp [ha.1 hz]
  · next hz =>
    refine Wp.ret ⟨?_, ⟨ca.ok.mono m1, hf.b⟩, ⟨da.ok.mono m2, hg.b⟩, ?_⟩
    · dsimp only
      constructor
      · intro h; cases h
      · rintro rfl; exact absurd (ha.2 rfl) hz
    · intro h; cases h

theorem isunity_wp {f : FP2} {L E : Int} {v : Fp2} (hf : Ok f L E v)
    (h : 1 ≤ L ∧ L ≤ 16 ∧ 1 ≤ E ∧ E ≤ 2 ^ 27) :
    Wp (isunity f) fun r => (r.1 = true ↔ v = 1) ∧ Ok r.2 L E v := by
  unfold isunity
  refine Wp.bind (FP.new_int_wp (a := 1) (by norm_num) (by norm_num)) fun o ho => ?_
  refine Wp.bind (FP.equals_wp hf.a ho (by omega)) ?_
  rintro ⟨ea, fa, ga⟩ ⟨ha, ca, da⟩
  dsimp only at ha ca da ⊢
  rw [Int.cast_one] at ha
  have m1 : (1:Int) ≤ 1 ∧ 1 ≤ L ∧ 1 ≤ E := by omega
  split
  · next hz =>
    refine Wp.bind (FP.iszilch_wp hf.b (by omega)) ?_
    rintro ⟨eb, fb⟩ ⟨hb, cb⟩
    dsimp only at hb cb ⊢
    refine Wp.ret ⟨?_, ⟨ca.ok.mono m1, cb.ok.mono m1⟩⟩
    dsimp only
    rw [hb, QuadraticAlgebra.ext_iff]
    simp [ha.1 hz]
  · next hz =>
    refine Wp.ret ⟨?_, ⟨ca.ok.mono m1, hf.b⟩⟩
    dsimp only
    constructor
    · intro h; cases h
    · rintro rfl; exact absurd (ha.2 rfl) hz

theorem add_wp {f b : FP2} {L L' E E' : Int} {v w : Fp2} (hf : Ok f L E v) (hb : Ok b L' E' w)
    (h : 1 ≤ L ∧ 1 ≤ L' ∧ L + L' ≤ 16 ∧ E + E' ≤ 2 ^ 25) :
    Wp (add f b) fun r => Ok r (L + L') (E + E') (v + w) := by
  unfold add
  refine Wp.bind (FP.add_wp hf.a hb.a h) fun x hx => ?_
  refine Wp.bind (FP.add_wp hf.b hb.b h) fun y hy => ?_
  exact Wp.ret ⟨hx, hy⟩

theorem dbl_wp {f : FP2} {L E : Int} {v : Fp2} (hf : Ok f L E v)
    (h : 1 ≤ L ∧ L + L ≤ 16 ∧ E + E ≤ 2 ^ 25) :
    Wp (dbl f) fun r => Ok r (L + L) (E + E) (v + v) := by
  unfold dbl
  refine Wp.bind (FP.dbl_wp hf.a h) fun x hx => ?_
  refine Wp.bind (FP.dbl_wp hf.b h) fun y hy => ?_
  exact Wp.ret ⟨hx, hy⟩

theorem neg_wp {f : FP2} {L E : Int} {v : Fp2} (hf : Ok f L E v)
    (h : 1 ≤ L ∧ 3 * L + 1 ≤ 16 ∧ 1 ≤ E ∧ 5 * E ≤ 2 ^ 24) :
    Wp (neg f) fun r => Ok r (3 * L + 1) (5 * E) (-v) := by
  unfold neg
  refine Wp.bind (FP.add_wp hf.a hf.b (by omega)) fun m hm => ?_
  refine Wp.bind (FP.neg_wp hm (by omega)) fun m' hm' => ?_
  refine Wp.bind (FP.add_wp hm' hf.b (by omega)) fun t ht => ?_
  refine Wp.bind (FP.add_wp hm' hf.a (by omega)) fun b hb => ?_
  exact Wp.ret ⟨ht.cast (by ring) (by ring) (by simp), hb.cast (by ring) (by ring) (by simp)⟩

theorem conj_wp {f : FP2} {L E : Int} {v : Fp2} (hf : Ok f L E v)
    (h : 1 ≤ L ∧ L + 1 ≤ 16 ∧ 1 ≤ E ∧ E ≤ 2 ^ 24) :
    Wp (conj f) fun r => Ok r L (2 * E) (star v) := by
  unfold conj
  refine Wp.bind (FP.neg_wp hf.b (by omega)) fun m hm => ?_
  refine Wp.bind (FP.norm_wp hm (by omega)) fun m' hm' => ?_
  refine Wp.ret ⟨(hf.a.mono (by omega)).congr (by simp), (hm'.1.mono (by omega)).congr (by simp)⟩

theorem sub_wp {f b : FP2} {L L' E E' : Int} {v w : Fp2} (hf : Ok f L E v) (hb : Ok b L' E' w)
    (h : 1 ≤ L ∧ 1 ≤ L' ∧ L + (3 * L' + 1) ≤ 16 ∧ E + 5 * E' ≤ 2 ^ 24 ∧ 1 ≤ E ∧ 1 ≤ E') :
    Wp (sub f b) fun r => Ok r (L + (3 * L' + 1)) (E + 5 * E') (v - w) := by
  unfold sub
  refine Wp.bind (neg_wp hb (by omega)) fun n hn => ?_
  rw [sub_eq_add_neg]
  exact add_wp hf hn (by omega)

theorem rsub_wp {f b : FP2} {L L' E E' : Int} {v w : Fp2} (hf : Ok f L E v) (hb : Ok b L' E' w)
    (h : 1 ≤ L ∧ 1 ≤ L' ∧ L' + (3 * L + 1) ≤ 16 ∧ E' + 5 * E ≤ 2 ^ 24 ∧ 1 ≤ E ∧ 1 ≤ E') :
    Wp (rsub f b) fun r => Ok r (L' + (3 * L + 1)) (E' + 5 * E) (w - v) := by
  unfold rsub
  refine Wp.bind (neg_wp hf (by omega)) fun n hn => ?_
  rw [sub_eq_add_neg, add_comm w, add_comm L', add_comm E']
  exact add_wp hn hb (by omega)

theorem pmul_wp {f : FP2} {s : FP} {L L' E E' : Int} {v : Fp2} {w : Fp} (hf : Ok f L E v)
    (hs : FP.Ok s L' E' w) (h : 1 ≤ L ∧ L ≤ 8 ∧ L' ≤ 8 ∧ E ≤ 2 ^ 25 ∧ E' ≤ 2 ^ 25) :
    Wp (pmul f s) fun r => Ok r 1 2 (v * algebraMap Fp Fp2 w) := by
  unfold pmul
  refine Wp.bind (FP.mul_wp hf.a hs h) fun x hx => ?_
  refine Wp.bind (FP.mul_wp hf.b hs h) fun y hy => ?_
  exact Wp.ret ⟨hx.congr (by simp), hy.congr (by simp)⟩

theorem imul_wp {f : FP2} {L E c : Int} {v : Fp2} (hf : Ok f L E v)
    (h : 1 ≤ L ∧ L ≤ 16 ∧ 0 < c ∧ c < 2 ^ 20 ∧ E * c ≤ 2 ^ 25) :
    Wp (imul f c) fun r => Ok r 1 (E * c) (v * (c : Fp2)) := by
  unfold imul
  refine Wp.bind (FP.imul_wp hf.a h) fun x hx => ?_
  refine Wp.bind (FP.imul_wp hf.b h) fun y hy => ?_
  exact Wp.ret ⟨hx.congr (by simp), hy.congr (by simp)⟩

theorem sqr_wp {f : FP2} {L E : Int} {v : Fp2} (hf : Ok f L E v)
    (h : 1 ≤ L ∧ L ≤ 7 ∧ 1 ≤ E ∧ 3 * E ≤ 2 ^ 24) :
    Wp (sqr f) fun r => Ok r 1 2 (v * v) := by
  unfold sqr
  refine Wp.bind (FP.add_wp hf.a hf.b (by omega)) fun w1 h1 => ?_
  refine Wp.bind (FP.add_wp hf.a hf.a (by omega)) fun w3 h3 => ?_
  refine Wp.bind (FP.norm_wp h3 (by omega)) fun w3' h3' => ?_
  refine Wp.bind (FP.mul_wp hf.b h3'.1 (by omega)) fun b hb => ?_
  refine Wp.bind (FP.neg_wp hf.b (by omega)) fun mb hmb => ?_
  refine Wp.bind (FP.add_wp hf.a hmb (by omega)) fun a ha => ?_
  refine Wp.bind (FP.norm_wp h1 (by omega)) fun w1' h1' => ?_
  refine Wp.bind (FP.norm_wp ha (by omega)) fun a' ha' => ?_
  refine Wp.bind (FP.mul_wp ha'.1 h1'.1 (by omega)) fun r hr => ?_
  refine Wp.ret ⟨hr.congr ?_, hb.congr ?_⟩
  · simp; ring
  · simp; ring

theorem mulPre_wp {f y : FP2} {L L' E E' : Int} {v w : Fp2} (hf : Ok f L E v) (hy : Ok y L' E' w)
    (h : 1 ≤ L ∧ L ≤ 16 ∧ 1 ≤ E ∧ E ≤ 2 ^ 25 ∧ 1 ≤ E' ∧ E' ≤ 2 ^ 23) :
    Wp (mulPre f y) fun r => Ok r L E v ∧ (r.a.xes + r.b.xes) * (y.a.xes + y.b.xes) ≤ 2 ^ 25 := by
  unfold mulPre
  have f1 := hf.a.x1
  have f2 := hf.a.xE
  have f3 := hf.b.x1
  have f4 := hf.b.xE
  have y1 := hy.a.x1
  have y2 := hy.a.xE
  have y3 := hy.b.x1
  have y4 := hy.b.xE
  have e1 : (f.a.xes + f.b.xes) * (y.a.xes + y.b.xes) ≤ 2 ^ 26 * 2 ^ 24 :=
    mul_le_mul (by omega) (by omega) (by omega) (by norm_num)
  have e0 : 0 ≤ (f.a.xes + f.b.xes) * (y.a.xes + y.b.xes) := mul_nonneg (by omega) (by omega)
  rw [i32_eq (by omega) (by omega), i32_eq (by omega) (by omega)]
  simp only [Option.bind_eq_bind, Option.bind_some]
  rw [i64_eq (by omega) (by omega)]
  simp only [Option.bind_some]
  have red : ∀ {g : FP} {u : Fp}, FP.Ok g L E u →
      Wp (reduceBig g) fun r => FP.Ok r L E u ∧ r.xes = 1 := by
    intro g u hg
    unfold reduceBig
    split
    · refine (FP.reduce_wp hg (by omega)).mono ?_
      intro r hr
      exact ⟨hr.ok.mono (by omega), hr.xes⟩
    · refine Wp.pure ⟨hg, ?_⟩
      have := hg.x1
      omega
  split
  · refine Wp.bind (red hf.a) fun a ha => ?_
    refine Wp.bind (red hf.b) fun b hb => ?_
    refine Wp.ret ⟨⟨ha.1, hb.1⟩, ?_⟩
    dsimp only
    rw [ha.2, hb.2]
    omega
  · next hx =>
    refine Wp.ret ⟨hf, ?_⟩
    rw [FEXCESS] at hx
    omega

/-- The product, given bounds on the partial products. -/
theorem mul_core {f y g : FP2} {L L' E E' : Int} {v w : Fp2} (eg : mulPre f y = some g) (hg : Ok g L E v)
    (hy : Ok y L' E' w)
    (h : 1 ≤ L ∧ L ≤ 8 ∧ 1 ≤ L' ∧ L' ≤ 8 ∧ 1 ≤ E ∧ E ≤ 2 ^ 25 ∧ 1 ≤ E' ∧ E' ≤ 2 ^ 25)
    (hA : g.a.x.val * y.a.x.val ≤ 2 ^ 406 * p) (hB : g.b.x.val * y.b.x.val ≤ 2 ^ 406 * p)
    (hC : g.a.x.val * y.b.x.val + g.b.x.val * y.a.x.val ≤ 2 ^ 406 * p) :
    Wp (mul f y) fun r => Ok r 1 3 (v * w) := by
  unfold mul
  rw [eg, Option.bind_eq_bind, Option.bind_some]
  have hp := p_lt
  have hp0 := p_pos
  have x1 := hg.a.x1
  have x2 := hg.b.x1
  have x3 := hy.a.x1
  have x4 := hy.b.x1
  have a0 := mul_nonneg hg.a.v0 hy.a.v0
  have b0 := mul_nonneg hg.b.v0 hy.b.v0
  have hx : (g.a.x.val + g.b.x.val) * (y.a.x.val + y.b.x.val) =
      g.a.x.val * y.a.x.val + g.b.x.val * y.b.x.val +
        (g.a.x.val * y.b.x.val + g.b.x.val * y.a.x.val) := by ring
  have d0 : 0 ≤ g.a.x.val * y.b.x.val := mul_nonneg hg.a.v0 hy.b.v0
  have d1 : 0 ≤ g.b.x.val * y.a.x.val := mul_nonneg hg.b.v0 hy.a.v0
  have ga0 := hg.a.v0
  have gb0 := hg.b.v0
  have ya0 := hy.a.v0
  have yb0 := hy.b.v0
  have vA := hg.a.val_eq
  have vB := hg.b.val_eq
  have vC := hy.a.val_eq
  have vD := hy.b.val_eq
  have lgl := hg.a.valE
  have lgb := hg.b.valE
  have lya := hy.a.valE
  have lyb := hy.b.valE
  have eE : E * p ≤ 2 ^ 25 * p := mul_le_mul_of_nonneg_right (by omega) hp0.le
  have eE' : E' * p ≤ 2 ^ 25 * p := mul_le_mul_of_nonneg_right (by omega) hp0.le
  refine Wp.bind (BIG.mul_wp (hg.a.lim.mono (by omega)) (hy.a.lim.mono (by omega)) ⟨by omega, by omega⟩) ?_
  rintro a ⟨na, va⟩
  refine Wp.bind (BIG.mul_wp (hg.b.lim.mono (by omega)) (hy.b.lim.mono (by omega)) ⟨by omega, by omega⟩) ?_
  rintro b ⟨nb, vb⟩
  refine Wp.bind (BIG.add_wp hg.a.lim hg.b.lim (by omega)) ?_
  rintro c ⟨lc, vc⟩
  refine Wp.bind (BIG.norm_wp (lc.mono (by omega))) ?_
  rintro c' ⟨nc, vc'⟩
  refine Wp.bind (BIG.add_wp hy.a.lim hy.b.lim (by omega)) ?_
  rintro d ⟨ld, vd⟩
  refine Wp.bind (BIG.norm_wp (ld.mono (by omega))) ?_
  rintro d' ⟨nd, vd'⟩
  rw [vc] at vc'
  rw [vd] at vd'
  refine Wp.bind (BIG.mul_wp (nc.lim (by omega) (by omega) (by norm_num))
    (nd.lim (by omega) (by omega) (by norm_num)) (by rw [vc', vd']; constructor <;> omega)) ?_
  rintro e ⟨ne, ve⟩
  rw [vc', vd'] at ve
  have lA := na.lim (B := 2 ^ 59) (by omega) (by omega) (by norm_num)
  have lB := nb.lim (B := 2 ^ 59) (by omega) (by omega) (by norm_num)
  have lE := ne.lim (B := 2 ^ 59) (by omega) (by omega) (by norm_num)
  refine Wp.bind (DBIG.add_wp lA lB (by norm_num)) ?_
  rintro s ⟨ls, vs⟩
  have hu := DBIG.ucopy_lim modulus_lim (by norm_num)
  have hv := DBIG.ucopy_val rom.MODULUS
  rw [modulus_val] at hv
  refine Wp.bind (DBIG.rsub_wp lB hu (by norm_num)) ?_
  rintro b' ⟨lb', vb'⟩
  refine Wp.bind (DBIG.add_wp lA lb' (by norm_num)) ?_
  rintro a' ⟨la', va'⟩
  refine Wp.bind (DBIG.norm_wp (la'.mono (by norm_num))) ?_
  rintro a'' ⟨na'', va''⟩
  refine Wp.bind (DBIG.sub_wp lE ls (by norm_num)) ?_
  rintro e' ⟨le', ve'⟩
  refine Wp.bind (DBIG.norm_wp (le'.mono (by norm_num))) ?_
  rintro e'' ⟨ne'', ve''⟩
  refine Wp.bind (FP.modulo_wpR (c := 2) (na''.lim (B := 2 ^ 62) (by omega) (by omega) (by norm_num))
    (by omega) (by omega) (by norm_num)) ?_
  rintro ra ⟨nr, r0, r1, er, rl⟩
  refine Wp.bind (FP.modulo_wpR (c := 1) (ne''.lim (B := 2 ^ 62) (by omega) (by omega) (by norm_num))
    (by omega) (by omega) (by norm_num)) ?_
  rintro rb ⟨ns, s0, s1, es, sl⟩
  refine Wp.ret ⟨⟨?_, fun _ => nr, by norm_num, le_refl _, r0, by simpa using r1, FP.toF_of_val ?_⟩,
    ⟨?_, fun _ => ns, by norm_num, by norm_num, s0, by simpa using s1, FP.toF_of_val ?_⟩⟩
  · rw [one_mul]; exact nr.lim58 r0 rl
  · apply mul_right_cancel₀ Rm_ne
    refine er.trans ?_
    rw [va'', va', vb', hv, va, vb]
    push_cast
    rw [vA, vB, vC, vD, ZMod.natCast_self, re_mul]
    ring
  · rw [one_mul]; exact ns.lim58 s0 sl
  · apply mul_right_cancel₀ Rm_ne
    refine es.trans ?_
    rw [ve'', ve', vs, ve, va, vb]
    push_cast
    rw [vA, vB, vC, vD, im_mul]
    ring

theorem mul_wp {f y : FP2} {L L' E E' : Int} {v w : Fp2} (hf : Ok f L E v) (hy : Ok y L' E' w)
    (h : 1 ≤ L ∧ L ≤ 8 ∧ 1 ≤ L' ∧ L' ≤ 8 ∧ 1 ≤ E ∧ E ≤ 2 ^ 25 ∧ 1 ≤ E' ∧ E' ≤ 2 ^ 23) :
    Wp (mul f y) fun r => Ok r 1 3 (v * w) := by
  obtain ⟨g, eg, hg, hE⟩ := mulPre_wp hf hy (by omega)
  have hp := p_lt
  have hp0 := p_pos
  have hpp : (p : Int) * p ≤ 2 ^ 381 * p := mul_le_mul_of_nonneg_right hp.le hp0.le
  have hpp0 : (0 : Int) ≤ p * p := by positivity
  obtain ⟨c0, c1⟩ := FP.prod_bound (a := g.a.xes + g.b.xes) (b := y.a.xes + y.b.xes)
    (add_nonneg hg.a.v0 hg.b.v0) (add_nonneg hy.a.v0 hy.b.v0)
    (by rw [add_mul]; exact add_le_add hg.a.v1 hg.b.v1) (by rw [add_mul]; exact add_le_add hy.a.v1 hy.b.v1)
  have c2 : (g.a.x.val + g.b.x.val) * (y.a.x.val + y.b.x.val) ≤ 2 ^ 25 * (p * p) :=
    c1.trans (mul_le_mul_of_nonneg_right hE hpp0)
  have c3 : (2:Int) ^ 25 * (p * p) ≤ 2 ^ 406 * p := by omega
  have hx : (g.a.x.val + g.b.x.val) * (y.a.x.val + y.b.x.val) =
      g.a.x.val * y.a.x.val + g.b.x.val * y.b.x.val +
        (g.a.x.val * y.b.x.val + g.b.x.val * y.a.x.val) := by ring
  have a0 := mul_nonneg hg.a.v0 hy.a.v0
  have b0 := mul_nonneg hg.b.v0 hy.b.v0
  have d0 : 0 ≤ g.a.x.val * y.b.x.val := mul_nonneg hg.a.v0 hy.b.v0
  have d1 : 0 ≤ g.b.x.val * y.a.x.val := mul_nonneg hg.b.v0 hy.a.v0
  exact mul_core eg hg hy (by omega) (by omega) (by omega) (by omega)

theorem inverse_wp {f : FP2} {L E : Int} {v : Fp2} (hf : Ok f L E v)
    (h : 1 ≤ L ∧ L ≤ 16 ∧ 1 ≤ E ∧ E ≤ 2 ^ 25) : Wp (inverse f) fun r => Ok r 1 2 v⁻¹ := by
  unfold inverse
  refine Wp.bind (norm_wp hf (by omega)) ?_
  rintro g ⟨hg, -, -⟩
  refine Wp.bind (FP.sqr_wp hg.a (by omega)) fun w1 h1 => ?_
  refine Wp.bind (FP.sqr_wp hg.b (by omega)) fun w2 h2 => ?_
  refine Wp.bind (FP.add_wp h1 h2 (by norm_num)) fun w3 h3 => ?_
  refine Wp.bind (FP.inverse_wp h3 (by norm_num)) fun w4 h4 => ?_
  refine Wp.bind (FP.mul_wp hg.a h4.ok (by omega)) fun a ha => ?_
  refine Wp.bind (FP.neg_wp h4.ok (by norm_num)) fun w5 h5 => ?_
  refine Wp.bind (FP.norm_wp h5 (by norm_num)) fun w6 h6 => ?_
  refine Wp.bind (FP.mul_wp hg.b h6.1 (by omega)) fun b hb => ?_
  refine Wp.ret ⟨ha.congr ?_, hb.congr ?_⟩
  · simp [norm_def, Inv.inv]; ring
  · simp [norm_def, Inv.inv]; ring

theorem two_ne : (2 : Fp2) ≠ 0 := by
  intro h
  have := congrArg QuadraticAlgebra.re h
  simp at this
  exact FP.two_ne this

theorem half_eq (v : Fp2) : v / 2 = ⟨v.re / 2, v.im / 2⟩ := by
  have h2 := FP.two_ne
  rw [div_eq_iff two_ne]
  ext
  · simp; field_simp
  · simp; field_simp

theorem div2_wp {f : FP2} {E : Int} {v : Fp2} (hf : Ok f 1 E v) (h : E ≤ 2 ^ 24) :
    Wp (div2 f) fun r => Ok r 1 E (v / 2) := by
  unfold div2
  refine Wp.bind (FP.div2_wp hf.a h) fun x hx => ?_
  refine Wp.bind (FP.div2_wp hf.b h) fun y hy => ?_
  rw [half_eq]
  exact Wp.ret ⟨hx, hy⟩

theorem times_i_wp {f : FP2} {L E : Int} {v : Fp2} (hf : Ok f L E v)
    (h : 1 ≤ L ∧ L + 1 ≤ 16 ∧ 1 ≤ E ∧ E ≤ 2 ^ 24) :
    Wp (times_i f) fun r => Ok r (L + 1) (2 * E) (v * i) := by
  unfold times_i
  refine Wp.bind (FP.neg_wp hf.b (by omega)) fun m hm => ?_
  exact Wp.ret ⟨hm.congr (by simp [i]), (hf.a.mono (by omega)).congr (by simp [i])⟩

/-- `mul_ip` multiplies by `1 + i`. -/
theorem mul_ip_wp {f : FP2} {L E : Int} {v : Fp2} (hf : Ok f L E v)
    (h : 1 ≤ L ∧ 2 * L + 1 ≤ 16 ∧ 1 ≤ E ∧ 3 * E ≤ 2 ^ 24) :
    Wp (mul_ip f) fun r => Ok r (2 * L + 1) (3 * E) (v * (1 + i)) := by
  unfold mul_ip
  refine Wp.bind (FP.neg_wp hf.b (by omega)) fun m hm => ?_
  refine (add_wp (f := ⟨m, f.a⟩) (v := v * i) (L := L + 1) (E := 2 * E)
    ⟨hm.congr (by simp [i]), (hf.a.mono (by omega)).congr (by simp [i])⟩ hf (by omega)).mono ?_
  intro r hr
  exact hr.cast (by ring) (by ring) (by ring)

end FP2

end Amcl
