import Verif.Proof.B383.Ecp2Mul
/-!
# Coordinates with an excess counter up to its limit

The compressed powers add without reducing, so that an excess counter can reach `FEXCESS`. The counter overestimates the value by a factor of about two, which is what keeps
the products in range.
-/

set_option exponentiation.threshold 2000

namespace Amcl.B383

open Spec Spec.B383

namespace FP

/-- Any excess up to the limit; the value is at most `V·p`. -/
def OkV (f : FP) (L V : Int) (v : Fp) : Prop := Ok f L (2 ^ 23) v ∧ f.x.val ≤ V * p

theorem add_wpV {f b : FP} {L L' V V' : Int} {v w : Fp} (hf : OkV f L V v) (hb : OkV b L' V' w)
    (h : 1 ≤ L ∧ 1 ≤ L' ∧ L + L' ≤ 16 ∧ 0 ≤ V ∧ 0 ≤ V') :
    Wp (add f b) fun r => OkV r (L + L') (V + V') (v + w) ∧
      (f.xes + b.xes ≤ 2 ^ 23 ∧ r.xes = f.xes + b.xes ∧ r.x.val = f.x.val + b.x.val ∨
        2 ^ 23 < f.xes + b.xes ∧ r.xes = 1 ∧ r.x.val < p) ∧
      r.x.val ≤ f.x.val + b.x.val := by
  obtain ⟨hf, bf⟩ := hf
  obtain ⟨hb, bb⟩ := hb
  obtain ⟨h1, h2, h3, h4, h5⟩ := h
  have f1 := hf.x1
  have f2 := hf.xE
  have g1 := hb.x1
  have g2 := hb.xE
  unfold add
  refine Wp.bind (BIG.add_wp hf.lim hb.lim (by omega)) ?_
  rintro x ⟨lx, vx⟩
  rw [i32_eq (by omega) (by omega), Option.bind_eq_bind, Option.bind_some]
  have v0 := hf.v0
  have w0 := hb.v0
  have v1 := hf.v1
  have w1 := hb.v1
  have ok : Ok (⟨x, f.xes + b.xes⟩ : FP) (L + L') (2 ^ 24) (v + w) := by
    refine ⟨by rw [add_mul]; exact lx, fun h => by omega, by show 1 ≤ f.xes + b.xes; omega,
      by show f.xes + b.xes ≤ _; omega, by show 0 ≤ x.val; omega, ?_, toF_of_val ?_⟩
    · show x.val ≤ (f.xes + b.xes) * p
      rw [vx, add_mul]; omega
    · show (x.val : Fp) = _
      rw [vx, Int.cast_add, hf.val_eq, hb.val_eq]; ring
  have hp := p_pos
  have hV : x.val ≤ (V + V') * p := by rw [vx, add_mul]; omega
  rw [settle]
  split
  · next hc =>
    have hn : ∀ r, reduce ⟨x, f.xes + b.xes⟩ = some r → r.x.val ≤ x.val := by
      intro r hr
      unfold reduce at hr
      have hlt : x.val < 2 ^ 408 := by
        have := ok.valE
        have := p_lt
        dsimp only at *
        omega
      obtain ⟨y, ey, hy⟩ := BIG.rmod_wp (s := x) (n := rom.MODULUS) (ok.lim.mono (by omega)) ok.v0 hlt modulus_nrm
        (by rw [modulus_val]; exact p_pos)
      dsimp only at hr
      rw [ey, Option.bind_eq_bind, Option.bind_some] at hr
      cases hr
      show y.val ≤ x.val
      rw [hy.2, modulus_val]
      have h1 := Int.emod_add_mul_ediv x.val p
      have h2 : 0 ≤ (p : Int) * (x.val / p) := mul_nonneg p_pos.le (Int.ediv_nonneg ok.v0 p_pos.le)
      omega
    obtain ⟨r, er, hr⟩ := reduce_wp ok (by omega)
    have hle := hn r er
    refine ⟨r, er, ⟨hr.ok.mono (by omega), hle.trans hV⟩, .inr ⟨?_, hr.xes, hr.v1⟩, by omega⟩
    rw [FEXCESS] at hc
    dsimp only at hc
    omega
  · next hc =>
    rw [FEXCESS] at hc
    dsimp only at hc
    refine Wp.pure ⟨⟨⟨ok.lim, ok.nrm, ok.x1, ?_, ok.v0, ok.v1, ok.res⟩, hV⟩, .inl ⟨by omega, rfl, vx⟩, ?_⟩
    · show f.xes + b.xes ≤ 2 ^ 23
      omega
    · show x.val ≤ _
      omega

end FP

namespace FP2

/-- Any excesses up to the limit; the two values add up to at most `V·p`. -/
structure OkV (f : FP2) (L V : Int) (v : Fp2) : Prop where
  ok : Ok f L (2 ^ 23) v
  sum : f.a.x.val + f.b.x.val ≤ V * p

theorem Ok.toV {f : FP2} {L E : Int} {v : Fp2} (h : Ok f L E v) (hL : 1 ≤ L) (hE : E ≤ 2 ^ 23) : OkV f L (2 * E) v where
  ok := h.mono (by omega)
  sum := by
    have h1 := h.a.valE
    have h2 := h.b.valE
    rw [two_mul, add_mul]
    omega

theorem OkV.mono {f : FP2} {L V L' V' : Int} {v : Fp2} (h : OkV f L V v) (hL : 1 ≤ L ∧ L ≤ L' ∧ V ≤ V') : OkV f L' V' v where
  ok := h.ok.mono (by omega)
  sum := h.sum.trans (mul_le_mul_of_nonneg_right hL.2.2 p_pos.le)

theorem add_wpV {f b : FP2} {L L' V V' : Int} {v w : Fp2} (hf : OkV f L V v) (hb : OkV b L' V' w)
    (h : 1 ≤ L ∧ 1 ≤ L' ∧ L + L' ≤ 16) :
    Wp (add f b) fun r => OkV r (L + L') (V + V') (v + w) := by
  have hV : ∀ {g : FP} {u : Fp} {K : Int}, FP.Ok g K (2 ^ 23) u → FP.OkV g K (2 ^ 23) u := fun h => ⟨h, h.valE⟩
  unfold add
  refine Wp.bind (FP.add_wpV (hV hf.ok.a) (hV hb.ok.a) (by omega)) ?_
  rintro x ⟨hx, -, lx⟩
  refine Wp.bind (FP.add_wpV (hV hf.ok.b) (hV hb.ok.b) (by omega)) ?_
  rintro y ⟨hy, -, ly⟩
  refine Wp.ret ⟨⟨hx.1, hy.1⟩, ?_⟩
  have h1 := hf.sum
  have h2 := hb.sum
  show x.x.val + y.x.val ≤ _
  rw [add_mul]
  omega

theorem norm_okV {f : FP2} {L V : Int} {v : Fp2} (hf : OkV f L V v) (h : L ≤ 16) :
    Wp (norm f) fun r => OkV r 1 V v := by
  refine (norm_wp hf.ok (by omega)).mono ?_
  rintro r ⟨hr, ea, eb⟩
  exact ⟨hr, by rw [ea, eb]; exact hf.sum⟩

theorem mulPre_wpV {f y : FP2} {L L' E E' : Int} {v w : Fp2} (hf : Ok f L E v) (hy : Ok y L' E' w)
    (h : 1 ≤ L ∧ L ≤ 16 ∧ 1 ≤ E ∧ E ≤ 2 ^ 23 ∧ 1 ≤ E' ∧ E' ≤ 2 ^ 23) :
    Wp (mulPre f y) fun r => Ok r L E v ∧
      ((r.a.xes + r.b.xes) * (y.a.xes + y.b.xes) ≤ 2 ^ 23 ∨ r.a.xes = 1 ∧ r.b.xes = 1) := by
  unfold mulPre
  have f1 := hf.a.x1
  have f2 := hf.a.xE
  have f3 := hf.b.x1
  have f4 := hf.b.xE
  have y1 := hy.a.x1
  have y2 := hy.a.xE
  have y3 := hy.b.x1
  have y4 := hy.b.xE
  have e1 : (f.a.xes + f.b.xes) * (y.a.xes + y.b.xes) ≤ 2 ^ 24 * 2 ^ 24 :=
    mul_le_mul (by omega) (by omega) (by omega) (by norm_num)
  have e0 : 0 ≤ (f.a.xes + f.b.xes) * (y.a.xes + y.b.xes) := mul_nonneg (by omega) (by omega)
  rw [i32_eq (by omega) (by omega), i32_eq (by omega) (by omega)]
  simp only [Option.bind_eq_bind, Option.bind_some]
  rw [i64_eq (by omega) (by omega)]
  simp only [Option.bind_some]
  have red : ∀ {g : FP} {u : Fp}, FP.Ok g L E u →
      Wp (reduceBig g) fun r => FP.Ok r L E u ∧ r.xes = 1 := by
    intro g u hg
    unfold reduceBig
    split
    · refine (FP.reduce_wp hg (by omega)).mono ?_
      intro r hr
      exact ⟨hr.ok.mono (by omega), hr.xes⟩
    · refine Wp.pure ⟨hg, ?_⟩
      have := hg.x1
      omega
  split
  · refine Wp.bind (red hf.a) fun a ha => ?_
    refine Wp.bind (red hf.b) fun b hb => ?_
    exact Wp.ret ⟨⟨ha.1, hb.1⟩, .inr ⟨ha.2, hb.2⟩⟩
  · next hx =>
    refine Wp.ret ⟨hf, .inl ?_⟩
    rw [FEXCESS] at hx
    omega

theorem mul_wpV {f y : FP2} {L L' E V : Int} {v w : Fp2} (hf : Ok f L E v) (hy : OkV y L' V w)
    (h : 1 ≤ L ∧ L ≤ 8 ∧ 1 ≤ L' ∧ L' ≤ 8 ∧ 1 ≤ E ∧ E ≤ 2 ^ 23 ∧ V ≤ 2 ^ 23) :
    Wp (mul f y) fun r => Ok r 1 3 (v * w) := by
  obtain ⟨g, eg, hg, hE⟩ := mulPre_wpV hf hy.ok (by omega)
  have hp := p_lt
  have hp0 := p_pos
  have hpp : (p : Int) * p ≤ 2 ^ 383 * p := mul_le_mul_of_nonneg_right hp.le hp0.le
  have hpp0 : (0 : Int) ≤ p * p := by positivity
  have c3 : (2:Int) ^ 23 * (p * p) ≤ 2 ^ 406 * p := by omega
  have ga := hg.a.v0
  have gb := hg.b.v0
  have ya := hy.ok.a.v0
  have yb := hy.ok.b.v0
  have a0 := mul_nonneg ga ya
  have b0 := mul_nonneg gb yb
  have d0 := mul_nonneg ga yb
  have d1 := mul_nonneg gb ya
  rcases hE with hE | ⟨h1, h2⟩
  · obtain ⟨c0, c1⟩ := FP.prod_bound (a := g.a.xes + g.b.xes) (b := y.a.xes + y.b.xes)
      (add_nonneg hg.a.v0 hg.b.v0) (add_nonneg hy.ok.a.v0 hy.ok.b.v0)
      (by rw [add_mul]; exact add_le_add hg.a.v1 hg.b.v1) (by rw [add_mul]; exact add_le_add hy.ok.a.v1 hy.ok.b.v1)
    have c2 : (g.a.x.val + g.b.x.val) * (y.a.x.val + y.b.x.val) ≤ 2 ^ 23 * (p * p) :=
      c1.trans (mul_le_mul_of_nonneg_right hE hpp0)
    have hx : (g.a.x.val + g.b.x.val) * (y.a.x.val + y.b.x.val) =
        g.a.x.val * y.a.x.val + g.b.x.val * y.b.x.val +
          (g.a.x.val * y.b.x.val + g.b.x.val * y.a.x.val) := by ring
    exact mul_core eg hg hy.ok (by omega) (by omega) (by omega) (by omega)
  · have g1 := hg.a.v1
    have g2 := hg.b.v1
    rw [h1, one_mul] at g1
    rw [h2, one_mul] at g2
    have hs := hy.sum
    have hs' : (p : Int) * (y.a.x.val + y.b.x.val) ≤ p * (2 ^ 23 * p) := by
      refine mul_le_mul_of_nonneg_left (hs.trans ?_) hp0.le
      exact mul_le_mul_of_nonneg_right (by omega) hp0.le
    rw [mul_add] at hs'
    have e1 : g.a.x.val * y.a.x.val ≤ p * y.a.x.val := mul_le_mul_of_nonneg_right g1 ya
    have e2 : g.b.x.val * y.b.x.val ≤ p * y.b.x.val := mul_le_mul_of_nonneg_right g2 yb
    have e3 : g.a.x.val * y.b.x.val ≤ p * y.b.x.val := mul_le_mul_of_nonneg_right g1 yb
    have e4 : g.b.x.val * y.a.x.val ≤ p * y.a.x.val := mul_le_mul_of_nonneg_right g2 ya
    have e5 : 0 ≤ (p : Int) * y.a.x.val := mul_nonneg hp0.le ya
    have e6 : 0 ≤ (p : Int) * y.b.x.val := mul_nonneg hp0.le yb
    have e7 : (p : Int) * (2 ^ 23 * p) = 2 ^ 23 * (p * p) := by ring
    exact mul_core eg hg hy.ok (by omega) (by omega) (by omega) (by omega)

theorem sqr_wpV {f : FP2} {v : Fp2} (hf : Ok f 1 (2 ^ 23) v) : Wp (sqr f) fun r => Ok r 1 2 (v * v) := by
  have hV : ∀ {g : FP} {u : Fp} {K : Int}, FP.Ok g K (2 ^ 23) u → FP.OkV g K (2 ^ 23) u := fun h => ⟨h, h.valE⟩
  unfold sqr
  refine Wp.bind (FP.add_wpV (hV hf.a) (hV hf.b) (by norm_num)) fun w1 h1 => ?_
  refine Wp.bind (FP.add_wpV (hV hf.a) (hV hf.a) (by norm_num)) fun w3 h3 => ?_
  refine Wp.bind (FP.norm_wp h3.1.1 (by norm_num)) fun w3' h3' => ?_
  refine Wp.bind (FP.mul_wp hf.b h3'.1 (by norm_num)) fun b hb => ?_
  refine Wp.bind (FP.neg_full hf.b (by norm_num)) ?_
  rintro mb ⟨hmb, hx⟩
  have hmb' : FP.Ok mb (1 + 1) (2 ^ 23) (-v.im) := ⟨hmb.lim, hmb.nrm, hmb.x1, hx, hmb.v0, hmb.v1, hmb.res⟩
  refine Wp.bind (FP.add_wpV (hV hf.a) (hV hmb') (by norm_num)) fun a ha => ?_
  refine Wp.bind (FP.norm_wp h1.1.1 (by norm_num)) fun w1' h1' => ?_
  refine Wp.bind (FP.norm_wp ha.1.1 (by norm_num)) fun a' ha' => ?_
  refine Wp.bind (FP.mul_wp ha'.1 h1'.1 (by norm_num)) fun r hr => ?_
  refine Wp.ret ⟨hr.congr ?_, hb.congr ?_⟩
  · simp; ring
  · simp; ring

end FP2

end Amcl.B383
