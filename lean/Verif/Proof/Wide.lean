import Verif.Proof.Ecp2Mul
/-!
# Coordinates with an excess counter up to its limit

The search loop of `map_to_g2` adds 1 to a coordinate without reducing it, so that its excess counter
can reach `FEXCESS`. The counter overestimates the value by a factor of about two, which is what keeps
the products in range.
-/

set_option exponentiation.threshold 2000

namespace Amcl

open Spec

namespace FP

/-- Any excess up to the limit; the value is at most `V·p`. -/
def OkV (f : FP) (L V : Int) (v : Fp) : Prop := Ok f L (2 ^ 25) v ∧ f.x.val ≤ V * p

theorem add_wpV {f b : FP} {L L' V V' : Int} {v w : Fp} (hf : OkV f L V v) (hb : OkV b L' V' w)
    (h : 1 ≤ L ∧ 1 ≤ L' ∧ L + L' ≤ 16 ∧ 0 ≤ V ∧ 0 ≤ V') :
    Wp (add f b) fun r => OkV r (L + L') (V + V') (v + w) ∧
      (f.xes + b.xes ≤ 2 ^ 25 ∧ r.xes = f.xes + b.xes ∧ r.x.val = f.x.val + b.x.val ∨
        2 ^ 25 < f.xes + b.xes ∧ r.xes = 1 ∧ r.x.val < p) ∧
      r.x.val ≤ f.x.val + b.x.val := by
  obtain ⟨hf, bf⟩ := hf
  obtain ⟨hb, bb⟩ := hb
  obtain ⟨h1, h2, h3, h4, h5⟩ := h
  have f1 := hf.x1
  have f2 := hf.xE
  have g1 := hb.x1
  have g2 := hb.xE
  unfold add
  refine Wp.bind (BIG.add_wp hf.lim hb.lim (by omega)) ?_
  rintro x ⟨lx, vx⟩
  rw [i32_eq (by omega) (by omega), Option.bind_eq_bind, Option.bind_some]
  have v0 := hf.v0
  have w0 := hb.v0
  have v1 := hf.v1
  have w1 := hb.v1
  have ok : Ok (⟨x, f.xes + b.xes⟩ : FP) (L + L') (2 ^ 26) (v + w) := by
    refine ⟨by rw [add_mul]; exact lx, fun h => by omega, by show 1 ≤ f.xes + b.xes; omega,
      by show f.xes + b.xes ≤ _; omega, by show 0 ≤ x.val; omega, ?_, toF_of_val ?_⟩
    · show x.val ≤ (f.xes + b.xes) * p
      rw [vx, add_mul]; omega
    · show (x.val : Fp) = _
      rw [vx, Int.cast_add, hf.val_eq, hb.val_eq]; ring
  have hp := p_pos
  have hV : x.val ≤ (V + V') * p := by rw [vx, add_mul]; omega
  rw [settle]
  split
  · next hc =>
    have hn : ∀ r, reduce ⟨x, f.xes + b.xes⟩ = some r → r.x.val ≤ x.val := by
      intro r hr
      unfold reduce at hr
      have hlt : x.val < 2 ^ 408 := by
        have := ok.valE
        have := p_lt
        dsimp only at *
        omega
      obtain ⟨y, ey, hy⟩ := BIG.rmod_wp (s := x) (n := rom.MODULUS) (ok.lim.mono (by omega)) ok.v0 hlt modulus_nrm
        (by rw [modulus_val]; exact p_pos)
      dsimp only at hr
      rw [ey, Option.bind_eq_bind, Option.bind_some] at hr
      cases hr
      show y.val ≤ x.val
      rw [hy.2, modulus_val]
      have h1 := Int.emod_add_mul_ediv x.val p
      have h2 : 0 ≤ (p : Int) * (x.val / p) := mul_nonneg p_pos.le (Int.ediv_nonneg ok.v0 p_pos.le)
      omega
    obtain ⟨r, er, hr⟩ := reduce_wp ok (by omega)
    have hle := hn r er
    refine ⟨r, er, ⟨hr.ok.mono (by omega), hle.trans hV⟩, .inr ⟨?_, hr.xes, hr.v1⟩, by omega⟩
    rw [FEXCESS] at hc
    dsimp only at hc
    omega
  · next hc =>
    rw [FEXCESS] at hc
    dsimp only at hc
    refine Wp.pure ⟨⟨⟨ok.lim, ok.nrm, ok.x1, ?_, ok.v0, ok.v1, ok.res⟩, hV⟩, .inl ⟨by omega, rfl, vx⟩, ?_⟩
    · show f.xes + b.xes ≤ 2 ^ 25
      omega
    · show x.val ≤ _
      omega

end FP

namespace FP2

/-- Any excesses up to the limit; the two values add up to at most `V·p`. -/
structure OkV (f : FP2) (L V : Int) (v : Fp2) : Prop where
  ok : Ok f L (2 ^ 25) v
  sum : f.a.x.val + f.b.x.val ≤ V * p

theorem Ok.toV {f : FP2} {L E : Int} {v : Fp2} (h : Ok f L E v) (hL : 1 ≤ L) (hE : E ≤ 2 ^ 25) : OkV f L (2 * E) v where
  ok := h.mono (by omega)
  sum := by
    have h1 := h.a.valE
    have h2 := h.b.valE
    rw [two_mul, add_mul]
    omega

theorem OkV.mono {f : FP2} {L V L' V' : Int} {v : Fp2} (h : OkV f L V v) (hL : 1 ≤ L ∧ L ≤ L' ∧ V ≤ V') : OkV f L' V' v where
  ok := h.ok.mono (by omega)
  sum := h.sum.trans (mul_le_mul_of_nonneg_right hL.2.2 p_pos.le)

theorem add_wpV {f b : FP2} {L L' V V' : Int} {v w : Fp2} (hf : OkV f L V v) (hb : OkV b L' V' w)
    (h : 1 ≤ L ∧ 1 ≤ L' ∧ L + L' ≤ 16) :
    Wp (add f b) fun r => OkV r (L + L') (V + V') (v + w) := by
  have hV : ∀ {g : FP} {u : Fp} {K : Int}, FP.Ok g K (2 ^ 25) u → FP.OkV g K (2 ^ 25) u := fun h => ⟨h, h.valE⟩
  unfold add
  refine Wp.bind (FP.add_wpV (hV hf.ok.a) (hV hb.ok.a) (by omega)) ?_
  rintro x ⟨hx, -, lx⟩
  refine Wp.bind (FP.add_wpV (hV hf.ok.b) (hV hb.ok.b) (by omega)) ?_
  rintro y ⟨hy, -, ly⟩
  refine Wp.ret ⟨⟨hx.1, hy.1⟩, ?_⟩
  have h1 := hf.sum
  have h2 := hb.sum
  show x.x.val + y.x.val ≤ _
  rw [add_mul]
  omega

theorem norm_okV {f : FP2} {L V : Int} {v : Fp2} (hf : OkV f L V v) (h : L ≤ 16) :
    Wp (norm f) fun r => OkV r 1 V v := by
  refine (norm_wp hf.ok (by omega)).mono ?_
  rintro r ⟨hr, ea, eb⟩
  exact ⟨hr, by rw [ea, eb]; exact hf.sum⟩

theorem mulPre_wpV {f y : FP2} {L L' E E' : Int} {v w : Fp2} (hf : Ok f L E v) (hy : Ok y L' E' w)
    (h : 1 ≤ L ∧ L ≤ 16 ∧ 1 ≤ E ∧ E ≤ 2 ^ 25 ∧ 1 ≤ E' ∧ E' ≤ 2 ^ 25) :
    Wp (mulPre f y) fun r => Ok r L E v ∧
      ((r.a.xes + r.b.xes) * (y.a.xes + y.b.xes) ≤ 2 ^ 25 ∨ r.a.xes = 1 ∧ r.b.xes = 1) := by
  unfold mulPre
  have f1 := hf.a.x1
  have f2 := hf.a.xE
  have f3 := hf.b.x1
  have f4 := hf.b.xE
  have y1 := hy.a.x1
  have y2 := hy.a.xE
  have y3 := hy.b.x1
  have y4 := hy.b.xE
  have e1 : (f.a.xes + f.b.xes) * (y.a.xes + y.b.xes) ≤ 2 ^ 26 * 2 ^ 26 :=
    mul_le_mul (by omega) (by omega) (by omega) (by norm_num)
  have e0 : 0 ≤ (f.a.xes + f.b.xes) * (y.a.xes + y.b.xes) := mul_nonneg (by omega) (by omega)
  rw [i32_eq (by omega) (by omega), i32_eq (by omega) (by omega)]
  simp only [Option.bind_eq_bind, Option.bind_some]
  rw [i64_eq (by omega) (by omega)]
  simp only [Option.bind_some]
  have red : ∀ {g : FP} {u : Fp}, FP.Ok g L E u →
      Wp (reduceBig g) fun r => FP.Ok r L E u ∧ r.xes = 1 := by
    intro g u hg
    unfold reduceBig
    split
    · refine (FP.reduce_wp hg (by omega)).mono ?_
      intro r hr
      exact ⟨hr.ok.mono (by omega), hr.xes⟩
    · refine Wp.pure ⟨hg, ?_⟩
      have := hg.x1
      omega
  split
  · refine Wp.bind (red hf.a) fun a ha => ?_
    refine Wp.bind (red hf.b) fun b hb => ?_
    exact Wp.ret ⟨⟨ha.1, hb.1⟩, .inr ⟨ha.2, hb.2⟩⟩
  · next hx =>
    refine Wp.ret ⟨hf, .inl ?_⟩
    rw [FEXCESS] at hx
    omega

theorem mul_wpV {f y : FP2} {L L' E V : Int} {v w : Fp2} (hf : Ok f L E v) (hy : OkV y L' V w)
    (h : 1 ≤ L ∧ L ≤ 8 ∧ 1 ≤ L' ∧ L' ≤ 8 ∧ 1 ≤ E ∧ E ≤ 2 ^ 25 ∧ V ≤ 2 ^ 25) :
    Wp (mul f y) fun r => Ok r 1 3 (v * w) := by
  obtain ⟨g, eg, hg, hE⟩ := mulPre_wpV hf hy.ok (by omega)
  have hp := p_lt
  have hp0 := p_pos
  have hpp : (p : Int) * p ≤ 2 ^ 381 * p := mul_le_mul_of_nonneg_right hp.le hp0.le
  have hpp0 : (0 : Int) ≤ p * p := by positivity
  have c3 : (2:Int) ^ 25 * (p * p) ≤ 2 ^ 406 * p := by omega
  have ga := hg.a.v0
  have gb := hg.b.v0
  have ya := hy.ok.a.v0
  have yb := hy.ok.b.v0
  have a0 := mul_nonneg ga ya
  have b0 := mul_nonneg gb yb
  have d0 := mul_nonneg ga yb
  have d1 := mul_nonneg gb ya
  rcases hE with hE | ⟨h1, h2⟩
  · obtain ⟨c0, c1⟩ := FP.prod_bound (a := g.a.xes + g.b.xes) (b := y.a.xes + y.b.xes)
      (add_nonneg hg.a.v0 hg.b.v0) (add_nonneg hy.ok.a.v0 hy.ok.b.v0)
      (by rw [add_mul]; exact add_le_add hg.a.v1 hg.b.v1) (by rw [add_mul]; exact add_le_add hy.ok.a.v1 hy.ok.b.v1)
    have c2 : (g.a.x.val + g.b.x.val) * (y.a.x.val + y.b.x.val) ≤ 2 ^ 25 * (p * p) :=
      c1.trans (mul_le_mul_of_nonneg_right hE hpp0)
    have hx : (g.a.x.val + g.b.x.val) * (y.a.x.val + y.b.x.val) =
        g.a.x.val * y.a.x.val + g.b.x.val * y.b.x.val +
          (g.a.x.val * y.b.x.val + g.b.x.val * y.a.x.val) := by ring
    exact mul_core eg hg hy.ok (by omega) (by omega) (by omega) (by omega)
  · have g1 := hg.a.v1
    have g2 := hg.b.v1
    rw [h1, one_mul] at g1
    rw [h2, one_mul] at g2
    have hs := hy.sum
    have hs' : (p : Int) * (y.a.x.val + y.b.x.val) ≤ p * (2 ^ 25 * p) := by
      refine mul_le_mul_of_nonneg_left (hs.trans ?_) hp0.le
      exact mul_le_mul_of_nonneg_right (by omega) hp0.le
    rw [mul_add] at hs'
    have e1 : g.a.x.val * y.a.x.val ≤ p * y.a.x.val := mul_le_mul_of_nonneg_right g1 ya
    have e2 : g.b.x.val * y.b.x.val ≤ p * y.b.x.val := mul_le_mul_of_nonneg_right g2 yb
    have e3 : g.a.x.val * y.b.x.val ≤ p * y.b.x.val := mul_le_mul_of_nonneg_right g1 yb
    have e4 : g.b.x.val * y.a.x.val ≤ p * y.a.x.val := mul_le_mul_of_nonneg_right g2 ya
    have e5 : 0 ≤ (p : Int) * y.a.x.val := mul_nonneg hp0.le ya
    have e6 : 0 ≤ (p : Int) * y.b.x.val := mul_nonneg hp0.le yb
    have e7 : (p : Int) * (2 ^ 25 * p) = 2 ^ 25 * (p * p) := by ring
    exact mul_core eg hg hy.ok (by omega) (by omega) (by omega) (by omega)

theorem sqr_wpV {f : FP2} {v : Fp2} (hf : Ok f 1 (2 ^ 25) v) : Wp (sqr f) fun r => Ok r 1 2 (v * v) := by
  have hV : ∀ {g : FP} {u : Fp} {K : Int}, FP.Ok g K (2 ^ 25) u → FP.OkV g K (2 ^ 25) u := fun h => ⟨h, h.valE⟩
  unfold sqr
  refine Wp.bind (FP.add_wpV (hV hf.a) (hV hf.b) (by norm_num)) fun w1 h1 => ?_
  refine Wp.bind (FP.add_wpV (hV hf.a) (hV hf.a) (by norm_num)) fun w3 h3 => ?_
  refine Wp.bind (FP.norm_wp h3.1.1 (by norm_num)) fun w3' h3' => ?_
  refine Wp.bind (FP.mul_wp hf.b h3'.1 (by norm_num)) fun b hb => ?_
  refine Wp.bind (FP.neg_full hf.b (by norm_num)) ?_
  rintro mb ⟨hmb, hx⟩
  have hmb' : FP.Ok mb (1 + 1) (2 ^ 25) (-v.im) := ⟨hmb.lim, hmb.nrm, hmb.x1, hx, hmb.v0, hmb.v1, hmb.res⟩
  refine Wp.bind (FP.add_wpV (hV hf.a) (hV hmb') (by norm_num)) fun a ha => ?_
  refine Wp.bind (FP.norm_wp h1.1.1 (by norm_num)) fun w1' h1' => ?_
  refine Wp.bind (FP.norm_wp ha.1.1 (by norm_num)) fun a' ha' => ?_
  refine Wp.bind (FP.mul_wp ha'.1 h1'.1 (by norm_num)) fun r hr => ?_
  refine Wp.ret ⟨hr.congr ?_, hb.congr ?_⟩
  · simp; ring
  · simp; ring

end FP2

seal FP2.mul FP2.sqr FP2.norm FP2.add FP2.sub FP2.rsub FP2.dbl FP2.neg FP2.imul FP2.mul_ip

namespace ECP2

/-- A representation whose abscissa may have any excess. -/
structure Wide (P : ECP2) (E : Int) (g : G2) : Prop where
  x : FP2.OkV P.x 1 (2 ^ 24 + 2 ^ 20) P.x.toF
  y : FP2.Ok P.y 1 E P.y.toF
  z : FP2.Ok P.z 1 E P.z.toF
  pt : Proj P.x.toF P.y.toF P.z.toF g

theorem Ok.wide {P : ECP2} {E : Int} {g : G2} (h : Ok P E g) (hE : E ≤ 2 ^ 20) : Wide P E g :=
  ⟨(h.x.toV (by norm_num) (by omega)).mono (by omega), h.y, h.z, h.pt⟩

theorem Wide.mono {P : ECP2} {E E' : Int} {g : G2} (h : Wide P E g) (hE : E ≤ E') : Wide P E' g :=
  ⟨h.x, h.y.mono (by omega), h.z.mono (by omega), h.pt⟩

theorem Wide.ok {P : ECP2} {E : Int} {g : G2} (h : Wide P E g) (hE : E ≤ 2 ^ 25) : Ok P (2 ^ 25) g :=
  ⟨h.x.ok, h.y.mono (by omega), h.z.mono (by omega), h.pt⟩

set_option maxHeartbeats 4000000 in
theorem dbl_wpV {P : ECP2} {g : G2} (hP : Wide P (2 ^ 14) g) :
    Wp (dbl P) fun r => Ok r 32 (g + g) := by
  unfold dbl
  rw [show 3 * rom.CURVE_B_I = 12 from rfl]
  obtain ⟨⟨hx, hV⟩, hy, hz, pt⟩ := hP
  repeat fp2_step
  refine Wp.ret (ok_of (FP2.Ok.mono (by assumption) (by norm_num)) (FP2.Ok.mono (by assumption) (by norm_num))
    (FP2.Ok.mono (by assumption) (by norm_num)) (pt.dbl.congr ?_ ?_ ?_ rfl))
  all_goals (try simp only [b2]); push_cast; ring

/-- A step on operands with a large excess. -/
macro "wide_step" : tactic => `(tactic| first
  | fp2_step
  | refine Wp.bind (FP2.mul_wpV (FP2.OkV.ok (by assumption)) (by assumption) (by norm_num)) (fun _ _ => ?_)
  | refine Wp.bind (FP2.norm_okV (by assumption) (by norm_num)) (fun _ _ => ?_)
  | refine Wp.bind (FP2.add_wpV (by assumption) (by assumption) (by norm_num)) (fun _ _ => ?_))

set_option maxHeartbeats 8000000 in
theorem add_wpV {P Q : ECP2} {g h : G2} (hP : Wide P (2 ^ 14) g) (hQ : Wide Q (2 ^ 14) h) :
    Wp (add P Q) fun r => Ok r 32 (g + h) := by
  unfold add
  rw [show 3 * rom.CURVE_B_I = 12 from rfl]
  obtain ⟨hx, hy, hz, pt⟩ := hP
  obtain ⟨hx', hy', hz', pt'⟩ := hQ
  have vy := hy.toV (by norm_num) (by norm_num)
  have vz := hz.toV (by norm_num) (by norm_num)
  have vy' := hy'.toV (by norm_num) (by norm_num)
  have vz' := hz'.toV (by norm_num) (by norm_num)
  repeat wide_step
  refine Wp.ret (ok_of (FP2.Ok.mono (by assumption) (by norm_num)) (FP2.Ok.mono (by assumption) (by norm_num))
    (FP2.Ok.mono (by assumption) (by norm_num)) ((pt.add pt').congr ?_ ?_ ?_ rfl))
  all_goals (try simp only [b2]); push_cast; ring

theorem neg_wpV {P : ECP2} {E : Int} {g : G2} (hP : Wide P E g) (hE : 1 ≤ E ∧ E ≤ 2 ^ 20) :
    Wp (neg P) fun r => Wide r (5 * E) (-g) := by
  unfold neg
  refine Wp.bind (FP2.norm_ok hP.y (by omega)) fun y hy => ?_
  refine Wp.bind (FP2.neg_wp hy (by omega)) fun a ha => ?_
  refine Wp.bind (FP2.norm_ok ha (by omega)) fun b hb => ?_
  refine Wp.ret ⟨hP.x, ?_, hP.z.mono (by omega), ?_⟩
  · exact hb.res ▸ hb
  · have := hP.pt.neg
    rwa [← hb.res] at this

theorem affine_wpV {P : ECP2} {E : Int} {g : G2} (hP : Wide P E g) (hE : 2 ≤ E ∧ E ≤ 2 ^ 20) :
    Wp (affine P) fun r => Wide r E g := by
  unfold affine
  refine Wp.bind (is_infinity_wp (hP.ok (by omega)) (by omega)) fun e he => ?_
  split
  · exact Wp.ret hP
  rename_i hf
  have hg : g ≠ 0 := fun h => hf (he.2 h)
  refine Wp.bind (FP2.new_int_wp (a := 1) (by norm_num) (by norm_num)) fun one ho => ?_
  rw [Int.cast_one] at ho
  refine Wp.bind (FP2.equals_wp hP.z ho (by omega)) ?_
  rintro ⟨e', z, one⟩ ⟨he', hz, ho, -⟩
  dsimp only at he' hz ho ⊢
  split
  · refine Wp.ret ⟨hP.x, hP.y, ?_, ?_⟩
    · exact hz.res ▸ hz
    · show Proj P.x.toF P.y.toF z.toF g
      rw [hz.res]
      exact hP.pt
  refine Wp.bind (FP2.inverse_wp hz (by omega)) fun zi hzi => ?_
  refine Wp.bind (FP2.mul_wp hP.x.ok hzi (by omega)) fun x hx => ?_
  refine Wp.bind (FP2.reduce_wp hx (by norm_num)) fun x hx => ?_
  refine Wp.bind (FP2.mul_wp hP.y hzi (by omega)) fun y hy => ?_
  refine Wp.bind (FP2.reduce_wp hy (by norm_num)) fun y hy => ?_
  obtain ⟨-, h', e⟩ := hP.pt.aff hg
  refine Wp.ret (Ok.wide (ok_of (hx.ok.mono (by omega)) (hy.ok.mono (by omega)) (ho.mono (by omega))
    ((Proj.mk h').congr rfl rfl rfl e.symm)) (by omega))

theorem lawsV : Window.Laws ops (fun P g => Wide P (2 ^ 10) g) (fun P g => Wide P (2 ^ 13) g)
    (fun P g => Wide P (2 ^ 10) g) where
  up h := h.mono (by norm_num)
  add h h' := (add_wpV (h.mono (by norm_num)) (h'.mono (by norm_num))).mono fun _ h => (h.mono (by norm_num)).wide (by norm_num)
  dbl h := (dbl_wpV (h.mono (by norm_num))).mono fun _ h => (h.mono (by norm_num)).wide (by norm_num)
  neg h := (neg_wpV h (by norm_num)).mono fun _ h => h.mono (by norm_num)
  cmove h h' hd := cmove_eq (h.ok (by norm_num)) (h'.ok (by norm_num)) (by norm_num) hd
  affine h := affine_wpV h (by norm_num)

theorem mul_wpV {P : ECP2} {g : G2} (hP : Wide P (2 ^ 10) g) {e : BIG} (he : e.Nrm) (h0 : 0 ≤ e.val)
    (h1 : e.val < 2 ^ 403) : Wp (mul P e) fun r => Wide r (2 ^ 10) (e.val • g) := by
  unfold mul
  refine Wp.bind (is_infinity_wp (hP.ok (by norm_num)) (by norm_num)) fun b hb => ?_
  split
  · rename_i ht
    rw [hb.1 ht, smul_zero]
    exact new_wp.mono fun r h => (h.mono (by norm_num)).wide (by norm_num)
  · exact Window.mul_wp lawsV hP he h0 h1

theorem rhs_wpV {x : FP2} {v : Fp2} (hx : FP2.OkV x 1 (2 ^ 24 + 2 ^ 20) v) :
    Wp (rhs x) fun r => FP2.Can r.1 (v ^ 3 + b2) ∧ FP2.OkV r.2 1 (2 ^ 24 + 2 ^ 20) v := by
  unfold rhs
  refine Wp.bind (FP2.norm_okV hx (by norm_num)) fun y hy => ?_
  refine Wp.bind (FP2.sqr_wpV hy.ok) fun a ha => ?_
  refine Wp.bind b_wp fun b hb => ?_
  refine Wp.bind (FP2.norm_ok hb (by norm_num)) fun b hb => ?_
  refine Wp.bind (FP2.mul_ip_wp hb (by norm_num)) fun b hb => ?_
  refine Wp.bind (FP2.norm_ok hb (by norm_num)) fun b hb => ?_
  refine Wp.bind (FP2.mul_wpV ha hy (by norm_num)) fun c hc => ?_
  refine Wp.bind (FP2.add_wp hc hb (by norm_num)) fun d hd => ?_
  refine Wp.bind (FP2.reduce_wp hd (by norm_num)) fun e he => ?_
  refine Wp.ret ⟨?_, hy⟩
  rw [show v ^ 3 + b2 = v * v * v + 4 * (1 + i) by rw [b2]; ring]
  exact he

theorem new_fp2_wpV {ix : FP2} {x : Fp2} (hx : FP2.OkV ix 1 (2 ^ 24 + 2 ^ 20) x) :
    Wp (new_fp2 ix) fun P =>
      (IsSquare (x ^ 3 + b2) ∧ ((x ^ 3 + b2).im = 0 → IsSquare (x ^ 3 + b2).re) →
        ∃ y h, Wide P 2 (Pt.mk x y h) ∧ P.z.toF = 1 ∧
          FP2.Ok P.y 1 2 y ∧ IsSquare y.re ∧ (y.im = 0 → P.y.b.x.val = 0)) ∧
      (¬ (IsSquare (x ^ 3 + b2) ∧ ((x ^ 3 + b2).im = 0 → IsSquare (x ^ 3 + b2).re)) → Ok P 2 0) := by
  unfold new_fp2
  refine Wp.bind FP2.one_wp fun z hz => ?_
  refine Wp.bind (rhs_wpV hx) ?_
  rintro ⟨r, x'⟩ ⟨hr, hx'⟩
  dsimp only at hr hx' ⊢
  refine Wp.bind (FP2.sqrt_wp hr.ok (by norm_num)) ?_
  rintro ⟨q, y⟩ ⟨hq, hy⟩
  dsimp only at hq hy ⊢
  split
  · rename_i ht
    obtain ⟨w, hw, e, ws, wz⟩ := hy ht
    rw [← pow_two] at e
    refine Wp.ret ⟨fun _ => ⟨w, e, ⟨?_, ?_, ?_, ?_⟩, hz.res, hw, ws, wz⟩, fun h => absurd (hq.1 ht) h⟩
    · exact hx'.ok.res ▸ hx'
    · exact hw.res ▸ hw
    · exact hz.res ▸ hz
    · show Proj x'.toF y.toF z.toF _
      rw [hx'.ok.res, hw.res, hz.res]
      exact Proj.mk e
  · rename_i hf
    exact inf_wp.mono fun P hP => ⟨fun h => absurd (hq.2 h) hf, fun _ => hP.mono (by omega)⟩

end ECP2

end Amcl
