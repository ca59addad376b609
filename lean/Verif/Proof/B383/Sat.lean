import Verif.Proof.B383.Wide
import Verif.Proof.B383.Fp4
import Verif.Model.B383.Xtr
/-!
# `FP4` values with excess counters up to the limit

The compressed powers conjugate and add without reducing, so that the excess counters of the second half of
an `FP4` grow until `FP::add` reduces. `J` is the invariant that keeps every product in range.
-/

set_option exponentiation.threshold 2000

namespace Amcl.B383

open Spec Spec.B383 QuadraticAlgebra

theorem p_lt' : (p : Int) < 27 * 2 ^ 378 := by norm_num [p]

namespace FP

theorem Ok.v {f : FP} {L : Int} {v : Fp} (h : Ok f L (2 ^ 23) v) : OkV f L (2 ^ 23) v := ⟨h, h.valE⟩

/-- What `neg` does to the value and to the excess. -/
theorem neg_exact {f : FP} {L : Int} {v : Fp} (hf : Ok f L (2 ^ 23) v) (h : 1 ≤ L ∧ L + 1 ≤ 16) :
    Wp (neg f) fun r => Ok r (L + 1) (2 ^ 23) (-v) ∧ f.xes ≤ r.xes ∧ r.x.val + f.x.val = r.xes * p ∧
      ∀ j : Nat, (f.xes ≤ 2 ^ j → r.xes ≤ 2 ^ j) ∧ (2 ^ j < f.xes → 2 ^ (j + 1) ≤ r.xes) := by
  obtain ⟨h1, h2⟩ := h
  obtain ⟨r, er, hr, hr'⟩ := neg_full hf (by omega)
  refine ⟨r, er, ⟨hr.lim, hr.nrm, hr.x1, hr', hr.v0, hr.v1, hr.res⟩, ?_⟩
  have f1 := hf.x1
  have f2 := hf.xE
  unfold neg at er
  rw [i32_eq (by omega) (by omega), Option.bind_eq_bind, Option.bind_some] at er
  rw [logb2_eq] at er
  have hn : (UInt32.ofNat ((f.xes - 1) % 2 ^ 32).toNat).toNat = (f.xes - 1).toNat := by
    rw [Int.emod_eq_of_lt (by omega) (by omega)]
    exact UInt32.toNat_ofNat_of_lt' (by
      show _ < 2 ^ 32
      omega)
  rw [hn] at er
  generalize hsb : Nat.size (f.xes - 1).toNat = sb at er
  have s1 : (f.xes - 1).toNat < 2 ^ sb := by rw [← hsb]; exact Nat.lt_size_self _
  have s1' : f.xes ≤ (2:Int) ^ sb := by
    have : ((f.xes - 1).toNat : Int) < ((2 ^ sb : Nat) : Int) := by exact_mod_cast s1
    push_cast at this
    omega
  have sb25 : sb ≤ 23 := by
    rw [← hsb, Nat.size_le]
    omega
  have m6 : 0 ≤ rom.MODULUS.w6 ∧ rom.MODULUS.w6 < 2 ^ 35 := by norm_num [rom.MODULUS]
  have hk : (2:Int) ^ sb ≤ 2 ^ 23 := pow_le_pow_right₀ (by norm_num) sb25
  have hk0 : (0:Int) < 2 ^ sb := by positivity
  have hp := p_lt
  have hp0 := p_pos
  obtain ⟨P, eP, nP, vP⟩ := BIG.fshl_wp modulus_nrm (k := sb) (by omega) m6.1 (by nlinarith)
  rw [modulus_val] at vP
  have bP : (p : Int) * 2 ^ sb ≤ p * 2 ^ 23 := mul_le_mul_of_nonneg_left hk hp0.le
  have lP := nP.lim58 (by rw [vP]; positivity) (by omega)
  obtain ⟨x, ex, lx, vx⟩ := BIG.rsub_wp hf.lim lP (by omega)
  dsimp only at er
  rw [eP, Option.bind_eq_bind, Option.bind_some, ex, Option.bind_some, i32_eq (by omega) (by omega), Option.bind_some,
    if_neg (by show ¬ ((2:Int) ^ sb > FEXCESS); rw [FEXCESS]; omega)] at er
  cases er
  refine ⟨s1', ?_, fun j => ⟨fun hj => ?_, fun hj => ?_⟩⟩
  · show x.val + f.x.val = 2 ^ sb * p
    rw [vx, vP]; ring
  · show (2:Int) ^ sb ≤ 2 ^ j
    refine pow_le_pow_right₀ (by norm_num) ?_
    rw [← hsb, Nat.size_le]
    have : ((f.xes - 1).toNat : Int) < ((2 ^ j : Nat) : Int) := by push_cast; omega
    exact_mod_cast this
  · show (2:Int) ^ (j + 1) ≤ 2 ^ sb
    refine pow_le_pow_right₀ (by norm_num) ?_
    have := (pow_lt_pow_iff_right₀ (by norm_num : (1:Int) < 2)).1 (hj.trans_le s1')
    omega

end FP

namespace FP2

theorem add_sat {f b : FP2} {L L' : Int} {v w : Fp2} (hf : Ok f L (2 ^ 23) v) (hb : Ok b L' (2 ^ 23) w)
    (h : 1 ≤ L ∧ 1 ≤ L' ∧ L + L' ≤ 16) : Wp (add f b) fun r => Ok r (L + L') (2 ^ 23) (v + w) :=
  (add_wpV (hf.toV h.1 le_rfl) (hb.toV h.2.1 le_rfl) h).mono fun _ h => h.ok

theorem neg_sat {f : FP2} {L : Int} {v : Fp2} (hf : Ok f L (2 ^ 23) v) (h : 1 ≤ L ∧ 3 * L + 1 ≤ 16) :
    Wp (neg f) fun r => Ok r (3 * L + 1) (2 ^ 23) (-v) := by
  unfold neg
  refine Wp.bind (FP.add_wpV hf.a.v hf.b.v (by omega)) fun m hm => ?_
  refine Wp.bind (FP.neg_exact hm.1.1 (by omega)) fun m' hm' => ?_
  refine Wp.bind (FP.add_wpV hm'.1.v hf.b.v (by omega)) fun t ht => ?_
  refine Wp.bind (FP.add_wpV hm'.1.v hf.a.v (by omega)) fun b hb => ?_
  exact Wp.ret ⟨ht.1.1.cast (by ring) (by ring) (by simp), hb.1.1.cast (by ring) (by ring) (by simp)⟩

theorem dbl_eq (f : FP2) : dbl f = add f f := rfl

/-- The invariant: the two excesses are close together and the values are below `(2^24 + K) p`, or
`(2^23 + K) p` if the excess is at most `2^24`. -/
structure J (f : FP2) (L K : Int) (v : Fp2) : Prop where
  ok : Ok f L (2 ^ 23) v
  da : f.a.xes ≤ f.b.xes + K
  db : f.b.xes ≤ f.a.xes + K
  ea : f.a.xes ≤ 2 ^ 22 + 2 ^ 21 + K
  eb : f.b.xes ≤ 2 ^ 22 + 2 ^ 21 + K
  va : f.a.x.val ≤ 2 ^ 22 * p + K * p
  vb : f.b.x.val ≤ 2 ^ 22 * p + K * p
  va' : f.a.xes ≤ 2 ^ 22 → f.a.x.val ≤ 2 ^ 21 * p + K * p
  vb' : f.b.xes ≤ 2 ^ 22 → f.b.x.val ≤ 2 ^ 21 * p + K * p

theorem J.congr {f : FP2} {L K : Int} {v w : Fp2} (h : J f L K v) (e : v = w) : J f L K w := e ▸ h

theorem J.mono {f : FP2} {L K K' : Int} {v : Fp2} (h : J f L K v) (hK : K ≤ K') : J f L K' v := by
  have hp : K * p ≤ K' * p := mul_le_mul_of_nonneg_right hK p_pos.le
  obtain ⟨ok, da, db, ea, eb, va, vb, va', vb'⟩ := h
  exact ⟨ok, by omega, by omega, by omega, by omega, by omega, by omega, fun h => by have := va' h; omega,
    fun h => by have := vb' h; omega⟩

theorem Ok.toJ {f : FP2} {L K : Int} {v : Fp2} (h : Ok f L K v) (hL : 1 ≤ L ∧ K ≤ 2 ^ 18) : J f L K v := by
  have h1 := h.a.valE
  have h2 := h.b.valE
  have h3 := h.a.xE
  have h4 := h.b.xE
  have h5 := h.a.x1
  have h6 := h.b.x1
  have hp := p_pos
  exact ⟨h.mono (by omega), by omega, by omega, by omega, by omega, by omega, by omega, fun _ => by omega,
    fun _ => by omega⟩

theorem norm_J {f : FP2} {L K : Int} {v : Fp2} (hf : J f L K v) (h : L ≤ 16) : Wp (norm f) fun r => J r 1 K v := by
  obtain ⟨ok, da, db, ea, eb, va, vb, va', vb'⟩ := hf
  unfold norm
  refine Wp.bind (FP.norm_wp ok.a (by omega)) ?_
  rintro x ⟨hx, ex, vx⟩
  refine Wp.bind (FP.norm_wp ok.b (by omega)) ?_
  rintro y ⟨hy, ey, vy⟩
  refine Wp.ret ⟨⟨hx, hy⟩, ?_, ?_, ?_, ?_, ?_, ?_, ?_, ?_⟩ <;> dsimp only <;> simp only [ex, ey, vx, vy] <;> assumption

theorem add_J {f z : FP2} {L L' E K : Int} {v w : Fp2} (hf : Ok f L E v) (hz : J z L' K w)
    (h : 1 ≤ L ∧ 1 ≤ L' ∧ L + L' ≤ 16 ∧ 1 ≤ E ∧ 0 ≤ K ∧ E + K ≤ 2 ^ 18) :
    Wp (add f z) fun r => J r (L + L') (K + E) (v + w) := by
  obtain ⟨ok, da, db, ea, eb, va, vb, va', vb'⟩ := hz
  obtain ⟨h1, h2, h3, h4, h5, h6⟩ := h
  have e1 := hf.a.x1
  have e2 := hf.b.x1
  have e3 := hf.a.xE
  have e4 := hf.b.xE
  have w1 := hf.a.valE
  have w2 := hf.b.valE
  have hm := hf.mono (L' := L) (E' := 2 ^ 23) (by omega)
  unfold add
  refine Wp.bind (FP.add_wpV hm.a.v ok.a.v (by omega)) ?_
  rintro x ⟨hx, cx, lx⟩
  refine Wp.bind (FP.add_wpV hm.b.v ok.b.v (by omega)) ?_
  rintro y ⟨hy, cy, ly⟩
  have cx : x.xes = f.a.xes + z.a.xes ∧ x.x.val = f.a.x.val + z.a.x.val := by omega
  have cy : y.xes = f.b.xes + z.b.xes ∧ y.x.val = f.b.x.val + z.b.x.val := by omega
  refine Wp.ret ⟨⟨hx.1, hy.1⟩, ?_, ?_, ?_, ?_, ?_, ?_, ?_, ?_⟩ <;> dsimp only <;> try rw [add_mul]
  · omega
  · omega
  · omega
  · omega
  · omega
  · omega
  · intro h
    have := va' (by omega)
    omega
  · intro h
    have := vb' (by omega)
    omega

theorem neg_J {f : FP2} {L K : Int} {v : Fp2} (hf : J f L K v)
    (h : 1 ≤ L ∧ 3 * L + 1 ≤ 16 ∧ 0 ≤ K ∧ K ≤ 2 ^ 18) : Wp (neg f) fun r => J r (3 * L + 1) (K + 1) (-v) := by
  obtain ⟨ok, da, db, ea, eb, va, vb, va', vb'⟩ := hf
  obtain ⟨h1, h2, h3, h4⟩ := h
  have a1 := ok.a.x1
  have b1 := ok.b.x1
  have av := ok.a.v0
  have bv := ok.b.v0
  have hp := p_pos
  have kp : 0 ≤ K * p := mul_nonneg h3 hp.le
  unfold neg
  refine Wp.bind (FP.add_wpV ok.a.v ok.b.v (by omega)) ?_
  rintro m ⟨hm, cm, lm⟩
  refine Wp.bind (FP.neg_exact hm.1 (by omega)) ?_
  rintro n ⟨hn, le, nv, hj⟩
  refine Wp.bind (FP.add_wpV hn.v ok.b.v (by omega)) ?_
  rintro x ⟨hx, cx, lx⟩
  refine Wp.bind (FP.add_wpV hn.v ok.a.v (by omega)) ?_
  rintro y ⟨hy, cy, ly⟩
  have j0 := hj 0
  have j23 := hj 21
  have j24 := hj 22
  have n1 := hn.x1
  have n25 := hn.xE
  have q0 : n.xes ≤ 1 → n.xes * p ≤ 1 * p := fun h => mul_le_mul_of_nonneg_right h hp.le
  have q23 : n.xes ≤ 2 ^ 21 → n.xes * p ≤ 2 ^ 21 * p := fun h => mul_le_mul_of_nonneg_right h hp.le
  have q24 : n.xes ≤ 2 ^ 22 → n.xes * p ≤ 2 ^ 22 * p := fun h => mul_le_mul_of_nonneg_right h hp.le
  have mv := hm.1.v0
  have nv0 := hn.v0
  clear hj
  refine Wp.ret ⟨⟨hx.1.cast (by ring) (by ring) (by simp), hy.1.cast (by ring) (by ring) (by simp)⟩, ?_, ?_, ?_, ?_, ?_, ?_, ?_, ?_⟩ <;>
    dsimp only <;> try rw [add_mul]
  · omega
  · omega
  · omega
  · omega
  · omega
  · omega
  · intro h
    omega
  · intro h
    omega

theorem J.toV {f : FP2} {L K : Int} {v : Fp2} (h : J f L K v) : OkV f L (2 ^ 23 + 2 * K) v where
  ok := h.ok
  sum := by
    have := h.va
    have := h.vb
    rw [add_mul, mul_assoc]
    omega

theorem mul_wpW {f y : FP2} {L L' E V : Int} {v w : Fp2} (hf : Ok f L E v) (hy : OkV y L' V w)
    (h : 1 ≤ L ∧ L ≤ 8 ∧ 1 ≤ L' ∧ L' ≤ 8 ∧ 1 ≤ E ∧ E ≤ 2 ^ 23 ∧ V ≤ 2 ^ 23 + 2 ^ 18) :
    Wp (mul f y) fun r => Ok r 1 3 (v * w) := by
  obtain ⟨g, eg, hg, hE⟩ := mulPre_wpV hf hy.ok (by omega)
  have hp := p_lt'
  have hp0 := p_pos
  have hpp : (p : Int) * p ≤ 27 * 2 ^ 378 * p := mul_le_mul_of_nonneg_right hp.le hp0.le
  have hpp0 : (0 : Int) ≤ p * p := by positivity
  have c3 : ((2:Int) ^ 23 + 2 ^ 18) * (p * p) ≤ 2 ^ 406 * p := by omega
  have ga := hg.a.v0
  have gb := hg.b.v0
  have ya := hy.ok.a.v0
  have yb := hy.ok.b.v0
  have a0 := mul_nonneg ga ya
  have b0 := mul_nonneg gb yb
  have d0 := mul_nonneg ga yb
  have d1 := mul_nonneg gb ya
  rcases hE with hE | ⟨h1, h2⟩
  · obtain ⟨c0, c1⟩ := FP.prod_bound (a := g.a.xes + g.b.xes) (b := y.a.xes + y.b.xes)
      (add_nonneg hg.a.v0 hg.b.v0) (add_nonneg hy.ok.a.v0 hy.ok.b.v0)
      (by rw [add_mul]; exact add_le_add hg.a.v1 hg.b.v1) (by rw [add_mul]; exact add_le_add hy.ok.a.v1 hy.ok.b.v1)
    have c2 : (g.a.x.val + g.b.x.val) * (y.a.x.val + y.b.x.val) ≤ 2 ^ 23 * (p * p) :=
      c1.trans (mul_le_mul_of_nonneg_right hE hpp0)
    have hx : (g.a.x.val + g.b.x.val) * (y.a.x.val + y.b.x.val) =
        g.a.x.val * y.a.x.val + g.b.x.val * y.b.x.val +
          (g.a.x.val * y.b.x.val + g.b.x.val * y.a.x.val) := by ring
    exact mul_core eg hg hy.ok (by omega) (by omega) (by omega) (by omega)
  · have g1 := hg.a.v1
    have g2 := hg.b.v1
    rw [h1, one_mul] at g1
    rw [h2, one_mul] at g2
    have hs := hy.sum
    have hs' : (p : Int) * (y.a.x.val + y.b.x.val) ≤ p * ((2 ^ 23 + 2 ^ 18) * p) := by
      refine mul_le_mul_of_nonneg_left (hs.trans ?_) hp0.le
      exact mul_le_mul_of_nonneg_right (by omega) hp0.le
    rw [mul_add] at hs'
    have e1 : g.a.x.val * y.a.x.val ≤ p * y.a.x.val := mul_le_mul_of_nonneg_right g1 ya
    have e2 : g.b.x.val * y.b.x.val ≤ p * y.b.x.val := mul_le_mul_of_nonneg_right g2 yb
    have e3 : g.a.x.val * y.b.x.val ≤ p * y.b.x.val := mul_le_mul_of_nonneg_right g1 yb
    have e4 : g.b.x.val * y.a.x.val ≤ p * y.a.x.val := mul_le_mul_of_nonneg_right g2 ya
    have e5 : 0 ≤ (p : Int) * y.a.x.val := mul_nonneg hp0.le ya
    have e6 : 0 ≤ (p : Int) * y.b.x.val := mul_nonneg hp0.le yb
    have e7 : (p : Int) * ((2 ^ 23 + 2 ^ 18) * p) = (2 ^ 23 + 2 ^ 18) * (p * p) := by ring
    exact mul_core eg hg hy.ok (by omega) (by omega) (by omega) (by omega)

/-- The second factor in `FP4::sqr`. -/
theorem mul_ip_add {a b : FP2} {K : Int} {v w : Fp2} (ha : Ok a 1 K v) (hb : J b 1 K w) (h : 1 ≤ K ∧ K ≤ 2 ^ 16) :
    Wp (mul_ip b) fun m => Ok m 3 (2 ^ 23) (w * (1 + i)) ∧
      Wp (add m a) fun t => OkV t 4 (2 ^ 23 + 2 ^ 18) (w * (1 + i) + v) := by
  obtain ⟨ok, da, db, ea, eb, va, vb, va', vb'⟩ := hb
  obtain ⟨h1, h2⟩ := h
  have a1 := ok.a.x1
  have b1 := ok.b.x1
  have av := ok.a.v0
  have bv := ok.b.v0
  have hp := p_pos
  have kp : K * p ≤ 2 ^ 16 * p := mul_le_mul_of_nonneg_right h2 hp.le
  have aa := ha.a.valE
  have ab := ha.b.valE
  unfold mul_ip
  refine Wp.bind (FP.neg_exact ok.b (by omega)) ?_
  rintro n ⟨hn, le, nv, hj⟩
  show Wp (add ⟨n, b.a⟩ b) _
  unfold add
  dsimp only
  refine Wp.bind (FP.add_wpV hn.v ok.a.v (by omega)) ?_
  rintro x ⟨hx, cx, lx⟩
  refine Wp.bind (FP.add_wpV ok.a.v ok.b.v (by omega)) ?_
  rintro y ⟨hy, cy, ly⟩
  have j23 := hj 21
  have j24 := hj 22
  have n1 := hn.x1
  have n25 := hn.xE
  have q24 : n.xes ≤ 2 ^ 22 → n.xes * p ≤ 2 ^ 22 * p := fun h => mul_le_mul_of_nonneg_right h hp.le
  have nv0 := hn.v0
  have hx' : FP.Ok x 3 (2 ^ 23) (w * (1 + i)).re := hx.1.congr (by rw [re_mul]; simp [i]; ring)
  have hy' : FP.Ok y 3 (2 ^ 23) (w * (1 + i)).im := (hy.1.mono (by omega)).congr (by rw [im_mul]; simp [i])
  have hs : x.x.val + y.x.val ≤ 2 ^ 23 * p + 2 * (K * p) + 2 * p := by
    clear hj
    omega
  refine Wp.ret ⟨⟨hx', hy'⟩, ?_⟩
  dsimp only
  have ha' := ha.mono (L' := 1) (E' := 2 ^ 23) (by omega)
  refine Wp.bind (FP.add_wpV hx'.v ha'.a.v (by omega)) ?_
  rintro x2 ⟨hx2, cx2, lx2⟩
  refine Wp.bind (FP.add_wpV hy'.v ha'.b.v (by omega)) ?_
  rintro y2 ⟨hy2, cy2, ly2⟩
  refine Wp.ret ⟨⟨hx2.1, hy2.1⟩, ?_⟩
  dsimp only
  omega

end FP2

namespace FP4

seal FP2.conj FP2.times_i FP2.inverse FP2.reduce FP2.equals FP2.pmul FP2.mul_ip FP2.mul FP2.neg FP2.add FP2.norm

theorem Ok.sat {f : FP4} {L E : Int} {v : Fp4} (h : Ok f L E v) (hE : 1 ≤ L ∧ E ≤ 2 ^ 23) : Ok f L (2 ^ 23) v :=
  h.mono (by omega)

theorem neg_sat {f : FP4} {v : Fp4} (hf : Ok f 1 (2 ^ 23) v) : Wp (neg f) fun r => Ok r 1 (2 ^ 23) (-v) := by
  unfold neg
  refine Wp.bind (norm_wp hf (by omega)) fun f hf => ?_
  refine Wp.bind (FP2.add_sat hf.a hf.b (by omega)) fun m hm => ?_
  refine Wp.bind (FP2.neg_sat hm (by omega)) fun m' hm' => ?_
  refine Wp.bind (FP2.add_sat hm' hf.b (by omega)) fun t ht => ?_
  refine Wp.bind (FP2.add_sat hm' hf.a (by omega)) fun b hb => ?_
  refine norm_wp (L := 8) ⟨ht.cast (by norm_num) (by ring) ?_, hb.cast (by norm_num) (by ring) ?_⟩ (by omega)
  · rw [re_neg]; ring
  · rw [im_neg]; ring

theorem conj_sat {f : FP4} {v : Fp4} (hf : Ok f 1 (2 ^ 23) v) : Wp (conj f) fun r => Ok r 1 (2 ^ 23) (star v) := by
  unfold conj
  refine Wp.bind (FP2.neg_sat hf.b (by omega)) fun b hb => ?_
  refine norm_wp (L := 4) ⟨(hf.a.mono (by omega)).congr ?_, hb.congr ?_⟩ (by omega)
  · simp
  · simp

theorem add_sat {f b : FP4} {L L' : Int} {v w : Fp4} (hf : Ok f L (2 ^ 23) v) (hb : Ok b L' (2 ^ 23) w)
    (h : 1 ≤ L ∧ 1 ≤ L' ∧ L + L' ≤ 16) : Wp (add f b) fun r => Ok r (L + L') (2 ^ 23) (v + w) := by
  unfold add
  refine Wp.bind (FP2.add_sat hf.a hb.a h) fun x hx => ?_
  refine Wp.bind (FP2.add_sat hf.b hb.b h) fun y hy => ?_
  exact Wp.ret ⟨hx, hy⟩

theorem sub_sat {f b : FP4} {v w : Fp4} (hf : Ok f 1 (2 ^ 23) v) (hb : Ok b 1 (2 ^ 23) w) :
    Wp (sub f b) fun r => Ok r 2 (2 ^ 23) (v - w) := by
  unfold sub
  refine Wp.bind (neg_sat hb) fun n hn => ?_
  rw [sub_eq_add_neg]
  exact add_sat hf hn (by omega)

/-- The invariant of the values of a compressed power. -/
structure J (f : FP4) (K : Int) (v : Fp4) : Prop where
  a : FP2.Ok f.a 1 K v.re
  b : FP2.J f.b 1 K v.im

theorem J.congr {f : FP4} {K : Int} {v w : Fp4} (h : J f K v) (e : v = w) : J f K w := e ▸ h

theorem J.mono {f : FP4} {K K' : Int} {v : Fp4} (h : J f K v) (hK : K ≤ K') : J f K' v :=
  ⟨h.a.mono (by omega), h.b.mono hK⟩

theorem J.ok {f : FP4} {K : Int} {v : Fp4} (h : J f K v) (hK : K ≤ 2 ^ 23) : Ok f 1 (2 ^ 23) v :=
  ⟨h.a.mono (by omega), h.b.ok⟩

theorem Ok.toJ {f : FP4} {K : Int} {v : Fp4} (h : Ok f 1 K v) (hL : K ≤ 2 ^ 18) : J f K v :=
  ⟨h.a, h.b.toJ (by omega)⟩

theorem conj_J {f : FP4} {K : Int} {v : Fp4} (hf : J f K v) (h : 0 ≤ K ∧ K ≤ 2 ^ 18) :
    Wp (conj f) fun r => J r (K + 1) (star v) := by
  unfold conj
  refine Wp.bind (FP2.neg_J hf.b (by omega)) fun b hb => ?_
  unfold norm
  refine Wp.bind (FP2.norm_ok hf.a (by omega)) fun x hx => ?_
  refine Wp.bind (FP2.norm_J hb (by omega)) fun y hy => ?_
  exact Wp.ret ⟨(hx.mono (by omega)).congr (by simp), hy.congr (by simp)⟩

theorem add_J {f z : FP4} {L E K : Int} {v w : Fp4} (hf : Ok f L E v) (hz : J z K w)
    (h : 1 ≤ L ∧ L + 1 ≤ 16 ∧ 1 ≤ E ∧ 1 ≤ K ∧ E + K ≤ 2 ^ 18) :
    Wp (do let r ← add f z; norm r) fun r => J r (K + E) (v + w) := by
  have ha : Wp (add f z) fun r => FP2.Ok r.a (L + 1) (E + K) (v.re + w.re) ∧ FP2.J r.b (L + 1) (K + E) (v.im + w.im) := by
    unfold add
    refine Wp.bind (FP2.add_wp hf.a hz.a (by omega)) fun x hx => ?_
    refine Wp.bind (FP2.add_J hf.b hz.b (by omega)) fun y hy => ?_
    exact Wp.ret ⟨hx, hy⟩
  refine Wp.bind ha ?_
  rintro r ⟨hx, hy⟩
  unfold norm
  refine Wp.bind (FP2.norm_ok hx (by omega)) fun x hx => ?_
  refine Wp.bind (FP2.norm_J hy (by omega)) fun y hy => ?_
  exact Wp.ret ⟨(hx.mono (by omega)).congr (by simp), hy.congr (by simp)⟩

theorem xtr_a_J {x w y z : FP4} {K K' : Int} {vx vw vy vz : Fp4} (hx : J x K vx) (hw : Ok w 1 (2 ^ 23) vw)
    (hy : Ok y 1 (2 ^ 23) vy) (hz : J z K' vz) (h : 1 ≤ K ∧ K ≤ 2 ^ 16 ∧ 1 ≤ K' ∧ K' ≤ 2 ^ 16) :
    Wp (xtr_a x w y z) fun r => J r (K' + 12) (vw * vx - vy * star vx + vz) := by
  unfold xtr_a
  refine Wp.bind (sub_sat hw hy) fun r hr => ?_
  refine Wp.bind (norm_wp hr (by omega)) fun r hr => ?_
  refine Wp.bind (pmul_wp hr hx.a (by omega)) fun r hr => ?_
  refine Wp.bind (add_sat hw hy (by omega)) fun t ht => ?_
  refine Wp.bind (norm_wp ht (by omega)) fun t ht => ?_
  have hpm : Wp (pmul t x.b) fun r => Ok r 1 3 ((vw + vy) * algebraMap Fp2 Fp4 vx.im) := by
    unfold pmul
    refine Wp.bind (FP2.mul_wpW ht.a hx.b.toV (by omega)) fun x hx => ?_
    refine Wp.bind (FP2.mul_wpW ht.b (J.b ‹_›).toV (by omega)) fun y hy => ?_
    exact Wp.ret ⟨hx.congr (by simp), hy.congr (by simp)⟩
  refine Wp.bind hpm fun t ht => ?_
  refine Wp.bind (times_i_wp ht (by omega)) fun t ht => ?_
  refine Wp.bind (add_wp hr ht (by omega)) fun r hr => ?_
  refine (add_J hr hz (by omega)).mono fun r hr => (hr.mono (by omega)).congr ?_
  have e : vx = algebraMap Fp2 Fp4 vx.re + algebraMap Fp2 Fp4 vx.im * V := by
    ext1 <;> simp [V]
  have e' : star vx = algebraMap Fp2 Fp4 vx.re - algebraMap Fp2 Fp4 vx.im * V := by
    ext1 <;> simp [V]
  rw [e']
  linear_combination (-vw) * e

theorem sqr_J {f : FP4} {K : Int} {v : Fp4} (hf : J f K v) (h : 1 ≤ K ∧ K ≤ 2 ^ 16) :
    Wp (sqr f) fun r => Ok r 1 63 (v * v) := by
  have hs := hf.ok (by omega)
  unfold sqr
  refine Wp.bind (FP2.mul_wpW hf.a hf.b.toV (by omega)) fun t3 h3 => ?_
  refine Wp.bind (FP2.add_sat hs.a hs.b (by omega)) fun t1 h1 => ?_
  refine Wp.bind (FP2.mul_ip_add hf.a hf.b (by omega)) ?_
  rintro t2 ⟨-, h2⟩
  refine Wp.bind h2 fun t2 h2 => ?_
  refine Wp.bind (FP2.norm_ok h1 (by omega)) fun t1 h1 => ?_
  refine Wp.bind (FP2.norm_okV h2 (by omega)) fun t2 h2 => ?_
  refine Wp.bind (FP2.mul_wpW h1 h2 (by omega)) fun a ha => ?_
  refine Wp.bind (FP2.mul_ip_wp h3 (by omega)) fun t2 h2 => ?_
  refine Wp.bind (FP2.add_wp h2 h3 (by omega)) fun t2 h2 => ?_
  refine Wp.bind (FP2.norm_ok h2 (by omega)) fun t2 h2 => ?_
  refine Wp.bind (FP2.neg_wp h2 (by omega)) fun t2 h2 => ?_
  refine Wp.bind (FP2.add_wp ha h2 (by omega)) fun a ha => ?_
  refine Wp.bind (FP2.dbl_wp h3 (by omega)) fun b hb => ?_
  refine norm_wp (L := 5) ⟨(ha.mono (by omega)).congr ?_, (hb.mono (by omega)).congr ?_⟩ (by omega)
  · rw [re_mul]; ring
  · rw [im_mul]; ring

theorem dbl_add (f : FP4) : dbl f = add f f := by
  unfold dbl add
  rw [FP2.dbl_eq, FP2.dbl_eq]

theorem xtr_d_J {x : FP4} {K : Int} {v : Fp4} (hx : J x K v) (h : 1 ≤ K ∧ K ≤ 2 ^ 16) :
    Wp (xtr_d x) fun r => Can r (v * v - (star v + star v)) := by
  unfold xtr_d
  refine Wp.bind (sqr_J hx h) fun s hs => ?_
  refine Wp.bind (conj_sat (hx.ok (by omega))) fun w hw => ?_
  rw [dbl_add]
  refine Wp.bind (add_sat hw hw (by omega)) fun w hw => ?_
  refine Wp.bind (norm_wp hw (by omega)) fun w hw => ?_
  refine Wp.bind (sub_sat (hs.sat (by omega)) hw) fun s hs => ?_
  exact reduce_wp hs (by omega)

end FP4
end Amcl.B383
