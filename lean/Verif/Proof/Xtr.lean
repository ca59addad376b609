import Verif.Proof.Sat
import Verif.Proof.Gtpow
import Verif.Spec.Trace
/-!
# The compressed powers compute traces of powers
-/

set_option exponentiation.threshold 6000

namespace Spec

theorem IsTrace.eq {c : Fp4} {z : Fp12} (h : IsTrace c z) :
    ι4 c = z + φ (φ (φ (φ z))) + φ (φ (φ (φ (φ (φ (φ (φ z))))))) := by
  rw [h]
  simp only [φ_eq, ← pow_mul]
  congr 2

theorem IsTrace.of_eq {c : Fp4} {z : Fp12}
    (h : ι4 c = z + φ (φ (φ (φ z))) + φ (φ (φ (φ (φ (φ (φ (φ z)))))))) : IsTrace c z := by
  rw [IsTrace, h]
  simp only [φ_eq, ← pow_mul]
  congr 2

theorem IsTrace.unique {c c' : Fp4} {z : Fp12} (h : IsTrace c z) (h' : IsTrace c' z) : c = c' :=
  (RingHom.injective ι4) (h.trans h'.symm)

/-- The conjugates of an element of the cyclotomic subgroup multiply to 1. -/
theorem Cyc.three {z : Fp12} (h : Cyc z) (h0 : z ≠ 0) :
    z * φ (φ (φ (φ z))) * φ (φ (φ (φ (φ (φ (φ (φ z))))))) = 1 := by
  have h1 : φ (φ (φ (φ (φ (φ z))))) = z⁻¹ := h.conj
  have h2 : φ (φ (φ (φ z))) * z = φ (φ z) := h
  have hn : φ (φ z) ≠ 0 := (map_ne_zero φ).2 ((map_ne_zero φ).2 h0)
  have h3 : φ (φ (φ (φ (φ (φ (φ (φ z))))))) = (φ (φ z))⁻¹ := by
    have := congrArg (fun z => φ (φ z)) h1
    simpa only [map_inv₀] using this
  rw [h3, mul_comm z, h2, mul_inv_cancel₀ hn]

/-- The trace of 1. -/
theorem IsTrace.one : IsTrace 3 1 := by
  rw [IsTrace, one_pow, one_pow, map_ofNat]; norm_num

theorem IsTrace.inv {c : Fp4} {z : Fp12} (h : IsTrace c z) (hz : Cyc z) : IsTrace (star c) z⁻¹ := by
  apply IsTrace.of_eq
  have hc : φ (φ (φ (φ (φ (φ z))))) = z⁻¹ := hz.conj
  have e : φ (φ (ι4 c)) = φ (φ z) + φ (φ (φ (φ (φ (φ z))))) + φ (φ (φ (φ (φ (φ (φ (φ (φ (φ z))))))))) := by
    rw [h.eq]; simp only [map_add]
  rw [φφ_ι4] at e
  rw [e]
  simp only [← hc]
  have h12 : φ (φ (φ (φ (φ (φ (φ (φ (φ (φ (φ (φ z))))))))))) = z := ττ z
  have h14 : φ (φ (φ (φ (φ (φ (φ (φ (φ (φ (φ (φ (φ (φ z))))))))))))) = φ (φ z) := congrArg (fun z => φ (φ z)) h12
  rw [h14]
  ring

/-- The recurrence of the traces. -/
theorem IsTrace.add {x w y z : Fp4} {u v : Fp12} (hx : IsTrace x v) (hw : IsTrace w u) (hy : IsTrace y (u * v⁻¹))
    (hz : IsTrace z (u * (v * v)⁻¹)) (hv : Cyc v) (h0 : v ≠ 0) : IsTrace (w * x - y * star x + z) (u * v) := by
  have h3 := hv.three h0
  have hi := (hx.inv hv).eq
  have hx := hx.eq
  have hw := hw.eq
  have hy := hy.eq
  have hz := hz.eq
  apply IsTrace.of_eq
  simp only [map_add, map_sub, map_mul, map_inv₀] at *
  rw [hx, hw, hy, hz, hi]
  have e1 : φ (φ (φ (φ v))) ≠ 0 := by simpa using h0
  have e2 : φ (φ (φ (φ (φ (φ (φ (φ v))))))) ≠ 0 := by simpa using h0
  generalize φ (φ (φ (φ (φ (φ (φ (φ v))))))) = v2 at *
  generalize φ (φ (φ (φ v))) = v1 at *
  generalize φ (φ (φ (φ (φ (φ (φ (φ u))))))) = u2 at *
  generalize φ (φ (φ (φ u))) = u1 at *
  have i0 : v⁻¹ = v1 * v2 := by
    exact inv_eq_of_mul_eq_one_right (by rw [← h3]; ring)
  have i1 : v1⁻¹ = v * v2 := by
    exact inv_eq_of_mul_eq_one_right (by rw [← h3]; ring)
  have i2 : v2⁻¹ = v * v1 := by
    exact inv_eq_of_mul_eq_one_right (by rw [← h3]; ring)
  simp only [mul_inv, i0, i1, i2]
  linear_combination -(u * v1 + u * v2 + u1 * v + u1 * v2 + u2 * v + u2 * v1) * h3

end Spec

namespace Amcl

open Spec

theorem CycG.v_ne (g : CycG) : CycG.v g ≠ 0 := Units.ne_zero _

namespace FP4

/-- `f` denotes the trace of `g`, with any excess up to the limit. -/
def S (f : FP4) (g : CycG) : Prop := ∃ c, Ok f 1 (2 ^ 25) c ∧ IsTrace c g.v

/-- `f` denotes the trace of `g`, with the invariant `J`. -/
def T (f : FP4) (K : Int) (g : CycG) : Prop := ∃ c, J f K c ∧ IsTrace c g.v

theorem T.s {f : FP4} {K : Int} {g : CycG} (h : T f K g) (hK : K ≤ 2 ^ 25) : S f g := by
  obtain ⟨c, h1, h2⟩ := h
  exact ⟨c, h1.ok hK, h2⟩

theorem T.mono {f : FP4} {K K' : Int} {g : CycG} (h : T f K g) (hK : K ≤ K') : T f K' g := by
  obtain ⟨c, h1, h2⟩ := h
  exact ⟨c, h1.mono hK, h2⟩

theorem T.congr {f : FP4} {K : Int} {g g' : CycG} (h : T f K g) (e : g = g') : T f K g' := e ▸ h

theorem S.congr {f : FP4} {g g' : CycG} (h : S f g) (e : g = g') : S f g' := e ▸ h

theorem S.conj {f : FP4} {g : CycG} (h : S f g) : Wp (conj f) fun r => S r (-g) := by
  obtain ⟨c, h1, h2⟩ := h
  refine (conj_sat h1).mono fun r hr => ⟨_, hr, ?_⟩
  rw [CycG.v_neg]
  exact h2.inv g.v_cyc

theorem T.conj {f : FP4} {K : Int} {g : CycG} (h : T f K g) (hK : 0 ≤ K ∧ K ≤ 2 ^ 20) :
    Wp (conj f) fun r => T r (K + 1) (-g) := by
  obtain ⟨c, h1, h2⟩ := h
  refine (conj_J h1 hK).mono fun r hr => ⟨_, hr, ?_⟩
  rw [CycG.v_neg]
  exact h2.inv g.v_cyc

theorem T.add {x w y z : FP4} {K K' : Int} {u v : CycG} (hx : T x K v) (hw : S w u) (hy : S y (u - v))
    (hz : T z K' (u - v - v)) (h : 1 ≤ K ∧ K ≤ 2 ^ 18 ∧ 1 ≤ K' ∧ K' ≤ 2 ^ 18) :
    Wp (xtr_a x w y z) fun r => T r (K' + 12) (u + v) := by
  obtain ⟨cx, x1, x2⟩ := hx
  obtain ⟨cw, w1, w2⟩ := hw
  obtain ⟨cy, y1, y2⟩ := hy
  obtain ⟨cz, z1, z2⟩ := hz
  refine (xtr_a_J x1 w1 y1 z1 h).mono fun r hr => ⟨_, hr, ?_⟩
  rw [CycG.v_add]
  rw [sub_eq_add_neg, CycG.v_add, CycG.v_neg] at y2
  rw [sub_eq_add_neg, sub_eq_add_neg, CycG.v_add, CycG.v_add, CycG.v_neg, mul_assoc, ← mul_inv] at z2
  exact IsTrace.add x2 w2 y2 z2 v.v_cyc (CycG.v_ne v)

theorem T.dbl {x : FP4} {K : Int} {v : CycG} (hx : T x K v) (h : 1 ≤ K ∧ K ≤ 2 ^ 18) :
    Wp (xtr_d x) fun r => T r 1 (v + v) := by
  obtain ⟨cx, x1, x2⟩ := hx
  refine (xtr_d_J x1 h).mono fun r hr => ⟨_, hr.ok.toJ (by norm_num), ?_⟩
  have e1 : IsTrace 3 (v.v * v.v⁻¹) := by rw [mul_inv_cancel₀ (CycG.v_ne v)]; exact IsTrace.one
  have e2 : IsTrace (star cx) (v.v * (v.v * v.v)⁻¹) := by
    rw [mul_inv, ← mul_assoc, mul_inv_cancel₀ (CycG.v_ne v), one_mul]
    exact x2.inv v.v_cyc
  have := IsTrace.add x2 x2 e1 e2 v.v_cyc (CycG.v_ne v)
  rw [CycG.v_add]
  convert this using 1
  ring

/-- The state of the loop of `xtr_pow` after the digits that make up `k`. -/
structure Pow.At (q : Pow) (g : CycG) (k : Nat) : Prop where
  s : S q.s g
  a : T q.a 2 ((2 * k) • g)
  b : T q.b (2 ^ 18) ((2 * k + 1) • g)
  c : T q.c 1 ((2 * k + 2) • g)

theorem powZero_wp {q : Pow} {g : CycG} {k : Nat} (h : q.At g k) : Wp (powZero q) fun r => r.At g (2 * k) := by
  obtain ⟨hs, ha, hb, hc⟩ := h
  unfold powZero
  refine Wp.bind hs.conj fun s hs => ?_
  refine Wp.bind (hc.conj (by norm_num)) fun c hc => ?_
  refine Wp.bind (hb.add (ha.s (by norm_num)) (hs.congr ?_) (hc.congr ?_) (by norm_num)) fun b hb' => ?_
  · module
  · module
  refine Wp.bind hs.conj fun s hs => ?_
  refine Wp.bind (hb.dbl (by norm_num)) fun c hc => ?_
  refine Wp.bind (ha.dbl (by norm_num)) fun a ha => ?_
  refine Wp.ret ⟨hs.congr ?_, (ha.mono (by norm_num)).congr ?_, (hb'.mono (by norm_num)).congr ?_, hc.congr ?_⟩ <;> module

theorem powOne_wp {q : Pow} {g : CycG} {k : Nat} (h : q.At g k) : Wp (powOne q) fun r => r.At g (2 * k + 1) := by
  obtain ⟨hs, ha, hb, hc⟩ := h
  unfold powOne
  refine Wp.bind (ha.conj (by norm_num)) fun t ht => ?_
  refine Wp.bind (hb.dbl (by norm_num)) fun a ha' => ?_
  refine Wp.bind (hb.add (hc.s (by norm_num)) (hs.congr ?_) (ht.congr ?_) (by norm_num)) fun b hb' => ?_
  · module
  · module
  refine Wp.bind (hc.dbl (by norm_num)) fun c hc => ?_
  refine Wp.ret ⟨hs, (ha'.mono (by norm_num)).congr ?_, (hb'.mono (by norm_num)).congr ?_, hc.congr ?_⟩ <;> module

theorem powStep_wp {q : Pow} {g : CycG} {k : Nat} (h : q.At g k) {d : Int} (hd : d = 0 ∨ d = 1) :
    Wp (powStep q d) fun r => r.At g (2 * k + d.toNat) := by
  rcases hd with rfl | rfl
  · rw [powStep, if_pos (by norm_num)]
    exact powZero_wp h
  · rw [powStep, if_neg (by norm_num)]
    exact powOne_wp h

theorem xtrLoop_wp {v : BIG} {g : CycG} (hv : v.Nrm) (h0 : 0 ≤ v.val) (h1 : v.val < 2 ^ 406) :
    ∀ (i : Nat) (q : Pow), i ≤ 406 → q.At g (v.val.toNat / 2 ^ i) → Wp (xtrLoop v i q) fun r => r.At g v.val.toNat := by
  intro i
  induction i with
  | zero =>
    intro q _ hq
    refine Wp.pure ?_
    simpa using hq
  | succ i ih =>
    intro q hi hq
    unfold xtrLoop
    rw [BIG.bit_wp hv h0 h1 (by omega), Option.bind_eq_bind, Option.bind_some]
    refine Wp.bind (powStep_wp hq (d := v.val / 2 ^ i % 2) (by omega)) fun r hr => ih r (by omega) ?_
    have e : (v.val / 2 ^ i % 2).toNat = v.val.toNat / 2 ^ i % 2 := by
      obtain ⟨n, hn⟩ := Int.eq_ofNat_of_zero_le h0
      rw [hn]
      norm_cast
    rw [e, pow_succ, ← Nat.div_div_eq_div_mul, Nat.div_add_mod] at hr
    exact hr

theorem At_start {x c a : FP4} {g : CycG} (hx : T x (2 ^ 18) g) (hc : T c 1 (g + g)) (ha : Ok a 1 2 ((3 : Int) : Fp4)) :
    Pow.At ⟨x, a, x, c⟩ g 0 := by
  refine ⟨hx.s (by norm_num), ⟨_, ha.toJ (by norm_num), ?_⟩, hx.congr (by module), hc.congr (by module)⟩
  rw [mul_zero, zero_smul, CycG.v_zero]
  exact_mod_cast IsTrace.one

theorem halfDown_wp {par : Int} {v : BIG} (hv : v.Nrm) (h0 : 0 ≤ v.val) (h1 : v.val < 2 ^ 406) :
    Wp (halfDown par v) fun r => r.Nrm ∧ r.val = if par = 0 then v.val - 1 else v.val := by
  unfold halfDown
  split
  · unfold BIG.dec
    refine Wp.bind (Wp.bind (BIG.norm_wp (hv.lim58 h0 h1 |>.mono (by norm_num))) ?_ : Wp _ fun r => r.Lim (2 ^ 62) ∧ r.val = v.val - 1) ?_
    · rintro s ⟨ns, vs⟩
      have hs := ns.lim58 (by omega) (by omega)
      have := hs.l0
      refine Wp.bind (Wp.of_eq (sub64_eq (by omega) (by omega)) rfl) ?_
      rintro _ rfl
      refine Wp.ret ⟨?_, ?_⟩
      · obtain ⟨l0, l1, l2, l3, l4, l5, l6⟩ := hs
        constructor <;> dsimp only <;> omega
      · rw [← vs]; simp only [BIG.val]; ring
    · rintro s ⟨ls, vs⟩
      rw [← vs]
      exact BIG.norm_wp ls
  · exact Wp.pure ⟨hv, rfl⟩

/-- `xtr_pow` maps the trace of `g` to the trace of its `n`-th power. -/
theorem xtr_pow_wp {x : FP4} {n : BIG} {g : CycG} (hx : T x (2 ^ 18) g) (hn : n.Lim (2 ^ 62)) (h0 : 1 ≤ n.val)
    (h1 : n.val < 2 ^ 406) :
    Wp (xtr_pow x n) fun r => ∃ c, Can r c ∧ IsTrace c (n.val.toNat • g).v := by
  unfold xtr_pow
  refine Wp.bind (new_int_wp (by norm_num) (by norm_num)) fun a ha => ?_
  refine Wp.bind (hx.dbl (by norm_num)) fun c hc => ?_
  refine Wp.bind (BIG.norm_wp hn) ?_
  rintro m ⟨nm, vm⟩
  dsimp only
  rw [BIG.parity_spec nm, vm]
  refine Wp.bind (BIG.fshr_wp nm (by norm_num)) ?_
  rintro v ⟨nv, vv⟩
  rw [vm, pow_one] at vv
  have hat := At_start hx hc ha
  have hh := halfDown_wp (par := n.val % 2) nv (by omega) (by omega)
  refine Wp.bind hh ?_
  rintro w ⟨nw, vw⟩
  rw [vv] at vw
  have w0 : 0 ≤ w.val := by rw [vw]; split <;> omega
  have w1 : w.val < 2 ^ 406 := by rw [vw]; split <;> omega
  refine Wp.bind (BIG.nbits_wp (nw.lim58 (by omega) (by omega) |>.mono (by norm_num)) w0) ?_
  intro nb hb
  have hsz : nb ≤ 406 := by rw [hb, Nat.size_le]; omega
  refine Wp.bind (xtrLoop_wp (g := g) nw w0 w1 nb _ hsz ?_) fun q hq => ?_
  · rw [Nat.div_eq_of_lt (by rw [hb]; exact Nat.lt_size_self _)]
    exact hat
  obtain ⟨-, -, ⟨cb, b1, b2⟩, ⟨cc, c1, c2⟩⟩ := hq
  split
  · next he =>
    rw [if_pos he] at vw
    refine (reduce_wp (c1.ok (by norm_num)) (by norm_num)).mono fun r hr => ⟨_, hr, ?_⟩
    rwa [show 2 * w.val.toNat + 2 = n.val.toNat by omega] at c2
  · next he =>
    rw [if_neg he] at vw
    refine (reduce_wp (b1.ok (by norm_num)) (by norm_num)).mono fun r hr => ⟨_, hr, ?_⟩
    rwa [show 2 * w.val.toNat + 1 = n.val.toNat by omega] at b2

/-! ### Powers by two exponents -/

theorem pow2Even_wp : ∀ (n : Nat) (d e : BIG) (f : Nat), d.Nrm → e.Nrm → 0 ≤ d.val → d.val < 2 ^ 406 → 0 ≤ e.val →
    e.val < 2 ^ 406 → 1 ≤ d.val + e.val → d.val + e.val ≤ 2 ^ n →
    Wp (pow2Even d e f) fun r => r.1.Nrm ∧ r.2.1.Nrm ∧ ∃ k : Nat, r.2.2 = f + k ∧ d.val = 2 ^ k * r.1.val ∧
      e.val = 2 ^ k * r.2.1.val := by
  intro n
  induction n with
  | zero =>
    intro d e f hd he d0 d1 e0 e1 hp hle
    rw [pow2Even, BIG.parity_spec hd, BIG.parity_spec he, if_neg (by rw [pow_zero] at hle; omega)]
    exact Wp.ret ⟨hd, he, 0, rfl, by simp, by simp⟩
  | succ n ih =>
    intro d e f hd he d0 d1 e0 e1 hp hle
    rw [pow2Even, BIG.parity_spec hd, BIG.parity_spec he]
    split
    · next hc =>
      refine Wp.bind (BIG.fshr_wp hd (by norm_num)) ?_
      rintro d' ⟨nd, vd⟩
      refine Wp.bind (BIG.fshr_wp he (by norm_num)) ?_
      rintro e' ⟨ne, ve⟩
      rw [pow_one] at vd ve
      rw [pow_succ] at hle
      refine (ih d' e' (f + 1) nd ne (by omega) (by omega) (by omega) (by omega) (by omega) (by omega)).mono ?_
      rintro r ⟨r1, r2, k, r3, r4, r5⟩
      refine ⟨r1, r2, k + 1, by omega, ?_, ?_⟩
      · rw [pow_succ, mul_comm _ 2, mul_assoc, ← r4]; omega
      · rw [pow_succ, mul_comm _ 2, mul_assoc, ← r5]; omega
    · exact Wp.ret ⟨hd, he, 0, rfl, by simp, by simp⟩

/-- The state of the main loop: the answer is to be the trace of `g`. -/
structure Pow2.At (q : Pow2) (g : CycG) (n : Nat) (K : Int) : Prop where
  d : q.d.Nrm
  e : q.e.Nrm
  d0 : 1 ≤ q.d.val
  e0 : 1 ≤ q.e.val
  d1 : q.d.val < 2 ^ 403
  e1 : q.e.val < 2 ^ 403
  meas : q.d.val * q.e.val * 3 ^ n ≤ 4 ^ n
  K0 : 1 ≤ K
  K1 : K ≤ 2 ^ 18
  tr : ∃ u v : CycG, T q.cu K u ∧ T q.cv K v ∧ T q.cumv K (u - v) ∧ T q.cum2v K (u - v - v) ∧
    q.d.val • u + q.e.val • v = g

theorem meas_step {n : Nat} {x y : Int} (h : x * 3 ^ (n + 1) ≤ 4 ^ (n + 1)) (hxy : 4 * y ≤ 3 * x) :
    y * 3 ^ n ≤ 4 ^ n := by
  have : (0:Int) < 3 ^ n := by positivity
  rw [pow_succ, pow_succ] at h
  nlinarith

theorem pow2A1_wp {q : Pow2} {g : CycG} {n : Nat} {K : Int} (h : q.At g (n + 1) K) (h1 : q.e.val < q.d.val)
    (h2 : q.d.val ≤ 4 * q.e.val) (hK : K + 12 ≤ 2 ^ 18) : Wp (pow2A1 q) fun r => r.At g n (K + 12) := by
  obtain ⟨hd, he, d0, e0, d1, e1, hm, k0, k1, u, v, hu, hv, hw, hz, hg⟩ := h
  unfold pow2A1
  refine Wp.bind (BIG.rsub_wp (he.lim58 (by omega) (by omega)) (hd.lim58 (by omega) (by omega)) (by norm_num)) ?_
  rintro e ⟨le, ve⟩
  refine Wp.bind (BIG.norm_wp (le.mono (by norm_num))) ?_
  rintro e' ⟨ne, ve'⟩
  refine Wp.bind (hv.add (hu.s (by omega)) (hw.s (by omega)) hz (by omega)) fun t ht => ?_
  refine Wp.bind (hw.conj (by omega)) fun c hc => ?_
  refine Wp.ret ⟨he, ne, e0, ?_, e1, ?_, ?_, by omega, hK, u + v, u, ht, hu.mono (by omega), ?_, ?_, ?_⟩
  · show 1 ≤ e'.val
    omega
  · show e'.val < 2 ^ 403
    omega
  · refine meas_step hm ?_
    show 4 * (q.e.val * e'.val) ≤ _
    rw [ve', ve]
    nlinarith
  · exact (hv.mono (by omega)).congr (by abel)
  · exact (hc.mono (by omega)).congr (by abel)
  · show q.e.val • (u + v) + e'.val • u = g
    rw [← hg, ve', ve]
    module

theorem pow2B1_wp {q : Pow2} {g : CycG} {n : Nat} {K : Int} (h : q.At g (n + 1) K) (h1 : q.d.val < q.e.val)
    (h2 : q.e.val ≤ 4 * q.d.val) (hK : K + 12 ≤ 2 ^ 18) : Wp (pow2B1 q) fun r => r.At g n (K + 12) := by
  obtain ⟨hd, he, d0, e0, d1, e1, hm, k0, k1, u, v, hu, hv, hw, hz, hg⟩ := h
  unfold pow2B1
  refine Wp.bind (BIG.sub_wp (he.lim58 (by omega) (by omega)) (hd.lim58 (by omega) (by omega)) (by norm_num)) ?_
  rintro e ⟨le, ve⟩
  refine Wp.bind (BIG.norm_wp (le.mono (by norm_num))) ?_
  rintro e' ⟨ne, ve'⟩
  refine Wp.bind (hv.add (hu.s (by omega)) (hw.s (by omega)) hz (by omega)) fun t ht => ?_
  refine Wp.ret ⟨hd, ne, d0, ?_, d1, ?_, ?_, by omega, hK, u + v, v, ht, hv.mono (by omega), ?_, ?_, ?_⟩
  · show 1 ≤ e'.val
    omega
  · show e'.val < 2 ^ 403
    omega
  · refine meas_step hm ?_
    show 4 * (q.d.val * e'.val) ≤ _
    rw [ve', ve]
    nlinarith
  · exact (hu.mono (by omega)).congr (by abel)
  · exact (hw.mono (by omega)).congr (by abel)
  · show q.d.val • (u + v) + e'.val • v = g
    rw [← hg, ve', ve]
    module

theorem pow2A2_wp {q : Pow2} {g : CycG} {n : Nat} {K : Int} (h : q.At g (n + 1) K) (h1 : q.d.val % 2 = 0)
    (hK : K + 13 ≤ 2 ^ 18) : Wp (pow2A2 q) fun r => r.At g n (K + 13) := by
  obtain ⟨hd, he, d0, e0, d1, e1, hm, k0, k1, u, v, hu, hv, hw, hz, hg⟩ := h
  unfold pow2A2
  refine Wp.bind (BIG.fshr_wp hd (by norm_num)) ?_
  rintro d ⟨nd, vd⟩
  rw [pow_one] at vd
  have e2 : q.d.val = 2 * d.val := by omega
  refine Wp.bind (hz.conj (by omega)) fun r hr => ?_
  refine Wp.bind (hw.add (hu.s (by omega)) ((hv.s (by omega)).congr (by abel)) (hr.congr (by abel)) (by omega)) fun t ht => ?_
  refine Wp.bind (hw.dbl (by omega)) fun c hc => ?_
  refine Wp.bind (hu.dbl (by omega)) fun b hb => ?_
  refine Wp.ret ⟨nd, he, ?_, e0, ?_, e1, ?_, by omega, hK, u + u, v, hb.mono (by omega), hv.mono (by omega), ?_, ?_, ?_⟩
  · show 1 ≤ d.val
    omega
  · show d.val < 2 ^ 403
    omega
  · refine meas_step hm ?_
    show 4 * (d.val * q.e.val) ≤ _
    rw [e2]
    nlinarith
  · exact (ht.mono (by omega)).congr (by abel)
  · exact (hc.mono (by omega)).congr (by abel)
  · show d.val • (u + u) + q.e.val • v = g
    rw [← hg, e2]
    module

theorem pow2A3_wp {q : Pow2} {g : CycG} {n : Nat} {K : Int} (h : q.At g (n + 1) K) (h1 : q.d.val % 2 = 1)
    (h2 : q.e.val % 2 = 1) (h3 : q.e.val < q.d.val)
    (hK : K + 13 ≤ 2 ^ 18) : Wp (pow2A3 q) fun r => r.At g n (K + 13) := by
  obtain ⟨hd, he, d0, e0, d1, e1, hm, k0, k1, u, v, hu, hv, hw, hz, hg⟩ := h
  unfold pow2A3
  refine Wp.bind (BIG.sub_wp (hd.lim58 (by omega) (by omega)) (he.lim58 (by omega) (by omega)) (by norm_num)) ?_
  rintro d ⟨ld, vd⟩
  refine Wp.bind (BIG.norm_wp (ld.mono (by norm_num))) ?_
  rintro d' ⟨nd', vd'⟩
  refine Wp.bind (BIG.fshr_wp nd' (by norm_num)) ?_
  rintro d'' ⟨nd, vd''⟩
  rw [pow_one] at vd''
  have e2 : q.d.val = 2 * d''.val + q.e.val := by omega
  refine Wp.bind (hv.add (hu.s (by omega)) (hw.s (by omega)) hz (by omega)) fun t ht => ?_
  refine Wp.bind (hu.dbl (by omega)) fun b hb => ?_
  refine Wp.bind (hv.dbl (by omega)) fun c hc => ?_
  refine Wp.bind (hc.conj (by omega)) fun c' hc' => ?_
  refine Wp.ret ⟨nd, he, ?_, e0, ?_, e1, ?_, by omega, hK, u + u, u + v, hb.mono (by omega), ht.mono (by omega), ?_, ?_, ?_⟩
  · show 1 ≤ d''.val
    omega
  · show d''.val < 2 ^ 403
    omega
  · refine meas_step hm ?_
    show 4 * (d''.val * q.e.val) ≤ _
    rw [e2]
    nlinarith
  · exact (hw.mono (by omega)).congr (by abel)
  · exact (hc'.mono (by omega)).congr (by abel)
  · show d''.val • (u + u) + q.e.val • (u + v) = g
    rw [← hg, e2]
    module

theorem pow2B3_wp {q : Pow2} {g : CycG} {n : Nat} {K : Int} (h : q.At g (n + 1) K) (h1 : q.d.val % 2 = 1)
    (h2 : q.e.val % 2 = 1) (h3 : q.d.val < q.e.val)
    (hK : K + 13 ≤ 2 ^ 18) : Wp (pow2B3 q) fun r => r.At g n (K + 13) := by
  obtain ⟨hd, he, d0, e0, d1, e1, hm, k0, k1, u, v, hu, hv, hw, hz, hg⟩ := h
  unfold pow2B3
  refine Wp.bind (BIG.sub_wp (he.lim58 (by omega) (by omega)) (hd.lim58 (by omega) (by omega)) (by norm_num)) ?_
  rintro d ⟨ld, vd⟩
  refine Wp.bind (BIG.norm_wp (ld.mono (by norm_num))) ?_
  rintro d' ⟨nd', vd'⟩
  refine Wp.bind (BIG.fshr_wp nd' (by norm_num)) ?_
  rintro d'' ⟨nd, vd''⟩
  rw [pow_one] at vd''
  have e2 : q.e.val = 2 * d''.val + q.d.val := by omega
  refine Wp.bind (hv.add (hu.s (by omega)) (hw.s (by omega)) hz (by omega)) fun t ht => ?_
  refine Wp.bind (hw.conj (by omega)) fun w hw => ?_
  refine Wp.bind (hu.dbl (by omega)) fun c hc => ?_
  refine Wp.bind (hc.conj (by omega)) fun c' hc' => ?_
  refine Wp.bind (hv.dbl (by omega)) fun b hb => ?_
  refine Wp.ret ⟨nd, hd, ?_, d0, ?_, d1, ?_, by omega, hK, v + v, u + v, hb.mono (by omega), ht.mono (by omega), ?_, ?_, ?_⟩
  · show 1 ≤ d''.val
    omega
  · show d''.val < 2 ^ 403
    omega
  · refine meas_step hm ?_
    show 4 * (d''.val * q.d.val) ≤ _
    rw [e2]
    nlinarith
  · exact (hw.mono (by omega)).congr (by abel)
  · exact (hc'.mono (by omega)).congr (by abel)
  · show d''.val • (v + v) + q.d.val • (u + v) = g
    rw [← hg, e2]
    module

theorem swap2_wp {q : Pow2} {g : CycG} {n : Nat} {K : Int} (h : q.At g (n + 1) K) (h1 : q.e.val % 2 = 0)
    (hK : K + 13 ≤ 2 ^ 18) : Wp (swap2 q q.e q.d) fun r => r.At g n (K + 13) := by
  obtain ⟨hd, he, d0, e0, d1, e1, hm, k0, k1, u, v, hu, hv, hw, hz, hg⟩ := h
  unfold swap2
  refine Wp.bind (BIG.fshr_wp he (by norm_num)) ?_
  rintro d ⟨nd, vd⟩
  rw [pow_one] at vd
  have e2 : q.e.val = 2 * d.val := by omega
  refine Wp.bind (hw.dbl (by omega)) fun t ht => ?_
  refine Wp.bind (hz.conj (by omega)) fun c hc => ?_
  refine Wp.bind (ht.conj (by omega)) fun c' hc' => ?_
  refine Wp.bind (hv.dbl (by omega)) fun b hb => ?_
  refine Wp.ret ⟨nd, hd, ?_, d0, ?_, d1, ?_, by omega, hK, v + v, u, hb.mono (by omega), hu.mono (by omega), ?_, ?_, ?_⟩
  · show 1 ≤ d.val
    omega
  · show d.val < 2 ^ 403
    omega
  · refine meas_step hm ?_
    show 4 * (d.val * q.d.val) ≤ _
    rw [e2]
    nlinarith
  · exact (hc.mono (by omega)).congr (by abel)
  · exact (hc'.mono (by omega)).congr (by abel)
  · show d.val • (v + v) + q.d.val • u = g
    rw [← hg, e2]
    module

theorem quad_wp {e : BIG} (he : e.Nrm) (h0 : 1 ≤ e.val) (h1 : e.val < 2 ^ 403) :
    Wp (do let w ← e.imul 4; w.norm) fun w => w.Nrm ∧ w.val = 4 * e.val := by
  refine Wp.bind (BIG.imul_wp (C := 4) (he.lim58 (by omega) (by omega)) ⟨by norm_num, by norm_num⟩ (by norm_num)) ?_
  rintro w ⟨lw, vw⟩
  rw [mul_comm 4, ← vw]
  exact BIG.norm_wp (lw.mono (by norm_num))

theorem Pow2.At.up {q : Pow2} {g : CycG} {n : Nat} {K K' : Int} (h : q.At g n K) (hK : K ≤ K' ∧ K' ≤ 2 ^ 18) :
    q.At g (n + 1) K' := by
  obtain ⟨hd, he, d0, e0, d1, e1, hm, k0, k1, u, v, hu, hv, hw, hz, hg⟩ := h
  refine ⟨hd, he, d0, e0, d1, e1, ?_, by omega, hK.2, u, v, hu.mono hK.1, hv.mono hK.1, hw.mono hK.1, hz.mono hK.1, hg⟩
  rw [pow_succ, pow_succ, ← mul_assoc]
  have : (0:Int) < 4 ^ n := by positivity
  nlinarith

theorem Pow2.At.mono {q : Pow2} {g : CycG} {n : Nat} {K K' : Int} (h : q.At g n K) (hK : K ≤ K' ∧ K' ≤ 2 ^ 18) :
    q.At g n K' := by
  obtain ⟨hd, he, d0, e0, d1, e1, hm, k0, k1, u, v, hu, hv, hw, hz, hg⟩ := h
  exact ⟨hd, he, d0, e0, d1, e1, hm, by omega, hK.2, u, v, hu.mono hK.1, hv.mono hK.1, hw.mono hK.1, hz.mono hK.1, hg⟩

theorem pow2Gt_wp {q : Pow2} {g : CycG} {n : Nat} {K : Int} (h : q.At g (n + 1) K) (h1 : q.e.val < q.d.val)
    (hK : K + 13 ≤ 2 ^ 18) : Wp (pow2Gt q) fun r => r.At g n (K + 13) := by
  obtain ⟨w', ew, hw⟩ := quad_wp h.e h.e0 h.e1
  unfold pow2Gt
  have : (do let w ← q.e.imul 4; let w ← w.norm; if BIG.comp q.d w ≤ 0 then pow2A1 q else pow2Far q) =
      (do let w ← (do let w ← q.e.imul 4; w.norm); if BIG.comp q.d w ≤ 0 then pow2A1 q else pow2Far q) := by
    simp only [bind_assoc]
  rw [this, ew, Option.bind_eq_bind, Option.bind_some]
  have hc := BIG.comp_pos h.d hw.1
  split
  · next hle =>
    refine (pow2A1_wp h h1 ?_ (by omega)).mono fun r hr => hr.mono (by omega)
    rw [← hw.2]
    omega
  · unfold pow2Far
    rw [BIG.parity_spec h.d, BIG.parity_spec h.e]
    split
    · next hp => exact pow2A2_wp h hp hK
    · next hp =>
      split
      · next hp' => exact pow2A3_wp h (by omega) hp' h1 hK
      · next hp' => exact swap2_wp h (by omega) hK

theorem pow2Lt_wp {q : Pow2} {g : CycG} {n : Nat} {K : Int} (h : q.At g (n + 1) K) (h1 : q.d.val < q.e.val)
    (hK : K + 13 ≤ 2 ^ 18) : Wp (pow2Lt q) fun r => r.At g n (K + 13) := by
  obtain ⟨w', ew, hw⟩ := quad_wp h.d h.d0 h.d1
  unfold pow2Lt
  have : (do let w ← q.d.imul 4; let w ← w.norm; if BIG.comp q.e w ≤ 0 then pow2B1 q else pow2Far' q) =
      (do let w ← (do let w ← q.d.imul 4; w.norm); if BIG.comp q.e w ≤ 0 then pow2B1 q else pow2Far' q) := by
    simp only [bind_assoc]
  rw [this, ew, Option.bind_eq_bind, Option.bind_some]
  have hc := BIG.comp_pos h.e hw.1
  split
  · next hle =>
    refine (pow2B1_wp h h1 ?_ (by omega)).mono fun r hr => hr.mono (by omega)
    rw [← hw.2]
    omega
  · unfold pow2Far'
    rw [BIG.parity_spec h.d, BIG.parity_spec h.e]
    split
    · next hp => exact swap2_wp h hp hK
    · next hp =>
      split
      · next hp' => exact pow2B3_wp h hp' (by omega) h1 hK
      · next hp' => exact pow2A2_wp h (by omega) hK

theorem pow2Loop_wp {g : CycG} : ∀ (n : Nat) (q : Pow2) (K : Int), q.At g n K → K + 26 * n ≤ 2 ^ 17 →
    Wp (pow2Loop q) fun r => (∃ m, r.At g m (2 ^ 17)) ∧ r.d.val = r.e.val := by
  intro n
  induction n with
  | zero =>
    intro q K h hK
    have h1 := h.meas
    rw [pow_zero, pow_zero, mul_one] at h1
    have : q.d.val = 1 ∧ q.e.val = 1 := by
      have := h.d0
      have := h.e0
      constructor <;> nlinarith
    rw [pow2Loop, if_neg (by rw [not_not, BIG.comp_eq_zero h.d h.e]; omega)]
    exact Wp.ret ⟨⟨_, h.mono (by omega)⟩, by omega⟩
  | succ n ih =>
    intro q K h hK
    rw [pow2Loop]
    split
    · next hc =>
      rw [Ne, BIG.comp_eq_zero h.d h.e] at hc
      have hgt : Wp (pow2IfGt q) fun r => (q.e.val < q.d.val ∧ r.At g n (K + 13)) ∨ (q.d.val < q.e.val ∧ r = q) := by
        unfold pow2IfGt
        split
        · next h1 =>
          rw [BIG.comp_pos h.d h.e] at h1
          exact (pow2Gt_wp h h1 (by omega)).mono fun r hr => .inl ⟨h1, hr⟩
        · next h1 =>
          rw [BIG.comp_pos h.d h.e] at h1
          exact Wp.pure (.inr ⟨by omega, rfl⟩)
      refine Wp.bind hgt fun r hr => ?_
      have hlt : Wp (pow2IfLt r) fun s => s.At g n (K + 26) := by
        unfold pow2IfLt
        rcases hr with ⟨-, hr⟩ | ⟨h1, rfl⟩
        · split
          · next h2 =>
            rw [BIG.comp_lt hr.d hr.e] at h2
            exact (pow2Lt_wp (hr.up (K' := K + 13) (by omega)) h2 (by omega)).mono fun s hs => hs.mono (by omega)
          · exact Wp.pure (hr.mono (by omega))
        · rw [if_pos ((BIG.comp_lt h.d h.e).2 h1)]
          exact (pow2Lt_wp h h1 (by omega)).mono fun s hs => hs.mono (by omega)
      refine Wp.bind hlt fun s hs => ih s (K + 26) hs (by push_cast at hK; omega)
    · next hc =>
      rw [Ne, not_not, BIG.comp_eq_zero h.d h.e] at hc
      exact Wp.ret ⟨⟨_, h.mono (by omega)⟩, hc⟩

theorem xtrDs_wp : ∀ (n : Nat) {x : FP4} {v : CycG}, T x (2 ^ 18) v → Wp (xtrDs n x) fun r => T r (2 ^ 18) (2 ^ n • v)
  | 0, x, v, h => Wp.pure (h.congr (by simp))
  | n + 1, x, v, h => by
    unfold xtrDs
    refine Wp.bind (h.dbl (by norm_num)) fun y hy => ?_
    refine (xtrDs_wp n (hy.mono (by norm_num))).mono fun r hr => hr.congr ?_
    rw [pow_succ, mul_smul, two_smul]

/-- `xtr_pow2` maps the traces of `k`, `l`, `k - l` and `k - 2 l` to the trace of `a l + b k`. -/
theorem xtr_pow2_wp {x ck ckml ckm2l : FP4} {a b : BIG} {K : Int} {k l : CycG} (hx : T x K l) (hk : T ck K k)
    (hm : T ckml K (k - l)) (hm2 : T ckm2l K (k - l - l)) (hK : 1 ≤ K ∧ K ≤ 2 ^ 16) (ha : a.Lim (2 ^ 62)) (a0 : 1 ≤ a.val)
    (a1 : a.val < 2 ^ 403) (hb : b.Lim (2 ^ 62)) (b0 : 1 ≤ b.val) (b1 : b.val < 2 ^ 403) :
    Wp (xtr_pow2 x ck ckml ckm2l a b) fun r => ∃ c, Can r c ∧ IsTrace c (a.val • l + b.val • k).v := by
  unfold xtr_pow2
  refine Wp.bind (BIG.norm_wp ha) ?_
  rintro e ⟨ne, ve⟩
  refine Wp.bind (BIG.norm_wp hb) ?_
  rintro d ⟨nd, vd⟩
  refine Wp.bind (pow2Even_wp 404 d e 0 nd ne (by omega) (by omega) (by omega) (by omega) (by omega) (by omega)) ?_
  rintro ⟨d', e', f2⟩ ⟨nd', ne', n, hf, hd, he⟩
  dsimp only at *
  rw [zero_add] at hf
  subst hf
  have p0 : (1:Int) ≤ 2 ^ f2 := one_le_pow₀ (by norm_num)
  have d0 : 1 ≤ d'.val := by nlinarith
  have e0 : 1 ≤ e'.val := by nlinarith
  have d1 : d'.val < 2 ^ 403 := by nlinarith
  have e1 : e'.val < 2 ^ 403 := by nlinarith
  have hmeas : d'.val * e'.val * 3 ^ 1960 ≤ 4 ^ 1960 := by
    have h1 : d'.val * e'.val ≤ 2 ^ 403 * 2 ^ 403 := mul_le_mul d1.le e1.le (by omega) (by positivity)
    have h2 : (2:Int) ^ 403 * 2 ^ 403 * 3 ^ 1960 ≤ 4 ^ 1960 := by decide +kernel
    exact le_trans (mul_le_mul_of_nonneg_right h1 (by positivity)) h2
  refine Wp.bind (pow2Loop_wp (g := d'.val • k + e'.val • l) 1960 ⟨d', e', ck, x, ckml, ckm2l⟩ K
    ⟨nd', ne', d0, e0, d1, e1, hmeas, by omega, by omega, k, l, hk, hx, hm, hm2, rfl⟩ (by omega)) ?_
  rintro q ⟨⟨m, hd, he, d0, e0, d1, e1, -, k0, k1, u, v, hu, hv, hw, hz, hg⟩, heq⟩
  refine Wp.bind (hv.add (hu.s (by omega)) (hw.s (by omega)) hz (by omega)) fun t ht => ?_
  refine Wp.bind (xtrDs_wp f2 (ht.mono (by norm_num))) fun w hw => ?_
  refine (xtr_pow_wp hw (hd.lim58 (by omega) (by omega) |>.mono (by norm_num)) d0 (by omega)).mono ?_
  rintro r ⟨c, hc, ht⟩
  refine ⟨c, hc, ?_⟩
  convert ht using 2
  have e1 : a.val • l + b.val • k = (2 ^ f2 : Int) • (d'.val • k + e'.val • l) := by
    rw [← ve, ← vd, ‹e.val = _›, ‹d.val = _›]
    module
  rw [e1, ← hg, ← heq, ← natCast_zsmul, Int.toNat_of_nonneg (by omega), ← natCast_zsmul]
  push_cast
  module

theorem imul_wp {f : FP4} {L E c : Int} {v : Fp4} (hf : Ok f L E v)
    (h : 1 ≤ L ∧ L ≤ 16 ∧ 0 < c ∧ c < 2 ^ 20 ∧ E * c ≤ 2 ^ 25) :
    Wp (imul f c) fun r => Ok r 1 (E * c) (v * (c : Fp4)) := by
  unfold imul
  refine Wp.bind (FP2.imul_wp hf.a h) fun x hx => ?_
  refine Wp.bind (FP2.imul_wp hf.b h) fun y hy => ?_
  exact Wp.ret ⟨hx.congr (by simp), hy.congr (by simp)⟩

end FP4

namespace FP12

/-- `trace` computes the trace. -/
theorem trace_wp {f : FP12} {E : Int} {z : Fp12} (hf : Ok f 1 E z) (hE : 1 ≤ E ∧ E ≤ 2 ^ 20) :
    Wp (trace f) fun r => ∃ c, FP4.Can r c ∧ IsTrace c z := by
  obtain ⟨a, b, c, ha, hb, hc, rfl⟩ := hf
  unfold trace
  refine Wp.bind (FP4.imul_wp ha (by omega)) fun t ht => ?_
  refine (FP4.reduce_wp ht (by omega)).mono fun r hr => ⟨_, hr, IsTrace.of_eq ?_⟩
  have h1 : ι1 ζ ^ 2 = ι1 ζ - 1 := by rw [← map_pow, ζ_sq, map_sub, map_one]
  simp only [map_add, map_mul, map_pow, φφ_ι4, φφ_W, φ_ι1, star_star]
  generalize ι1 ζ = y at *
  have : ι4 ((3 : Int) : Fp4) = 3 := by push_cast; exact map_ofNat _ 3
  rw [this]
  linear_combination (-(ι4 b * W) * (y ^ 2 + y + 1) - ι4 c * W ^ 2 * (y ^ 6 + y ^ 5 - y ^ 3 + y + 1)) * h1

theorem trace_T {f : FP12} {E : Int} {g : CycG} (hf : Ok f 1 E g.v) (hE : 1 ≤ E ∧ E ≤ 2 ^ 20) :
    Wp (trace f) fun r => FP4.T r 1 g :=
  (trace_wp hf hE).mono fun _ ⟨c, hc, ht⟩ => ⟨c, hc.ok.toJ (by norm_num), ht⟩

end FP12

end Amcl
