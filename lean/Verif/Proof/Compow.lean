import Verif.Proof.Xtr
import Verif.Model.Xtr
/-!
# `compow`, `pinpow`, and the exponents for which the compressed powers go wrong
-/

set_option exponentiation.threshold 6000

namespace Amcl

open Spec

seal Spec.finalExp

/-- `p mod r`. -/
theorem p_mod_r : p % r = r - xAbs := by decide +kernel

theorem mod_wp : Wp (rom.MODULUS.rmod rom.CURVE_ORDER) fun m => m.Nrm ∧ m.val = (p : Int) % r := by
  refine (BIG.rmod_wp (modulus_lim.mono (by norm_num)) ?_ ?_ order_nrm ?_).mono ?_
  · rw [modulus_val]; decide +kernel
  · rw [modulus_val]; decide +kernel
  · rw [order_val]; decide +kernel
  · rintro m ⟨hm, vm⟩
    exact ⟨hm, by rw [vm, modulus_val, order_val]⟩

theorem p_smul {g : CycG} (hg : r • g = 0) : ((p : Int) % r) • g = p • g := by
  have : (p : Int) % r = p - r * ((p : Int) / r) := by
    have := Int.emod_add_mul_ediv (p : Int) r; omega
  rw [this, sub_smul, mul_comm, mul_smul, natCast_zsmul, natCast_zsmul, hg, smul_zero, sub_zero]

theorem m_pos : (0:Int) < (p : Int) % r := by decide +kernel

theorem m_lt : (p : Int) % r < 2 ^ 255 := by decide +kernel

namespace FP4

/-! ### The exponent 0 -/

theorem zero_limbs {n : BIG} (h : n.Nrm) (h0 : n.val = 0) : n = ⟨0, 0, 0, 0, 0, 0, 0⟩ := by
  obtain ⟨a0, a1, a2, a3, a4, a5⟩ := h
  obtain ⟨w0, w1, w2, w3, w4, w5, w6⟩ := n
  simp only [BIG.val] at *
  simp only [BIG.mk.injEq]
  omega

/-- The number `-1`, normalised. -/
def minusOne : BIG := ⟨2 ^ 58 - 1, 2 ^ 58 - 1, 2 ^ 58 - 1, 2 ^ 58 - 1, 2 ^ 58 - 1, 2 ^ 58 - 1, -1⟩

theorem minusOne_bit : ∀ i < 349, minusOne.bit i = some 1 := by decide +kernel

theorem minusOne_loop {g : CycG} : ∀ (i : Nat) (q : Pow) (k : Nat), i ≤ 349 → q.At g k →
    Wp (xtrLoop minusOne i q) fun r => r.At g (2 ^ i * (k + 1) - 1)
  | 0, q, k, _, h => Wp.pure (by simpa using h)
  | i + 1, q, k, hi, h => by
    unfold xtrLoop
    rw [minusOne_bit i (by omega), Option.bind_eq_bind, Option.bind_some]
    refine Wp.bind (powStep_wp h (.inr rfl)) fun r hr => ?_
    refine (minusOne_loop i r _ (by omega) hr).mono fun s hs => ?_
    convert hs using 2
    rw [pow_succ, mul_assoc]
    congr 1

/-- For the exponent 0 `xtr_pow` computes the power `2^350`. -/
theorem xtr_pow_zero {x : FP4} {n : BIG} {g : CycG} (hx : T x (2 ^ 18) g) (hn : n.Lim (2 ^ 62)) (h0 : n.val = 0) :
    Wp (xtr_pow x n) fun r => ∃ c, Can r c ∧ IsTrace c (2 ^ 350 • g).v := by
  unfold xtr_pow
  refine Wp.bind (new_int_wp (by norm_num) (by norm_num)) fun a ha => ?_
  refine Wp.bind (hx.dbl (by norm_num)) fun c hc => ?_
  refine Wp.bind (BIG.norm_wp hn) ?_
  rintro m ⟨nm, vm⟩
  rw [zero_limbs nm (vm.trans h0)]
  rw [show BIG.parity ⟨0, 0, 0, 0, 0, 0, 0⟩ = 0 from by decide +kernel]
  rw [show BIG.fshr ⟨0, 0, 0, 0, 0, 0, 0⟩ 1 = some ⟨0, 0, 0, 0, 0, 0, 0⟩ from by decide +kernel]
  dsimp only
  rw [Option.bind_eq_bind, Option.bind_some,
    show halfDown 0 ⟨0, 0, 0, 0, 0, 0, 0⟩ = some minusOne from by decide +kernel, Option.bind_eq_bind, Option.bind_some,
    show minusOne.nbits = some 349 from by decide +kernel, Option.bind_eq_bind, Option.bind_some]
  simp only [if_true]
  refine Wp.bind (minusOne_loop (g := g) 349 _ 0 le_rfl (At_start hx hc ha)) fun q hq => ?_
  obtain ⟨cc, c1, c2⟩ := hq.c
  refine (reduce_wp (c1.ok (by norm_num)) (by norm_num)).mono fun r hr => ⟨_, hr, ?_⟩
  rwa [show 2 * (2 ^ 349 * (0 + 1) - 1) + 2 = 2 ^ 350 by norm_num] at c2

/-! ### The loops that never end -/

/-- One exponent is 0 and the other is not. -/
structure Pow2.Bad (q : Pow2) : Prop where
  d : q.d.Nrm
  e : q.e.Nrm
  d0 : 0 ≤ q.d.val
  e0 : 0 ≤ q.e.val
  d1 : q.d.val < 2 ^ 403
  e1 : q.e.val < 2 ^ 403
  z : q.d.val = 0 ∧ q.e.val ≠ 0 ∨ q.d.val ≠ 0 ∧ q.e.val = 0

theorem half {d d' : BIG} (hd : d.Nrm) (h : d.fshr 1 = some d') : d'.Nrm ∧ d'.val = d.val / 2 := by
  obtain ⟨d'', e, h1, h2⟩ := BIG.fshr_wp hd (k := 1) (by norm_num)
  rw [h, Option.some.injEq] at e
  subst e
  exact ⟨h1, by rw [h2, pow_one]⟩

theorem pow2A2_bad {q r : Pow2} (h : q.Bad) (hp : q.d.val % 2 = 0) (hr : pow2A2 q = some r) : r.Bad := by
  unfold pow2A2 at hr
  obtain ⟨d, hd, hr⟩ := Option.bind_eq_some_iff.mp hr
  obtain ⟨_, -, hr⟩ := Option.bind_eq_some_iff.mp hr
  obtain ⟨_, -, hr⟩ := Option.bind_eq_some_iff.mp hr
  obtain ⟨_, -, hr⟩ := Option.bind_eq_some_iff.mp hr
  obtain ⟨_, -, hr⟩ := Option.bind_eq_some_iff.mp hr
  obtain rfl := Option.some.inj hr
  obtain ⟨nd, vd⟩ := half h.d hd
  obtain ⟨a1, a2, a3, a4, a5, a6, a7⟩ := h
  constructor <;> dsimp only <;> first | assumption | omega

theorem swap2_bad {q r : Pow2} (h : q.Bad) (hp : q.e.val % 2 = 0) (hr : swap2 q q.e q.d = some r) : r.Bad := by
  unfold swap2 at hr
  obtain ⟨d, hd, hr⟩ := Option.bind_eq_some_iff.mp hr
  obtain ⟨_, -, hr⟩ := Option.bind_eq_some_iff.mp hr
  obtain ⟨_, -, hr⟩ := Option.bind_eq_some_iff.mp hr
  obtain ⟨_, -, hr⟩ := Option.bind_eq_some_iff.mp hr
  obtain ⟨_, -, hr⟩ := Option.bind_eq_some_iff.mp hr
  obtain rfl := Option.some.inj hr
  obtain ⟨nd, vd⟩ := half h.e hd
  obtain ⟨a1, a2, a3, a4, a5, a6, a7⟩ := h
  constructor <;> dsimp only <;> first | assumption | omega

theorem pow2IfGt_bad {q r : Pow2} (h : q.Bad) (hr : pow2IfGt q = some r) : r.Bad := by
  unfold pow2IfGt at hr
  split at hr
  · next hc =>
    rw [BIG.comp_pos h.d h.e] at hc
    have he : q.e.val = 0 := by have := h.z; have := h.d0; have := h.e0; omega
    unfold pow2Gt at hr
    rw [zero_limbs h.e he, show BIG.imul ⟨0, 0, 0, 0, 0, 0, 0⟩ 4 = some ⟨0, 0, 0, 0, 0, 0, 0⟩ by decide +kernel,
      Option.bind_eq_bind, Option.bind_some, show BIG.norm ⟨0, 0, 0, 0, 0, 0, 0⟩ = some ⟨0, 0, 0, 0, 0, 0, 0⟩ by decide +kernel,
      Option.bind_some, ← zero_limbs h.e he, if_neg (by have := BIG.comp_pos h.d h.e; omega)] at hr
    unfold pow2Far at hr
    rw [BIG.parity_spec h.d, BIG.parity_spec h.e] at hr
    split at hr
    · next hp => exact pow2A2_bad h hp hr
    · rw [if_neg (by omega)] at hr
      exact swap2_bad h (by omega) hr
  · obtain rfl := Option.some.inj hr
    exact h

theorem pow2IfLt_bad {q r : Pow2} (h : q.Bad) (hr : pow2IfLt q = some r) : r.Bad := by
  unfold pow2IfLt at hr
  split at hr
  · next hc =>
    rw [BIG.comp_lt h.d h.e] at hc
    have hd : q.d.val = 0 := by have := h.z; have := h.d0; have := h.e0; omega
    unfold pow2Lt at hr
    rw [zero_limbs h.d hd, show BIG.imul ⟨0, 0, 0, 0, 0, 0, 0⟩ 4 = some ⟨0, 0, 0, 0, 0, 0, 0⟩ by decide +kernel,
      Option.bind_eq_bind, Option.bind_some, show BIG.norm ⟨0, 0, 0, 0, 0, 0, 0⟩ = some ⟨0, 0, 0, 0, 0, 0, 0⟩ by decide +kernel,
      Option.bind_some, ← zero_limbs h.d hd, if_neg (by have := BIG.comp_pos h.e h.d; omega)] at hr
    unfold pow2Far' at hr
    rw [BIG.parity_spec h.d, BIG.parity_spec h.e] at hr
    split at hr
    · next hp => exact swap2_bad h hp hr
    · rw [if_neg (by omega)] at hr
      exact pow2A2_bad h (by omega) hr
  · obtain rfl := Option.some.inj hr
    exact h

theorem pow2Loop_bad {q : Pow2} (h : q.Bad) : pow2Loop q = none := by
  rw [Option.eq_none_iff_forall_ne_some]
  intro r hr
  refine pow2Loop.partial_correctness (motive := fun q _ => q.Bad → False) ?_ q r hr h
  intro f ih q r h hq
  split at h
  · obtain ⟨q', h', h⟩ := Option.bind_eq_some_iff.mp h
    obtain ⟨q'', h'', h⟩ := Option.bind_eq_some_iff.mp h
    exact ih _ _ h (pow2IfLt_bad (pow2IfGt_bad hq h') h'')
  · next hc =>
    rw [Ne, not_not, BIG.comp_eq_zero hq.d hq.e] at hc
    have := hq.z
    omega

theorem pow2Even_bad {d e : BIG} (hd : d.Nrm) (he : e.Nrm) (h0 : d.val = 0) (h1 : e.val = 0) (f : Nat) :
    pow2Even d e f = none := by
  rw [Option.eq_none_iff_forall_ne_some]
  intro r hr
  refine pow2Even.partial_correctness (motive := fun d e _ _ => d.Nrm → e.Nrm → d.val = 0 → e.val = 0 → False) ?_
    d e f r hr hd he h0 h1
  intro F ih d e f r h nd ne d0 e0
  rw [BIG.parity_spec nd, BIG.parity_spec ne, if_pos (by omega)] at h
  obtain ⟨d', h', h⟩ := Option.bind_eq_some_iff.mp h
  obtain ⟨e', h'', h⟩ := Option.bind_eq_some_iff.mp h
  obtain ⟨n1, v1⟩ := half nd h'
  obtain ⟨n2, v2⟩ := half ne h''
  exact ih _ _ _ _ h n1 n2 (by omega) (by omega)

/-- `xtr_pow2` never ends if an exponent is 0. -/
theorem xtr_pow2_none {x ck ckml ckm2l : FP4} {a b : BIG} (ha : a.Lim (2 ^ 62)) (a0 : 0 ≤ a.val)
    (a1 : a.val < 2 ^ 403) (hb : b.Lim (2 ^ 62)) (b0 : 0 ≤ b.val) (b1 : b.val < 2 ^ 403) (h : a.val = 0 ∨ b.val = 0) :
    xtr_pow2 x ck ckml ckm2l a b = none := by
  obtain ⟨e, ee, ne, ve⟩ := BIG.norm_wp ha
  obtain ⟨d, ed, nd, vd⟩ := BIG.norm_wp hb
  unfold xtr_pow2
  rw [ee, Option.bind_eq_bind, Option.bind_some, ed, Option.bind_eq_bind, Option.bind_some]
  by_cases hz : a.val = 0 ∧ b.val = 0
  · rw [pow2Even_bad nd ne (by omega) (by omega)]
    rfl
  obtain ⟨⟨d', e', f2⟩, e1, nd', ne', n, hf, hd, he⟩ :=
    pow2Even_wp 404 d e 0 nd ne (by omega) (by omega) (by omega) (by omega) (by omega) (by omega)
  dsimp only at *
  rw [e1, Option.bind_eq_bind, Option.bind_some]
  have p0 : (1:Int) ≤ 2 ^ n := one_le_pow₀ (by norm_num)
  have d0 : 0 ≤ d'.val := by nlinarith
  have e0 : 0 ≤ e'.val := by nlinarith
  have hbad : Pow2.Bad ⟨d', e', ck, x, ckml, ckm2l⟩ := by
    refine ⟨nd', ne', d0, e0, ?_, ?_, ?_⟩
    · show d'.val < 2 ^ 403
      nlinarith
    · show e'.val < 2 ^ 403
      nlinarith
    · show d'.val = 0 ∧ e'.val ≠ 0 ∨ d'.val ≠ 0 ∧ e'.val = 0
      have h1 : d.val = 0 ↔ d'.val = 0 := by rw [hd, mul_eq_zero, or_iff_right (by omega)]
      have h2 : e.val = 0 ↔ e'.val = 0 := by rw [he, mul_eq_zero, or_iff_right (by omega)]
      omega
  rw [pow2Loop_bad hbad]
  rfl

end FP4

namespace FP12

/-- `compow` computes the trace of a power, unless the power is divisible by `p mod r`. -/
theorem compow_wp {f : FP12} {g : CycG} (hf : Ok f 1 (2 ^ 12) g.v) (hg : r • g = 0) {e : BIG} (he : e.Lim (2 ^ 62))
    (h0 : 0 ≤ e.val) (h1 : e.val < 2 ^ 403) (h : e.val % ((p : Int) % r) ≠ 0) :
    Wp (compow f e rom.CURVE_ORDER) fun c => ∃ v, FP4.Can c v ∧ IsTrace v (e.val • g).v := by
  unfold compow
  refine Wp.bind pair.gamma_ok fun fr hfr => ?_
  refine Wp.bind mod_wp ?_
  rintro m ⟨hm, vm⟩
  have mp := m_pos
  have ml := m_lt
  refine Wp.bind (BIG.rmod_wp he h0 (by omega) hm (by omega)) ?_
  rintro a ⟨na, va⟩
  refine Wp.bind (BIG.div_wp he h0 h1 hm (by omega) (by omega)) ?_
  rintro b ⟨nb, vb⟩
  rw [vm] at va vb
  generalize hM : (p : Int) % r = M at *
  have a0 : 0 ≤ a.val := va ▸ Int.emod_nonneg _ (by omega)
  have a1 : a.val < M := va ▸ Int.emod_lt_of_pos _ mp
  have b0 : 0 ≤ b.val := vb ▸ Int.ediv_nonneg h0 (by omega)
  have b1 : b.val ≤ e.val := vb ▸ Int.ediv_le_self _ h0
  have hab := Int.emod_add_mul_ediv e.val M
  rw [← va, ← vb] at hab
  refine Wp.bind (trace_T hf (by norm_num)) fun c hc => ?_
  have la := na.lim58 (by omega) (by omega) |>.mono (show (2:Int) ^ 58 ≤ 2 ^ 62 by norm_num)
  split
  · next hz =>
    rw [BIG.iszilch_spec nb] at hz
    refine (FP4.xtr_pow_wp (hc.mono (by norm_num)) la (by omega) (by omega)).mono ?_
    rintro r ⟨v, hv, ht⟩
    refine ⟨v, hv, ?_⟩
    convert ht using 2
    rw [← natCast_zsmul, Int.toNat_of_nonneg (by omega), ← hab, hz, mul_zero, add_zero]
  · next hz =>
    rw [BIG.iszilch_spec nb] at hz
    unfold compowHigh
    refine Wp.bind (frob_wp hf hfr (by norm_num)) fun g2 h2 => ?_
    have h2 : Ok g2 1 (2 ^ 13) (p • g).v := (h2.congr (by rw [CycG.v_nsmul, φ_eq])).mono (by norm_num)
    refine Wp.bind (trace_T h2 (by norm_num)) fun cp hcp => ?_
    refine Wp.bind (conj_v hf (by norm_num)) fun g1 h1' => ?_
    refine Wp.bind (mul_wp (h2.mono (by norm_num)) (h1'.mono (by norm_num))) fun g3 h3 => ?_
    rw [← CycG.v_add, ← sub_eq_add_neg] at h3
    refine Wp.bind (trace_T h3 (by norm_num)) fun cp1 hcp1 => ?_
    refine Wp.bind (mul_wp (h3.mono (by norm_num)) (h1'.mono (by norm_num))) fun g4 h4 => ?_
    rw [← CycG.v_add, ← sub_eq_add_neg] at h4
    refine Wp.bind (trace_T h4 (by norm_num)) fun cp2 hcp2 => ?_
    refine (FP4.xtr_pow2_wp hc hcp hcp1 hcp2 (by norm_num) la (by omega) (by omega)
      (nb.lim58 (by omega) (by omega) |>.mono (by norm_num)) (by omega) (by omega)).mono ?_
    rintro r ⟨v, hv, ht⟩
    refine ⟨v, hv, ?_⟩
    convert ht using 2
    rw [← p_smul hg, hM, ← hab]
    module

/-- `compow` never ends for a positive multiple of `p mod r`. -/
theorem compow_none {f : FP12} {e : BIG} (he : e.Lim (2 ^ 62)) (h0 : 0 < e.val) (h1 : e.val < 2 ^ 403)
    (h : e.val % ((p : Int) % r) = 0) : compow f e rom.CURVE_ORDER = none := by
  rw [Option.eq_none_iff_forall_ne_some]
  intro c hc
  obtain ⟨m, em, hm, vm⟩ := mod_wp
  have mp := m_pos
  have ml := m_lt
  obtain ⟨a, ea, na, va⟩ := BIG.rmod_wp he h0.le (by omega) hm (by omega)
  obtain ⟨b, eb, nb, vb⟩ := BIG.div_wp he h0.le h1 hm (by omega) (by omega)
  unfold compow at hc
  obtain ⟨_, -, hc⟩ := Option.bind_eq_some_iff.mp hc
  rw [em, Option.bind_eq_bind, Option.bind_some, ea, Option.bind_eq_bind, Option.bind_some, eb,
    Option.bind_some] at hc
  obtain ⟨_, -, hc⟩ := Option.bind_eq_some_iff.mp hc
  rw [vm] at va vb
  generalize hM : (p : Int) % r = M at *
  have hab := Int.emod_add_mul_ediv e.val M
  rw [← va, ← vb] at hab
  have b0 : 0 ≤ b.val := vb ▸ Int.ediv_nonneg h0.le (by omega)
  have b1 : b.val ≤ e.val := vb ▸ Int.ediv_le_self _ h0.le
  have hb : b.val ≠ 0 := by intro hb; rw [hb, mul_zero] at hab; omega
  rw [if_neg (by rw [BIG.iszilch_spec nb]; exact hb)] at hc
  unfold compowHigh at hc
  obtain ⟨_, -, hc⟩ := Option.bind_eq_some_iff.mp hc
  obtain ⟨_, -, hc⟩ := Option.bind_eq_some_iff.mp hc
  obtain ⟨_, -, hc⟩ := Option.bind_eq_some_iff.mp hc
  obtain ⟨_, -, hc⟩ := Option.bind_eq_some_iff.mp hc
  obtain ⟨_, -, hc⟩ := Option.bind_eq_some_iff.mp hc
  obtain ⟨_, -, hc⟩ := Option.bind_eq_some_iff.mp hc
  obtain ⟨_, -, hc⟩ := Option.bind_eq_some_iff.mp hc
  rw [FP4.xtr_pow2_none (na.lim58 (by omega) (by omega) |>.mono (by norm_num)) (by omega) (by omega)
    (nb.lim58 (by omega) (by omega) |>.mono (by norm_num)) (by omega) (by omega) (.inl (by omega))] at hc
  exact absurd hc (by simp)

/-- `compow` of the exponent 0 computes the power `2^350`. -/
theorem compow_zero {f : FP12} {g : CycG} (hf : Ok f 1 (2 ^ 12) g.v) {e : BIG} (he : e.Lim (2 ^ 62)) (h0 : e.val = 0) :
    Wp (compow f e rom.CURVE_ORDER) fun c => ∃ v, FP4.Can c v ∧ IsTrace v (2 ^ 350 • g).v := by
  unfold compow
  refine Wp.bind pair.gamma_ok fun fr hfr => ?_
  refine Wp.bind mod_wp ?_
  rintro m ⟨hm, vm⟩
  have mp := m_pos
  have ml := m_lt
  refine Wp.bind (BIG.rmod_wp he h0.ge (by omega) hm (by omega)) ?_
  rintro a ⟨na, va⟩
  refine Wp.bind (BIG.div_wp he h0.ge (by omega) hm (by omega) (by omega)) ?_
  rintro b ⟨nb, vb⟩
  rw [h0, Int.zero_emod] at va
  rw [h0, Int.zero_ediv] at vb
  refine Wp.bind (trace_T hf (by norm_num)) fun c hc => ?_
  rw [if_pos ((BIG.iszilch_spec nb).2 vb)]
  exact FP4.xtr_pow_zero (hc.mono (by norm_num)) (na.lim58 (by omega) (by omega) |>.mono (by norm_num)) va

/-! ### `pinpow` -/

theorem pinStep_wp {z : CycG} {q : FP12 × FP12} {k : Nat} (h1 : Ok q.1 1 (2 ^ 12) (k • z).v)
    (h2 : Ok q.2 1 (2 ^ 12) ((k + 1) • z).v) {b : Int} (hb : b = 0 ∨ b = 1) :
    Wp (pinStep b q) fun s => Ok s.1 1 (2 ^ 12) ((2 * k + b.toNat) • z).v ∧
      Ok s.2 1 (2 ^ 12) ((2 * k + b.toNat + 1) • z).v := by
  have hu : ∀ {f : FP12} {g : CycG}, Ok f 1 (2 ^ 12) g.v → Wp (usqr f) fun r => Ok r 1 (2 ^ 12) (g + g).v :=
    fun h => (usqr_wp (h.mono (by norm_num)) (CycG.v_cyc _)).mono fun _ h =>
      (h.ok.mono (by norm_num)).congr (by rw [CycG.v_add, sq])
  rcases hb with rfl | rfl
  · rw [pinStep, if_pos rfl]
    refine Wp.bind (mul_wp (h2.mono (by norm_num)) (h1.mono (by norm_num))) fun s hs => ?_
    refine Wp.bind (hu h1) fun t ht => ?_
    refine Wp.ret ⟨ht.congr (congrArg _ ?_), hs.congr ?_⟩
    · simp only [Int.toNat_zero]; module
    · rw [← CycG.v_add]; congr 1; simp only [Int.toNat_zero]; module
  · rw [pinStep, if_neg one_ne_zero]
    refine Wp.bind (mul_wp (h1.mono (by norm_num)) (h2.mono (by norm_num))) fun s hs => ?_
    refine Wp.bind (hu h2) fun t ht => ?_
    refine Wp.ret ⟨hs.congr ?_, ht.congr (congrArg _ ?_)⟩
    · rw [← CycG.v_add]; congr 1; simp only [Int.toNat_one]; module
    · simp only [Int.toNat_one]; module

theorem pinLoop_wp {z : CycG} {e : Nat} : ∀ (i : Nat) (q : FP12 × FP12), Ok q.1 1 (2 ^ 12) ((e / 2 ^ i) • z).v →
    Ok q.2 1 (2 ^ 12) ((e / 2 ^ i + 1) • z).v → Wp (pinLoop e i q) fun s => Ok s.1 1 (2 ^ 12) (e • z).v
  | 0, q, h1, _ => Wp.pure (by simpa using h1)
  | i + 1, q, h1, h2 => by
    unfold pinLoop
    have e1 : (e : Int) / 2 ^ i % 2 = ((e / 2 ^ i % 2 : Nat) : Int) := by push_cast; rfl
    have e2 : 2 * (e / 2 ^ (i + 1)) + e / 2 ^ i % 2 = e / 2 ^ i := by
      rw [pow_succ, ← Nat.div_div_eq_div_mul, Nat.div_add_mod]
    refine Wp.bind (pinStep_wp h1 h2 (b := (e : Int) / 2 ^ i % 2) (by omega)) ?_
    rintro s ⟨s1, s2⟩
    rw [e1, Int.toNat_natCast, e2] at s1 s2
    exact pinLoop_wp i s s1 s2

theorem pinLoop_mod (e : Int) {n : Nat} : ∀ (i : Nat) (q : FP12 × FP12), i ≤ n → pinLoop e i q = pinLoop (e % 2 ^ n) i q
  | 0, _, _ => rfl
  | i + 1, q, h => by
    have e1 : e % 2 ^ n / 2 ^ i % 2 = e / 2 ^ i % 2 := by
      obtain ⟨k, rfl⟩ := Nat.exists_eq_add_of_le h
      have h1 := Int.emod_add_mul_ediv e (2 ^ (i + 1 + k))
      generalize e % 2 ^ (i + 1 + k) = y at *
      generalize e / 2 ^ (i + 1 + k) = z at *
      rw [← h1, pow_add, pow_succ, show y + 2 ^ i * 2 * 2 ^ k * z = y + 2 ^ i * (2 * (2 ^ k * z)) by ring,
        Int.add_mul_ediv_left _ _ (by positivity)]
      omega
    unfold pinLoop
    rw [e1]
    congr 1
    funext q'
    exact pinLoop_mod e i q' (by omega)

/-- `pinpow` raises to a power of `bts` bits. -/
theorem pinpow_wp {f : FP12} {g : CycG} (hf : Ok f 1 (2 ^ 12) g.v) {e bts : Nat} (hb : bts ≤ 32) (he : e < 2 ^ bts) :
    Wp (pinpow f e bts) fun r => Ok r 1 (2 ^ 12) (e • g).v := by
  unfold pinpow
  refine Wp.bind (new_int_wp (by norm_num) (by norm_num)) fun o ho => ?_
  rw [if_pos hb]
  refine Wp.bind (pinLoop_wp (z := g) (e := e) bts _ ?_ ?_) fun s hs => Wp.ret hs
  · rw [Nat.div_eq_of_lt he]
    refine (ho.mono (by norm_num)).congr ?_
    rw [zero_smul, CycG.v_zero]; norm_num
  · rw [Nat.div_eq_of_lt he, zero_add, one_smul]
    exact hf

/-- `pinpow` sees the low `bts` bits of the exponent. -/
theorem pinpow_mod (f : FP12) (e : Int) (bts : Nat) : pinpow f e bts = pinpow f (e % 2 ^ bts) bts := by
  unfold pinpow
  congr 1
  funext one
  rw [pinLoop_mod e bts _ le_rfl]

end FP12

end Amcl
