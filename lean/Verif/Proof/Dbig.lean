import Verif.Proof.BigMore
/-!
# `DBIG` operations
-/

set_option exponentiation.threshold 2000

namespace Amcl
namespace DBIG

/-- Every limb is at most `B` in absolute value. -/
structure Lim (d : DBIG) (B : Int) : Prop where
  lo : d.lo.Lim B
  hi : d.hi.Lim B

theorem Lim.mono {d : DBIG} {B C : Int} (h : Lim d B) (hBC : B ≤ C) : Lim d C :=
  ⟨h.lo.mono hBC, h.hi.mono hBC⟩

theorem Nrm.loVal {d : DBIG} (h : Nrm d) : 0 ≤ d.lo.val ∧ d.lo.val < 2 ^ 406 := by
  obtain ⟨⟨n0, n1, n2, n3, n4, n5⟩, n6, _⟩ := h
  simp only [BIG.val]; constructor <;> omega

theorem Nrm.hiVal {d : DBIG} (h : Nrm d) : d.hi.val = d.val / 2 ^ 406 := by
  have := h.loVal
  simp only [val]; omega

theorem Nrm.loEq {d : DBIG} (h : Nrm d) : d.lo.val = d.val % 2 ^ 406 := by
  have := h.loVal
  simp only [val]; omega

theorem Nrm.lim {d : DBIG} (h : Nrm d) {B : Int} (h0 : 0 ≤ d.val) (h1 : d.val < B * 2 ^ 754)
    (hB : 2 ^ 58 ≤ B) : Lim d B := by
  have hl := h.loVal
  have hh := h.hiVal
  refine ⟨(h.lo.lim58 hl.1 hl.2).mono hB, h.hi.lim ?_ ?_ hB⟩
  · rw [hh]; exact Int.ediv_nonneg h0 (by norm_num)
  · rw [hh]; apply Int.ediv_lt_of_lt_mul (by norm_num)
    rw [mul_assoc, ← pow_add]; exact h1

theorem add_wp {a b : DBIG} {A B : Int} (ha : Lim a A) (hb : Lim b B) (h : A + B < 2 ^ 63) :
    Wp (add a b) fun r => Lim r (A + B) ∧ r.val = a.val + b.val := by
  unfold add
  refine Wp.bind (BIG.add_wp ha.lo hb.lo h) ?_
  rintro x ⟨lx, vx⟩
  refine Wp.bind (BIG.add_wp ha.hi hb.hi h) ?_
  rintro y ⟨ly, vy⟩
  exact Wp.ret ⟨⟨lx, ly⟩, by simp only [val, vx, vy]; ring⟩

theorem sub_wp {a b : DBIG} {A B : Int} (ha : Lim a A) (hb : Lim b B) (h : A + B < 2 ^ 63) :
    Wp (sub a b) fun r => Lim r (A + B) ∧ r.val = a.val - b.val := by
  unfold sub
  refine Wp.bind (BIG.sub_wp ha.lo hb.lo h) ?_
  rintro x ⟨lx, vx⟩
  refine Wp.bind (BIG.sub_wp ha.hi hb.hi h) ?_
  rintro y ⟨ly, vy⟩
  exact Wp.ret ⟨⟨lx, ly⟩, by simp only [val, vx, vy]; ring⟩

theorem rsub_wp {a b : DBIG} {A B : Int} (ha : Lim a A) (hb : Lim b B) (h : A + B < 2 ^ 63) :
    Wp (rsub a b) fun r => Lim r (A + B) ∧ r.val = b.val - a.val := by
  unfold rsub
  refine Wp.bind (BIG.rsub_wp ha.lo hb.lo h) ?_
  rintro x ⟨lx, vx⟩
  refine Wp.bind (BIG.rsub_wp ha.hi hb.hi h) ?_
  rintro y ⟨ly, vy⟩
  exact Wp.ret ⟨⟨lx, ly⟩, by simp only [val, vx, vy]; ring⟩

theorem ucopy_val (x : BIG) : (ucopy x).val = x.val * 2 ^ 406 := by
  simp [ucopy, val, BIG.new_val]

theorem ucopy_lim {x : BIG} {B : Int} (h : x.Lim B) (hB : 0 ≤ B) : (ucopy x).Lim B := by
  refine ⟨?_, h⟩
  constructor <;> simp [ucopy, BIG.new, hB]

theorem comp_spec {a b : DBIG} (ha : Nrm a) (hb : Nrm b) : comp a b = BIG.cmpZ a.val b.val := by
  have la := ha.loVal
  have lb := hb.loVal
  unfold comp
  rw [BIG.comp_spec ha.hi hb.hi, BIG.comp_spec ha.lo hb.lo]
  have h := BIG.comp_step (x := a.hi.val) (y := b.hi.val) la.1 la.2 lb.1 lb.2
  simp only [BIG.compW] at h
  rw [val, val, ← h]
  unfold BIG.cmpZ
  by_cases e : a.hi.val = b.hi.val
  · simp [e]
  · simp only [e, if_false]
    split <;> simp

theorem comp_lt {a b : DBIG} (ha : Nrm a) (hb : Nrm b) : comp a b < 0 ↔ a.val < b.val := by
  rw [comp_spec ha hb, BIG.cmpZ]; split <;> [skip; split] <;> omega

theorem norm_wp {a : DBIG} (h : Lim a (2 ^ 62)) : Wp (norm a) fun r => Nrm r ∧ r.val = a.val := by
  obtain ⟨⟨h0, h1, h2, h3, h4, h5, h6⟩, ⟨h7, h8, h9, h10, h11, h12, h13⟩⟩ := h
  unfold norm
  refine Wp.bind (Wp.of_eq (BIG.normStep_eq (by omega) (by omega)) rfl) ?_
  rintro _ rfl
  generalize hc0 : (a.lo.w0 + 0) / 2 ^ 58 = c0
  generalize hd0 : (a.lo.w0 + 0) % 2 ^ 58 = d0
  refine Wp.bind (Wp.of_eq (BIG.normStep_eq (by omega) (by omega)) rfl) ?_
  rintro _ rfl
  generalize hc1 : (a.lo.w1 + c0) / 2 ^ 58 = c1
  generalize hd1 : (a.lo.w1 + c0) % 2 ^ 58 = d1
  refine Wp.bind (Wp.of_eq (BIG.normStep_eq (by omega) (by omega)) rfl) ?_
  rintro _ rfl
  generalize hc2 : (a.lo.w2 + c1) / 2 ^ 58 = c2
  generalize hd2 : (a.lo.w2 + c1) % 2 ^ 58 = d2
  refine Wp.bind (Wp.of_eq (BIG.normStep_eq (by omega) (by omega)) rfl) ?_
  rintro _ rfl
  generalize hc3 : (a.lo.w3 + c2) / 2 ^ 58 = c3
  generalize hd3 : (a.lo.w3 + c2) % 2 ^ 58 = d3
  refine Wp.bind (Wp.of_eq (BIG.normStep_eq (by omega) (by omega)) rfl) ?_
  rintro _ rfl
  generalize hc4 : (a.lo.w4 + c3) / 2 ^ 58 = c4
  generalize hd4 : (a.lo.w4 + c3) % 2 ^ 58 = d4
  refine Wp.bind (Wp.of_eq (BIG.normStep_eq (by omega) (by omega)) rfl) ?_
  rintro _ rfl
  generalize hc5 : (a.lo.w5 + c4) / 2 ^ 58 = c5
  generalize hd5 : (a.lo.w5 + c4) % 2 ^ 58 = d5
  refine Wp.bind (Wp.of_eq (BIG.normStep_eq (by omega) (by omega)) rfl) ?_
  rintro _ rfl
  generalize hc6 : (a.lo.w6 + c5) / 2 ^ 58 = c6
  generalize hd6 : (a.lo.w6 + c5) % 2 ^ 58 = d6
  refine Wp.bind (Wp.of_eq (BIG.normStep_eq (by omega) (by omega)) rfl) ?_
  rintro _ rfl
  generalize hc7 : (a.hi.w0 + c6) / 2 ^ 58 = c7
  generalize hd7 : (a.hi.w0 + c6) % 2 ^ 58 = d7
  refine Wp.bind (Wp.of_eq (BIG.normStep_eq (by omega) (by omega)) rfl) ?_
  rintro _ rfl
  generalize hc8 : (a.hi.w1 + c7) / 2 ^ 58 = c8
  generalize hd8 : (a.hi.w1 + c7) % 2 ^ 58 = d8
  refine Wp.bind (Wp.of_eq (BIG.normStep_eq (by omega) (by omega)) rfl) ?_
  rintro _ rfl
  generalize hc9 : (a.hi.w2 + c8) / 2 ^ 58 = c9
  generalize hd9 : (a.hi.w2 + c8) % 2 ^ 58 = d9
  refine Wp.bind (Wp.of_eq (BIG.normStep_eq (by omega) (by omega)) rfl) ?_
  rintro _ rfl
  generalize hc10 : (a.hi.w3 + c9) / 2 ^ 58 = c10
  generalize hd10 : (a.hi.w3 + c9) % 2 ^ 58 = d10
  refine Wp.bind (Wp.of_eq (BIG.normStep_eq (by omega) (by omega)) rfl) ?_
  rintro _ rfl
  generalize hc11 : (a.hi.w4 + c10) / 2 ^ 58 = c11
  generalize hd11 : (a.hi.w4 + c10) % 2 ^ 58 = d11
  refine Wp.bind (Wp.of_eq (BIG.normStep_eq (by omega) (by omega)) rfl) ?_
  rintro _ rfl
  generalize hc12 : (a.hi.w5 + c11) / 2 ^ 58 = c12
  generalize hd12 : (a.hi.w5 + c11) % 2 ^ 58 = d12
  refine Wp.bind (Wp.of_eq (add64_eq (by omega) (by omega)) rfl) ?_
  rintro _ rfl
  refine Wp.ret ⟨⟨⟨?_, ?_, ?_, ?_, ?_, ?_⟩, ?_, ⟨?_, ?_, ?_, ?_, ?_, ?_⟩⟩, ?_⟩
  all_goals simp only [val, BIG.val]
  all_goals omega

theorem new_scopy_spec {x : BIG} (hx : x.Nrm) (h6 : 0 ≤ x.w6 ∧ x.w6 ≤ 2 ^ 62) :
    (new_scopy x).Nrm ∧ (new_scopy x).val = x.val ∧ (new_scopy x).Lim (2 ^ 58) := by
  obtain ⟨n0, n1, n2, n3, n4, n5⟩ := hx
  have e : and64 x.w6 BMASK = x.w6 % 2 ^ 58 := by rw [BMASK_eq, and64_mask (by norm_num)]
  have e2 : new_scopy x = ⟨{ x with w6 := x.w6 % 2 ^ 58 }, { BIG.new with w0 := x.w6 / 2 ^ 58 }⟩ := by
    rw [new_scopy, e]; rfl
  rw [e2]
  refine ⟨⟨⟨n0, n1, n2, n3, n4, n5⟩, by simp only; omega, ?_⟩, ?_, ⟨?_, ?_⟩⟩
  · constructor <;> simp only [BIG.new] <;> omega
  · simp only [val, BIG.val, BIG.new]; omega
  · constructor <;> simp only <;> omega
  · constructor <;> simp only [BIG.new] <;> omega

/-- `shl` by a small amount multiplies by `2^k`. -/
theorem shl_wp {a : DBIG} (h : Nrm a) {k : Nat} (hk : k < 58) (h60 : 0 ≤ a.hi.w6)
    (h6 : a.hi.w6 * 2 ^ k < 2 ^ 62) :
    Wp (shl a k) fun r => Nrm r ∧ r.val = a.val * 2 ^ k := by
  obtain ⟨⟨h0, h1, h2, h3, h4, h5⟩, h6', ⟨h7, h8, h9, h10, h11, h12⟩⟩ := h
  have hk' := hk.le
  refine Wp.of_eq (by rw [shl, if_pos hk]) ?_
  have e0 : and64 (shl64 a.lo.w0 k) BMASK = (a.lo.w0 * 2 ^ k) % 2 ^ 58 := by
    rw [BMASK_eq, shl64_mask (show 58 < 64 by norm_num)]
  rw [e0, BIG.fshlW_eq hk' h0.1 h0.2, BIG.fshlW_eq hk' h1.1 h1.2, BIG.fshlW_eq hk' h2.1 h2.2,
    BIG.fshlW_eq hk' h3.1 h3.2, BIG.fshlW_eq hk' h4.1 h4.2, BIG.fshlW_eq hk' h5.1 h5.2,
    BIG.fshlW_eq hk' h6'.1 h6'.2, BIG.fshlW_eq hk' h7.1 h7.2, BIG.fshlW_eq hk' h8.1 h8.2,
    BIG.fshlW_eq hk' h9.1 h9.2, BIG.fshlW_eq hk' h10.1 h10.2, BIG.fshlW_eq hk' h11.1 h11.2]
  have e : (2:Int) ^ 58 = 2 ^ k * 2 ^ (58 - k) := by rw [← pow_add]; congr 1; omega
  have hk2 : (2:Int) ^ k ≤ 2 ^ 58 := pow_le_pow_right₀ (by norm_num) hk'
  have hq : a.hi.w5 / 2 ^ (58 - k) < 2 ^ k := by
    apply Int.ediv_lt_of_lt_mul (by positivity); rw [← e]; exact h12.2
  have hp6 : 0 ≤ a.hi.w6 * 2 ^ k := by positivity
  have e6 : or64 (shl64 a.hi.w6 k) (sar a.hi.w5 (58 - k)) = a.hi.w6 * 2 ^ k + a.hi.w5 / 2 ^ (58 - k) := by
    rw [shl64_eq (by linarith) (by linarith), sar_eq]
    exact or64_add hp6 (Int.ediv_nonneg h12.1 (by positivity)) hq (dvd_mul_left _ _) (by linarith)
  rw [e6]
  have d0 := BIG.fshl_digit hk' a.lo.w0 0 (le_refl _) (by norm_num)
  have d1 := BIG.fshl_digit hk' a.lo.w1 a.lo.w0 h0.1 h0.2
  have d2 := BIG.fshl_digit hk' a.lo.w2 a.lo.w1 h1.1 h1.2
  have d3 := BIG.fshl_digit hk' a.lo.w3 a.lo.w2 h2.1 h2.2
  have d4 := BIG.fshl_digit hk' a.lo.w4 a.lo.w3 h3.1 h3.2
  have d5 := BIG.fshl_digit hk' a.lo.w5 a.lo.w4 h4.1 h4.2
  have d6 := BIG.fshl_digit hk' a.lo.w6 a.lo.w5 h5.1 h5.2
  have d7 := BIG.fshl_digit hk' a.hi.w0 a.lo.w6 h6'.1 h6'.2
  have d8 := BIG.fshl_digit hk' a.hi.w1 a.hi.w0 h7.1 h7.2
  have d9 := BIG.fshl_digit hk' a.hi.w2 a.hi.w1 h8.1 h8.2
  have d10 := BIG.fshl_digit hk' a.hi.w3 a.hi.w2 h9.1 h9.2
  have d11 := BIG.fshl_digit hk' a.hi.w4 a.hi.w3 h10.1 h10.2
  have d12 := BIG.fshl_digit hk' a.hi.w5 a.hi.w4 h11.1 h11.2
  simp only [Int.zero_ediv, add_zero] at d0
  refine ⟨⟨⟨⟨d0.1, d0.2.1⟩, ⟨d1.1, d1.2.1⟩, ⟨d2.1, d2.2.1⟩, ⟨d3.1, d3.2.1⟩, ⟨d4.1, d4.2.1⟩,
    ⟨d5.1, d5.2.1⟩⟩, ⟨d6.1, d6.2.1⟩, ⟨⟨d7.1, d7.2.1⟩, ⟨d8.1, d8.2.1⟩, ⟨d9.1, d9.2.1⟩,
    ⟨d10.1, d10.2.1⟩, ⟨d11.1, d11.2.1⟩, ⟨d12.1, d12.2.1⟩⟩⟩, ?_⟩
  simp only [val, BIG.val]
  rw [d0.2.2, d1.2.2, d2.2.2, d3.2.2, d4.2.2, d5.2.2, d6.2.2, d7.2.2, d8.2.2, d9.2.2, d10.2.2,
    d11.2.2, d12.2.2]
  ring

/-- `shr` by a small amount divides by `2^k`, rounding down. -/
theorem shr_wp {a : DBIG} (h : Nrm a) {k : Nat} (hk : k < 58) :
    Wp (shr a k) fun r => Nrm r ∧ r.val = a.val / 2 ^ k := by
  obtain ⟨⟨h0, h1, h2, h3, h4, h5⟩, h6', ⟨h7, h8, h9, h10, h11, h12⟩⟩ := h
  have hk' := hk.le
  refine Wp.of_eq (by rw [shr, if_pos hk]) ?_
  rw [BIG.fshrW_eq hk' h0.1 h0.2, BIG.fshrW_eq hk' h1.1 h1.2, BIG.fshrW_eq hk' h2.1 h2.2,
    BIG.fshrW_eq hk' h3.1 h3.2, BIG.fshrW_eq hk' h4.1 h4.2, BIG.fshrW_eq hk' h5.1 h5.2,
    BIG.fshrW_eq hk' h6'.1 h6'.2, BIG.fshrW_eq hk' h7.1 h7.2, BIG.fshrW_eq hk' h8.1 h8.2,
    BIG.fshrW_eq hk' h9.1 h9.2, BIG.fshrW_eq hk' h10.1 h10.2, BIG.fshrW_eq hk' h11.1 h11.2,
    BIG.fshrW_eq hk' h12.1 h12.2]
  have e : (2:Int) ^ 58 = 2 ^ k * 2 ^ (58 - k) := by rw [← pow_add]; congr 1; omega
  have d0 := BIG.fshl_digit (k := 58 - k) (by omega) a.lo.w1 a.lo.w0 h0.1 h0.2
  have d1 := BIG.fshl_digit (k := 58 - k) (by omega) a.lo.w2 a.lo.w1 h1.1 h1.2
  have d2 := BIG.fshl_digit (k := 58 - k) (by omega) a.lo.w3 a.lo.w2 h2.1 h2.2
  have d3 := BIG.fshl_digit (k := 58 - k) (by omega) a.lo.w4 a.lo.w3 h3.1 h3.2
  have d4 := BIG.fshl_digit (k := 58 - k) (by omega) a.lo.w5 a.lo.w4 h4.1 h4.2
  have d5 := BIG.fshl_digit (k := 58 - k) (by omega) a.lo.w6 a.lo.w5 h5.1 h5.2
  have d6 := BIG.fshl_digit (k := 58 - k) (by omega) a.hi.w0 a.lo.w6 h6'.1 h6'.2
  have d7 := BIG.fshl_digit (k := 58 - k) (by omega) a.hi.w1 a.hi.w0 h7.1 h7.2
  have d8 := BIG.fshl_digit (k := 58 - k) (by omega) a.hi.w2 a.hi.w1 h8.1 h8.2
  have d9 := BIG.fshl_digit (k := 58 - k) (by omega) a.hi.w3 a.hi.w2 h9.1 h9.2
  have d10 := BIG.fshl_digit (k := 58 - k) (by omega) a.hi.w4 a.hi.w3 h10.1 h10.2
  have d11 := BIG.fshl_digit (k := 58 - k) (by omega) a.hi.w5 a.hi.w4 h11.1 h11.2
  have d12 := BIG.fshl_digit (k := 58 - k) (by omega) a.hi.w6 a.hi.w5 h12.1 h12.2
  simp only [show 58 - (58 - k) = k by omega] at d0 d1 d2 d3 d4 d5 d6 d7 d8 d9 d10 d11 d12
  refine ⟨⟨?_, ?_, ?_⟩, ?_⟩
  · constructor <;> simp only <;> rw [add_comm]
    exacts [⟨d0.1, d0.2.1⟩, ⟨d1.1, d1.2.1⟩, ⟨d2.1, d2.2.1⟩, ⟨d3.1, d3.2.1⟩, ⟨d4.1, d4.2.1⟩,
      ⟨d5.1, d5.2.1⟩]
  · simp only; rw [add_comm]; exact ⟨d6.1, d6.2.1⟩
  · constructor <;> simp only <;> rw [add_comm]
    exacts [⟨d7.1, d7.2.1⟩, ⟨d8.1, d8.2.1⟩, ⟨d9.1, d9.2.1⟩, ⟨d10.1, d10.2.1⟩, ⟨d11.1, d11.2.1⟩,
      ⟨d12.1, d12.2.1⟩]
  · simp only [val, BIG.val, sar_eq]
    rw [d0.2.2, d1.2.2, d2.2.2, d3.2.2, d4.2.2, d5.2.2, d6.2.2, d7.2.2, d8.2.2, d9.2.2, d10.2.2,
      d11.2.2, d12.2.2]
    symm
    have hr := Int.emod_add_mul_ediv a.lo.w0 (2 ^ k)
    have key : a.lo.w0 + a.lo.w1 * 2 ^ 58 + a.lo.w2 * 2 ^ 116 + a.lo.w3 * 2 ^ 174
        + a.lo.w4 * 2 ^ 232 + a.lo.w5 * 2 ^ 290 + a.lo.w6 * 2 ^ 348 + (a.hi.w0
        + a.hi.w1 * 2 ^ 58 + a.hi.w2 * 2 ^ 116 + a.hi.w3 * 2 ^ 174 + a.hi.w4 * 2 ^ 232
        + a.hi.w5 * 2 ^ 290 + a.hi.w6 * 2 ^ 348) * 2 ^ 406
        = a.lo.w0 % 2 ^ k + 2 ^ k * (a.lo.w0 / 2 ^ k +
        (a.lo.w1 + a.lo.w2 * 2 ^ 58 + a.lo.w3 * 2 ^ 116 + a.lo.w4 * 2 ^ 174 + a.lo.w5 * 2 ^ 232
        + a.lo.w6 * 2 ^ 290 + (a.hi.w0
        + a.hi.w1 * 2 ^ 58 + a.hi.w2 * 2 ^ 116 + a.hi.w3 * 2 ^ 174 + a.hi.w4 * 2 ^ 232
        + a.hi.w5 * 2 ^ 290 + a.hi.w6 * 2 ^ 348) * 2 ^ 348) * 2 ^ (58 - k)) := by
      linear_combination (-1) * hr + (a.lo.w1 + a.lo.w2 * 2 ^ 58 + a.lo.w3 * 2 ^ 116
        + a.lo.w4 * 2 ^ 174 + a.lo.w5 * 2 ^ 232 + a.lo.w6 * 2 ^ 290 + (a.hi.w0
        + a.hi.w1 * 2 ^ 58 + a.hi.w2 * 2 ^ 116 + a.hi.w3 * 2 ^ 174 + a.hi.w4 * 2 ^ 232
        + a.hi.w5 * 2 ^ 290 + a.hi.w6 * 2 ^ 348) * 2 ^ 348) * e
    rw [key, Int.add_mul_ediv_left _ _ (by positivity),
      Int.ediv_eq_zero_of_lt (Int.emod_nonneg _ (by positivity)) (Int.emod_lt_of_pos _ (by positivity))]
    ring

theorem cmove_eq {a g : DBIG} (ha : Lim a (2 ^ 62)) (hg : Lim g (2 ^ 62)) {d : Int}
    (hd : d = 0 ∨ d = 1) : cmove a g d = if d = 0 then a else g := by
  rw [cmove, BIG.cmove_eq ha.lo hg.lo hd, BIG.cmove_eq ha.hi hg.hi hd]
  split <;> rfl

theorem Nrm.top {d : DBIG} (h : Nrm d) : d.hi.w6 = d.val / 2 ^ 754 := by
  rw [h.hi.w6_eq, h.hiVal, Int.ediv_ediv_of_nonneg (by norm_num), ← pow_add]

theorem dmodUp_wp {s : DBIG} {n : Int} (hs : Nrm s) (hs1 : s.val < 2 ^ 814) (j : Nat) :
    ∀ (m : DBIG) (k : Nat), Nrm m → m.val = n * 2 ^ k → 0 < m.val → m.val ≤ s.val →
      s.val < m.val * 2 ^ j →
      Wp (dmodUp s m k) fun r => Nrm r.1 ∧ r.1.val = n * 2 ^ r.2 ∧ s.val < r.1.val ∧
        r.1.val ≤ 2 * s.val := by
  induction j with
  | zero => intro m k _ _ _ h1 h2; simp at h2; omega
  | succ j ih =>
    intro m k hm hv h0 h1 h2
    rw [dmodUp]
    have ht := hm.top
    refine Wp.bind (shl_wp hm (by norm_num) (by omega) (by omega)) ?_
    rintro m' ⟨hm', hv'⟩
    have hv2 : m'.val = n * 2 ^ (k + 1) := by rw [hv', hv]; ring
    split
    · next h =>
      rw [comp_lt hs hm'] at h
      exact Wp.ret ⟨hm', hv2, h, by show m'.val ≤ _; rw [hv']; omega⟩
    · next h =>
      rw [comp_lt hs hm'] at h
      refine ih m' (k + 1) hm' hv2 (by omega) (by omega) ?_
      calc s.val < m.val * 2 ^ (j + 1) := h2
        _ = m'.val * 2 ^ j := by rw [hv']; ring

theorem dmodDown_wp {n : Int} (hn : 0 < n) (k : Nat) : ∀ (s m : DBIG), Nrm s → 0 ≤ s.val →
    s.val < m.val → s.val < 2 ^ 814 → Nrm m → m.val = n * 2 ^ k → m.val ≤ 2 ^ 815 →
    Wp (dmodDown k s m) fun r => Nrm r ∧ r.val = s.val % n := by
  induction k with
  | zero =>
    intro s m hs h0 h1 _ _ hv _
    exact Wp.pure ⟨hs, by rw [Int.emod_eq_of_lt h0 (by rw [hv] at h1; simpa using h1)]⟩
  | succ k ih =>
    intro s m hs h0 h1 h2 hm hv h3
    rw [dmodDown]
    refine Wp.bind (shr_wp hm (by norm_num)) ?_
    rintro m' ⟨hm', hv'⟩
    have hv2 : m'.val = n * 2 ^ k := by
      rw [hv', hv, pow_succ, ← mul_assoc, pow_one, Int.mul_ediv_cancel _ (by norm_num)]
    have hmm : m.val = 2 * m'.val := by rw [hv, hv2]; ring
    have hp : 0 < m'.val := by rw [hv2]; positivity
    have ls := hs.lim h0 (B := 2 ^ 60) (by omega) (by norm_num)
    have lm := hm'.lim hp.le (B := 2 ^ 61) (by omega) (by norm_num)
    refine Wp.bind (sub_wp ls lm (by norm_num)) ?_
    rintro r ⟨lr, vr⟩
    refine Wp.bind (norm_wp (lr.mono (by norm_num))) ?_
    rintro r' ⟨nr, vr'⟩
    have htop := nr.top
    have ht : -2 ^ 62 ≤ r'.hi.w6 ∧ r'.hi.w6 ≤ 2 ^ 62 := by rw [htop]; constructor <;> omega
    refine Wp.bind (Wp.of_eq (BIG.signBit ht.1 ht.2) rfl) ?_
    rintro _ rfl
    have hlo := nr.loVal
    have lr' : Lim r' (2 ^ 62) := ⟨(nr.lo.lim58 hlo.1 hlo.2).mono (by norm_num), nr.hi.lim63 ht⟩
    rw [cmove_eq (ls.mono (by norm_num)) lr' (by split <;> simp)]
    by_cases hneg : r'.hi.w6 < 0
    · rw [if_pos hneg, if_pos rfl]
      exact ih s m' hs h0 (by omega) h2 hm' hv2 (by omega)
    · rw [if_neg hneg, if_neg (by norm_num)]
      refine (ih r' m' nr (by omega) (by omega) (by omega) hm' hv2 (by omega)).mono ?_
      rintro a ⟨ha, va⟩
      refine ⟨ha, ?_⟩
      rw [va, vr', vr, hv2]
      exact Int.sub_mul_emod_self_left _ _ _

theorem dmod_wp {s : DBIG} {n : BIG} (hs : Lim s (2 ^ 62)) (h0 : 0 ≤ s.val) (h1 : s.val < 2 ^ 814)
    (hn : n.Nrm) (hn0 : 0 < n.val) (hn1 : n.val < 2 ^ 406) :
    Wp (dmod s n) fun r => r.Nrm ∧ r.val = s.val % n.val := by
  unfold dmod
  refine Wp.bind (norm_wp hs) ?_
  rintro s' ⟨ns, vs⟩
  rw [← vs] at h0 h1 ⊢
  have ht := hn.top (B := 2 ^ 58) hn0.le (by omega)
  obtain ⟨nm, vm, _⟩ := new_scopy_spec hn (by omega)
  dsimp only
  have small : ∀ d : DBIG, Nrm d → d.val = s'.val % n.val → d.lo.Nrm ∧ d.lo.val = s'.val % n.val := by
    intro d hd hv
    refine ⟨hd.lo, ?_⟩
    rw [hd.loEq, hv]
    have a1 := Int.emod_nonneg s'.val hn0.ne'
    have a2 := Int.emod_lt_of_pos s'.val hn0
    exact Int.emod_eq_of_lt a1 (by omega)
  split
  · next h =>
    rw [comp_lt ns nm, vm] at h
    exact Wp.ret (small s' ns (Int.emod_eq_of_lt h0 h).symm)
  · next h =>
    rw [comp_lt ns nm, vm] at h
    refine Wp.bind (dmodUp_wp (n := n.val) ns h1 814 _ 0 nm (by simp [vm]) (by omega) (by omega) ?_) ?_
    · have : (1:Int) ≤ n.val := hn0
      rw [vm]; nlinarith
    · rintro ⟨m, k⟩ ⟨nm, vm, hlt, hle⟩
      simp only at nm vm hlt hle
      refine Wp.bind (dmodDown_wp hn0 k s' m ns h0 hlt h1 nm vm (by omega)) ?_
      rintro d ⟨nd, vd⟩
      exact Wp.ret (small d nd vd)

end DBIG
end Amcl
