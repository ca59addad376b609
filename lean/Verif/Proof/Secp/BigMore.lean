import Verif.Proof.Secp.BigMul
import Verif.Spec.Bytes
import Mathlib.Data.Nat.Size
/-!
# Reduction, bit and byte access of `BIG`; `DBIG` operations
-/

set_option exponentiation.threshold 2000

namespace Amcl.Secp
namespace BIG

/-! ### rmod -/

theorem rmodUp_wp {s : BIG} {n : Int} (hs : Nrm s) (hs1 : s.val < 2 ^ 282) (j : Nat) :
    ∀ (m : BIG) (k : Nat), Nrm m → m.val = n * 2 ^ k → 0 < m.val → m.val ≤ s.val →
      s.val < m.val * 2 ^ j →
      Wp (rmodUp s m k) fun r => Nrm r.1 ∧ r.1.val = n * 2 ^ r.2 ∧ s.val < r.1.val ∧
        r.1.val ≤ 2 * s.val := by
  induction j with
  | zero => intro m k _ _ _ h1 h2; simp at h2; omega
  | succ j ih =>
    intro m k hm hv h0 h1 h2
    rw [rmodUp]
    have ht := hm.top h0.le (B := 2 ^ 60) (by omega)
    refine Wp.bind (fshl_wp hm (by norm_num) ht.1 (by omega)) ?_
    rintro m' ⟨hm', hv'⟩
    have hv2 : m'.val = n * 2 ^ (k + 1) := by rw [hv', hv]; ring
    split
    · next h =>
      rw [comp_lt hs hm'] at h
      exact Wp.ret ⟨hm', hv2, h, by show m'.val ≤ _; rw [hv']; omega⟩
    · next h =>
      rw [comp_lt hs hm'] at h
      refine ih m' (k + 1) hm' hv2 (by omega) (by omega) ?_
      calc s.val < m.val * 2 ^ (j + 1) := h2
        _ = m'.val * 2 ^ j := by rw [hv']; ring

theorem signBit {w : Int} (h1 : -2 ^ 62 ≤ w) (h2 : w ≤ 2 ^ 62) :
    sub64 1 (and64 (sar w 63) 1) = some (if w < 0 then 0 else 1) := by
  have e : and64 (sar w 63) 1 = (w / 2 ^ 63) % 2 := by
    have := and64_mask (show 1 < 64 by norm_num) (w / 2 ^ 63)
    simpa [sar_eq] using this
  rw [e]
  split
  · rw [show w / 2 ^ 63 % 2 = 1 by omega]; rfl
  · rw [show w / 2 ^ 63 % 2 = 0 by omega]; rfl

theorem Nrm.neg_iff {a : BIG} (h : Nrm a) : a.w4 < 0 ↔ a.val < 0 := by
  rw [h.w4_eq]; constructor <;> intro _ <;> omega

theorem rmodDown_wp {n : Int} (hn : 0 < n) (k : Nat) : ∀ (s m : BIG), Nrm s → 0 ≤ s.val →
    s.val < m.val → s.val < 2 ^ 282 → Nrm m → m.val = n * 2 ^ k → m.val ≤ 2 ^ 283 →
    Wp (rmodDown k s m) fun r => Nrm r ∧ r.val = s.val % n := by
  induction k with
  | zero =>
    intro s m hs h0 h1 _ _ hv _
    exact Wp.pure ⟨hs, by rw [Int.emod_eq_of_lt h0 (by rw [hv] at h1; simpa using h1)]⟩
  | succ k ih =>
    intro s m hs h0 h1 h2 hm hv h3
    rw [rmodDown]
    refine Wp.bind (fshr_wp hm (by norm_num)) ?_
    rintro m' ⟨hm', hv'⟩
    have hv2 : m'.val = n * 2 ^ k := by
      rw [hv', hv, pow_succ, ← mul_assoc, pow_one, Int.mul_ediv_cancel _ (by norm_num)]
    have hmm : m.val = 2 * m'.val := by rw [hv, hv2]; ring
    have hp : 0 < m'.val := by rw [hv2]; positivity
    have ls := hs.lim h0 (B := 2 ^ 60) (by omega) (by norm_num)
    have lm := hm'.lim hp.le (B := 2 ^ 61) (by omega) (by norm_num)
    refine Wp.bind (sub_wp ls lm (by norm_num)) ?_
    rintro r ⟨lr, vr⟩
    refine Wp.bind (norm_wp (lr.mono (by norm_num))) ?_
    rintro r' ⟨nr, vr'⟩
    have ht : -2 ^ 62 ≤ r'.w4 ∧ r'.w4 ≤ 2 ^ 62 := by rw [nr.w4_eq]; constructor <;> omega
    refine Wp.bind (Wp.of_eq (signBit ht.1 ht.2) rfl) ?_
    rintro _ rfl
    have lr' : Lim r' (2 ^ 62) := nr.lim63 ht
    rw [cmove_eq (ls.mono (by norm_num)) lr' (by split <;> simp)]
    by_cases hneg : r'.w4 < 0
    · rw [if_pos hneg, if_pos rfl]
      rw [nr.neg_iff] at hneg
      exact ih s m' hs h0 (by omega) h2 hm' hv2 (by omega)
    · rw [if_neg hneg, if_neg (by norm_num)]
      rw [nr.neg_iff] at hneg
      refine (ih r' m' nr (by omega) (by omega) (by omega) hm' hv2 (by omega)).mono ?_
      rintro a ⟨ha, va⟩
      refine ⟨ha, ?_⟩
      rw [va, vr', vr, hv2]
      exact Int.sub_mul_emod_self_left _ _ _

theorem rmod_wp {s n : BIG} (hs : Lim s (2 ^ 62)) (h0 : 0 ≤ s.val) (h1 : s.val < 2 ^ 282)
    (hn : Nrm n) (hn0 : 0 < n.val) : Wp (rmod s n) fun r => Nrm r ∧ r.val = s.val % n.val := by
  unfold rmod
  refine Wp.bind (norm_wp hs) ?_
  rintro s' ⟨ns, vs⟩
  rw [← vs] at h0 h1 ⊢
  dsimp only
  split
  · next h =>
    rw [comp_lt ns hn] at h
    exact Wp.ret ⟨ns, (Int.emod_eq_of_lt h0 h).symm⟩
  · next h =>
    rw [comp_lt ns hn] at h
    refine Wp.bind (rmodUp_wp (n := n.val) ns h1 282 n 0 hn (by simp) hn0 (by omega) ?_) ?_
    · have : (1:Int) ≤ n.val := hn0
      nlinarith
    · rintro ⟨m, k⟩ ⟨nm, vm, hlt, hle⟩
      simp only at nm vm hlt hle
      exact rmodDown_wp hn0 k s' m ns h0 hlt h1 nm vm (by omega)

/-! ### Bits -/

theorem bitLen_eq (n : Nat) : ∀ c : Int, 0 ≤ c → c < 2 ^ n → bitLen n c = Nat.size c.toNat := by
  induction n with
  | zero => intro c h0 h1; simp at h1; have : c = 0 := by omega
            subst this; rfl
  | succ n ih =>
    intro c h0 h1
    rw [bitLen]
    split
    · next h => subst h; rfl
    · next h =>
      rw [Int.tdiv_eq_ediv_of_nonneg h0, ih _ (by omega) (by rw [pow_succ] at h1; omega)]
      have hc : c.toNat = Nat.bit (c.toNat % 2 == 1) (c / 2).toNat := by
        rw [Nat.bit_val]; rcases Nat.mod_two_eq_zero_or_one c.toNat with e | e <;> simp [e] <;> omega
      have h3 := Nat.size_bit (b := (c.toNat % 2 == 1)) (n := (c / 2).toNat) (by rw [← hc]; omega)
      rw [← hc] at h3
      rw [h3]

theorem size_of_bounds {v k : Nat} (h : ∀ j, k ≤ j ↔ v < 2 ^ j) : k = v.size := by
  apply le_antisymm
  · rw [h]; exact Nat.lt_size_self _
  · rw [Nat.size_le, ← h]

theorem size_top {q a : Nat} {k : Nat} (hq : q < 2 ^ k) (ha : a ≠ 0) :
    k + a.size = Nat.size (q + a * 2 ^ k) := by
  apply size_of_bounds
  intro j
  have hs := fun i => Nat.size_le (m := a) (n := i)
  constructor
  · intro h
    have h1 : a.size ≤ j - k := by omega
    rw [hs] at h1
    have h2 : 2 ^ j = 2 ^ (j - k) * 2 ^ k := by rw [← pow_add]; congr 1; omega
    rw [h2]
    calc q + a * 2 ^ k < 2 ^ k + a * 2 ^ k := by omega
      _ = (a + 1) * 2 ^ k := by ring
      _ ≤ _ := Nat.mul_le_mul_right _ h1
  · intro h
    have hk : k ≤ j := by
      by_contra hc
      have h3 : 2 ^ j ≤ 2 ^ k := Nat.pow_le_pow_right (by norm_num) (by omega)
      have h4 : 2 ^ k ≤ a * 2 ^ k := Nat.le_mul_of_pos_left _ (Nat.pos_of_ne_zero ha)
      omega
    have h2 : 2 ^ j = 2 ^ (j - k) * 2 ^ k := by rw [← pow_add]; congr 1; omega
    rw [h2] at h
    have h1 : a < 2 ^ (j - k) := by
      by_contra hc
      have := Nat.mul_le_mul_right (2 ^ k) (Nat.not_lt.1 hc)
      omega
    rw [← hs] at h1
    omega

theorem nbits_wp {a : BIG} (ha : Lim a (2 ^ 62)) (h0 : 0 ≤ a.val) :
    Wp (nbits a) fun n => n = Nat.size a.val.toNat := by
  unfold nbits
  refine Wp.bind (norm_wp ha) ?_
  rintro s ⟨ns, vs⟩
  rw [← vs] at h0 ⊢
  have h6 : 0 ≤ s.w4 := by by_contra h; rw [not_le, ns.neg_iff] at h; omega
  have t6 : s.w4 < 2 ^ 64 := by
    have := ns.w4_eq
    obtain ⟨l0, l1, l2, l3, l4⟩ := ha
    have : a.val < 2 ^ 288 := by simp only [val]; omega
    omega
  obtain ⟨n0, n1, n2, n3⟩ := ns
  have fin : ∀ (i : Nat) (w q : Int), w ≠ 0 → 0 ≤ w → w < 2 ^ 64 → 0 ≤ q → q < 2 ^ (56 * i) →
      s.val = q + w * 2 ^ (56 * i) → 56 * i + bitLen 64 w = Nat.size s.val.toNat := by
    intro i w q hw w0 w1 q0 q1 e
    rw [bitLen_eq 64 w w0 w1]
    have e2 : s.val.toNat = q.toNat + w.toNat * 2 ^ (56 * i) := by
      rw [← Int.toNat_of_nonneg w0, ← Int.toNat_of_nonneg q0] at e
      have e3 : s.val = ((q.toNat + w.toNat * 2 ^ (56 * i) : Nat) : Int) := by rw [e]; push_cast; rfl
      rw [e3]; exact Int.toNat_natCast _
    rw [e2]
    refine size_top ?_ (by omega)
    have : ((q.toNat : Nat) : Int) < ((2 ^ (56 * i) : Nat) : Int) := by
      rw [Int.toNat_of_nonneg q0]; push_cast; exact q1
    exact_mod_cast this
  simp only [val] at fin ⊢
  split
  · exact Wp.ret (fin 4 _ (s.w0 + s.w1 * 2 ^ 56 + s.w2 * 2 ^ 112 + s.w3 * 2 ^ 168) ‹_› (by omega) (by omega) (by omega) (by omega) (by omega))
  split
  · exact Wp.ret (fin 3 _ (s.w0 + s.w1 * 2 ^ 56 + s.w2 * 2 ^ 112)
      ‹_› (by omega) (by omega) (by omega) (by omega) (by omega))
  split
  · exact Wp.ret (fin 2 _ (s.w0 + s.w1 * 2 ^ 56)
      ‹_› (by omega) (by omega) (by omega) (by omega) (by omega))
  split
  · exact Wp.ret (fin 1 _ s.w0 ‹_› (by omega) (by omega) (by omega) (by omega) (by omega))
  split
  · have := fin 0 s.w0 0 ‹_› (by omega) (by omega) (by omega) (by omega) (by omega)
    rw [mul_zero, zero_add] at this
    exact Wp.ret this
  · refine Wp.ret ?_
    simp only [not_not] at *
    simp [*]

theorem lastbits_wp {a : BIG} (ha : Lim a (2 ^ 62)) {n : Nat} (hn : n < 56) :
    Wp (lastbits a n) fun r => r.1 = a.val % 2 ^ n ∧ Nrm r.2 ∧ r.2.val = a.val := by
  unfold lastbits
  refine Wp.bind (norm_wp ha) ?_
  rintro s ⟨ns, vs⟩
  refine Wp.ret ⟨?_, ns, vs⟩
  have hp : (2:Int) ^ n ≤ 2 ^ 56 := pow_le_pow_right₀ (by norm_num) hn.le
  have hp0 : (0:Int) < 2 ^ n := by positivity
  rw [shl64_eq (by linarith) (by linarith), one_mul, and64_mask (by omega), ← vs]
  have d : (2:Int) ^ n ∣ 2 ^ 56 := pow_dvd_pow 2 hn.le
  obtain ⟨c, hc⟩ := d
  simp only [val]
  have e : s.w0 + s.w1 * 2 ^ 56 + s.w2 * 2 ^ 112 + s.w3 * 2 ^ 168 + s.w4 * 2 ^ 224
      = s.w0 + 2 ^ n * (c * (s.w1 + s.w2 * 2 ^ 56 + s.w3 * 2 ^ 112 + s.w4 * 2 ^ 168)) := by
    linear_combination (s.w1 + s.w2 * 2 ^ 56 + s.w3 * 2 ^ 112 + s.w4 * 2 ^ 168) * hc
  rw [e, Int.add_mul_emod_self_left]

theorem inc_wp {a : BIG} {x : Int} (ha : Lim a (2 ^ 62)) (hx : Bd (2 ^ 61) x) :
    Wp (inc a x) fun r => r.val = a.val + x ∧ Lim r (2 ^ 62 + 2 ^ 60) ∧
      (Nrm a → 0 ≤ a.w0 + x → a.w0 + x < 2 ^ 56 → Nrm r) := by
  unfold inc
  have ha' := ha
  refine Wp.bind (norm_wp ha) ?_
  rintro s ⟨ns, vs⟩
  have ns' := ns
  have e6 := ns.w4_eq
  obtain ⟨n0, n1, n2, n3⟩ := ns
  obtain ⟨l0, l1, l2, l3, l4⟩ := ha
  have t6 : -2 ^ 62 - 2 ^ 60 ≤ s.w4 ∧ s.w4 ≤ 2 ^ 62 + 2 ^ 60 := by
    rw [e6, vs]; simp only [val]; constructor <;> omega
  refine Wp.bind (Wp.of_eq (add64_eq (by have := hx.1; omega) (by have := hx.2; omega)) rfl) ?_
  rintro _ rfl
  refine Wp.ret ⟨?_, ?_, ?_⟩
  · rw [← vs]; simp only [val]; ring
  · have := hx.1; have := hx.2
    constructor <;> simp only <;> omega
  · intro hN h1 h2
    have : s = a := ns'.ext hN vs
    subst this
    exact ⟨⟨h1, h2⟩, n1, n2, n3⟩

theorem dec_wp {a : BIG} {x : Int} (ha : Lim a (2 ^ 62)) (hx : Bd (2 ^ 61) x) :
    Wp (dec a x) fun r => r.val = a.val - x ∧ Lim r (2 ^ 62 + 2 ^ 60) ∧
      (Nrm a → 0 ≤ a.w0 - x → a.w0 - x < 2 ^ 56 → Nrm r) := by
  have := inc_wp (x := -x) ha ⟨by linarith [hx.2], by linarith [hx.1]⟩
  have e : dec a x = inc a (-x) := by
    unfold dec inc
    have : ∀ w, sub64 w x = add64 w (-x) := fun w => by rw [sub64, add64, Int.sub_eq_add_neg]
    simp only [this]
  rw [e]
  simpa only [Int.sub_eq_add_neg] using this

/-! ### pmul -/

theorem muladd_wp {a b c : Int} (ha : Bd (2 ^ 62) a) (hb : Bd (2 ^ 32) b) (hc : Bd (2 ^ 62) c) :
    muladd a b c 0 = some ((a * b + c) / 2 ^ 56, (a * b + c) % 2 ^ 56) ∧
      Bd (2 ^ 62) ((a * b + c) / 2 ^ 56) := by
  have h := ha.mul hb
  have h1 : Bd (2 ^ 95) (a * b + c) := ⟨by linarith [h.1, hc.1], by linarith [h.2, hc.2]⟩
  have h2 : Bd (2 ^ 62) ((a * b + c) / 2 ^ 56) := by
    have := h1.1; have := h1.2
    constructor <;> omega
  refine ⟨?_, h2⟩
  unfold muladd
  rw [i128_eq (by linarith [h.1]) (by linarith [h.2]), Option.bind_eq_bind, Option.bind_some,
    i128_eq (by linarith [h1.1]) (by linarith [h1.2]), Option.bind_some, add_zero,
    i128_eq (by linarith [h1.1]) (by linarith [h1.2]), Option.bind_some, BMASK_eq,
    and128_mask (by norm_num), sar_eq, as64_eq (by linarith [h2.1]) (by linarith [h2.2]), as64_eq]
  · rfl
  · omega
  · omega

/-- `pmul` is exact when the product is non-negative and below `2^280`. -/
theorem pmul_wp {a : BIG} {c : Int} (ha : Lim a (2 ^ 62)) (hc : Bd (2 ^ 32) c)
    (h0 : 0 ≤ a.val * c) (h1 : a.val * c < 2 ^ 280) :
    Wp (pmul a c) fun r => Nrm r ∧ r.val = a.val * c := by
  obtain ⟨a0, a1, a2, a3, a4⟩ := ha
  unfold pmul
  have e0 := muladd_wp a0 hc (c := 0) ⟨by norm_num, by norm_num⟩
  generalize hp0 : a.w0 * c = p0 at e0
  generalize hq0 : (p0 + 0) / 2 ^ 56 = q0 at e0
  generalize hd0 : (p0 + 0) % 2 ^ 56 = d0 at e0
  refine Wp.bind (Wp.of_eq e0.1 rfl) ?_
  rintro _ rfl
  have e1 := muladd_wp a1 hc e0.2
  generalize hp1 : a.w1 * c = p1 at e1
  generalize hq1 : (p1 + q0) / 2 ^ 56 = q1 at e1
  generalize hd1 : (p1 + q0) % 2 ^ 56 = d1 at e1
  refine Wp.bind (Wp.of_eq e1.1 rfl) ?_
  rintro _ rfl
  have e2 := muladd_wp a2 hc e1.2
  generalize hp2 : a.w2 * c = p2 at e2
  generalize hq2 : (p2 + q1) / 2 ^ 56 = q2 at e2
  generalize hd2 : (p2 + q1) % 2 ^ 56 = d2 at e2
  refine Wp.bind (Wp.of_eq e2.1 rfl) ?_
  rintro _ rfl
  have e3 := muladd_wp a3 hc e2.2
  generalize hp3 : a.w3 * c = p3 at e3
  generalize hq3 : (p3 + q2) / 2 ^ 56 = q3 at e3
  generalize hd3 : (p3 + q2) % 2 ^ 56 = d3 at e3
  refine Wp.bind (Wp.of_eq e3.1 rfl) ?_
  rintro _ rfl
  have e4 := muladd_wp a4 hc e3.2
  generalize hp4 : a.w4 * c = p4 at e4
  generalize hq4 : (p4 + q3) / 2 ^ 56 = q4 at e4
  generalize hd4 : (p4 + q3) % 2 ^ 56 = d4 at e4
  refine Wp.bind (Wp.of_eq e4.1 rfl) ?_
  rintro _ rfl
  have ev : a.val * c = p0 + p1 * 2 ^ 56 + p2 * 2 ^ 112 + p3 * 2 ^ 168 + p4 * 2 ^ 224 := by
    simp only [val, ← hp0, ← hp1, ← hp2, ← hp3, ← hp4]; ring
  rw [ev] at h0 h1 ⊢
  clear e0 e1 e2 e3 e4 hp0 hp1 hp2 hp3 hp4 ev
  have key : d0 + d1 * 2 ^ 56 + d2 * 2 ^ 112 + d3 * 2 ^ 168 + d4 * 2 ^ 224 + q4 * 2 ^ 280 = p0 + p1 * 2 ^ 56 + p2 * 2 ^ 112 + p3 * 2 ^ 168 + p4 * 2 ^ 224 := by omega
  refine Wp.ret ⟨⟨?_, ?_, ?_, ?_⟩, ?_⟩
  all_goals simp only [val]
  any_goals omega

/-! ### Bytes -/

theorem Nrm.w0_eq {a : BIG} (h : Nrm a) : a.w0 = a.val % 2 ^ 56 := by
  obtain ⟨h0, h1, h2, h3⟩ := h
  simp only [val]; omega

theorem pushByte_wp {m : BIG} (hm : Nrm m) (h0 : 0 ≤ m.val) (h1 : m.val < 2 ^ 264) (b : UInt8) :
    Wp (pushByte m b) fun r => Nrm r ∧ r.val = 256 * m.val + b.toNat := by
  unfold pushByte
  have ht := hm.top h0 (B := 2 ^ 40) (by omega)
  refine Wp.bind (fshl_wp hm (by norm_num) ht.1 (by omega)) ?_
  rintro s ⟨ns, vs⟩
  have hb := b.toNat_lt
  have e0 := ns.w0_eq
  refine Wp.bind (Wp.of_eq (add64_eq (by omega) (by omega)) rfl) ?_
  rintro _ rfl
  obtain ⟨n0, n1, n2, n3⟩ := ns
  refine Wp.ret ⟨⟨?_, n1, n2, n3⟩, ?_⟩
  · simp only; omega
  · simp only [val] at *; omega

theorem foldPush_wp (l : List UInt8) : ∀ (m : BIG) (p : List UInt8), Nrm m →
    m.val = Spec.beNat p → p.length + l.length ≤ 33 →
    Wp (l.foldlM pushByte m) fun r => Nrm r ∧ r.val = Spec.beNat (p ++ l) := by
  induction l with
  | nil => intro m p hm hv _; exact Wp.ret ⟨hm, by simpa using hv⟩
  | cons b l ih =>
    intro m p hm hv hl
    rw [List.length_cons] at hl
    rw [List.foldlM_cons]
    have hp := Spec.beNat_lt p
    have hp2 : 256 ^ p.length ≤ 256 ^ 33 := Nat.pow_le_pow_right (by norm_num) (by omega)
    have hp3 : m.val < 2 ^ 264 := by
      rw [hv]
      have : Spec.beNat p < 256 ^ 33 := by omega
      have : (Spec.beNat p : Int) < (256 ^ 33 : Nat) := by exact_mod_cast this
      norm_num at this ⊢
      omega
    refine Wp.bind (pushByte_wp hm (by rw [hv]; positivity) hp3 b) ?_
    rintro s ⟨ns, vs⟩
    have := ih s (p ++ [b]) ns (by rw [vs, hv, Spec.beNat_append_singleton]; push_cast; rfl)
      (by simp; omega)
    simpa using this

theorem frombytes_wp {b : List UInt8} (h : 32 ≤ b.length) :
    Wp (frombytes b) fun r => Nrm r ∧ r.val = Spec.beNat (b.take 32) := by
  unfold frombytes
  rw [if_neg (by omega)]
  have := foldPush_wp (b.take 32) new [] new_nrm (by rw [new_val]; rfl) (by simp)
  simpa using this

theorem tobytesLoop_wp (n : Nat) : ∀ (c : BIG) (acc : List UInt8), Nrm c → 0 ≤ c.val →
    tobytesLoop n c acc = some (Spec.toBE n c.val.toNat ++ acc) := by
  induction n with
  | zero => intro c acc _ _; rfl
  | succ n ih =>
    intro c acc hc h0
    rw [tobytesLoop]
    obtain ⟨c', e, nc, vc⟩ := fshr_wp hc (show 8 ≤ 56 by norm_num)
    rw [e, Option.bind_eq_bind, Option.bind_some, ih c' _ nc (by omega), vc, Spec.toBE]
    have e1 : and64 c.w0 255 = c.w0 % 256 := by
      have := and64_mask (show 8 < 64 by norm_num) c.w0
      norm_num at this; exact this
    have e2 : (c.w0 % 256).toNat = c.val.toNat % 256 := by
      rw [hc.w0_eq]; omega
    have e3 : (c.val / 2 ^ 8).toNat = c.val.toNat / 256 := by omega
    rw [e1, e2, e3, List.append_assoc]
    rfl

theorem tobytes_eq {a : BIG} (ha : Lim a (2 ^ 62)) (h0 : 0 ≤ a.val) :
    tobytes a = some (Spec.toBE 32 a.val.toNat) := by
  unfold tobytes
  obtain ⟨c, e, nc, vc⟩ := norm_wp ha
  rw [e, Option.bind_eq_bind, Option.bind_some, tobytesLoop_wp 32 c [] nc (by omega), vc,
    List.append_nil]

/-! ### Single bits -/

theorem and64_pow {w : Int} {m : Nat} (h0 : 0 ≤ w) (h1 : w < 2 ^ 56) (hm : m < 56) :
    and64 w (shl64 1 m) = if w / 2 ^ m % 2 = 1 then 2 ^ m else 0 := by
  have hp : (2:Int) ^ m ≤ 2 ^ 56 := pow_le_pow_right₀ (by norm_num) hm.le
  have hp0 : (0:Int) < 2 ^ m := by positivity
  have hpn : 2 ^ m ≤ 2 ^ 56 := Nat.pow_le_pow_right (by norm_num) hm.le
  rw [shl64_eq (by linarith) (by linarith), one_mul, and64]
  have e1 : BitVec.ofInt 64 (2 ^ m) = BitVec.twoPow 64 m := by
    apply BitVec.eq_of_toNat_eq
    rw [BitVec.toNat_twoPow]
    have := ofInt_toNat 64 (2 ^ m)
    rw [Int.emod_eq_of_lt hp0.le (by linarith)] at this
    rw [Nat.mod_eq_of_lt (by omega)]
    exact_mod_cast this
  rw [e1, BitVec.and_twoPow]
  have e2 : (BitVec.ofInt 64 w).toNat = w.toNat := by
    have := ofInt_toNat 64 w
    rw [Int.emod_eq_of_lt h0 (by linarith)] at this
    omega
  have e3 : (BitVec.ofInt 64 w).getLsbD m = decide (w / 2 ^ m % 2 = 1) := by
    rw [BitVec.getLsbD, e2, Nat.testBit_eq_decide_div_mod_eq]
    congr 1
    rw [eq_iff_iff]
    have : ((w.toNat / 2 ^ m % 2 : Nat) : Int) = w / 2 ^ m % 2 := by
      push_cast; rw [Int.toNat_of_nonneg h0]
    omega
  rw [e3]
  by_cases h : w / 2 ^ m % 2 = 1
  · simp only [h, decide_true, if_true]
    rw [← e1, toInt_ofInt (by norm_num) (by norm_num; linarith) (by norm_num; linarith)]
  · simp [h]

theorem bit_wp {a : BIG} (ha : Nrm a) (h0 : 0 ≤ a.val) (h1 : a.val < 2 ^ 280) {n : Nat}
    (hn : n < 280) : bit a n = some (a.val / 2 ^ n % 2) := by
  have h6 := ha.top h0 (B := 2 ^ 56) (by omega)
  obtain ⟨n0, n1, n2, n3⟩ := ha
  have hm : n % 56 < 56 := Nat.mod_lt _ (by norm_num)
  have fin : ∀ (i : Nat) (w lo hi : Int), 0 ≤ w → w < 2 ^ 56 → n / 56 = i → 0 ≤ lo → lo < 2 ^ (56 * i) →
      a.val = lo + w * 2 ^ (56 * i) + hi * 2 ^ (56 * i + 56) →
      (if and64 w (shl64 1 (n % 56)) > 0 then 1 else 0) = a.val / 2 ^ n % 2 := by
    intro i w lo hi w0 w1 hi' lo0 lo1 e
    rw [and64_pow w0 w1 hm]
    have en : n = 56 * i + n % 56 := by omega
    have e2 : a.val / 2 ^ n = w / 2 ^ (n % 56) + hi * 2 ^ (55 - n % 56) * 2 := by
      generalize n % 56 = m at *
      rw [en, pow_add, ← Int.ediv_ediv_of_nonneg (by positivity)]
      have e3 : a.val = lo + 2 ^ (56 * i) * (w + hi * 2 ^ 56) := by rw [e]; ring
      rw [e3, Int.add_mul_ediv_left _ _ (by positivity), Int.ediv_eq_zero_of_lt lo0 lo1, zero_add]
      have e4 : hi * 2 ^ 56 = 2 ^ m * (hi * 2 ^ (55 - m) * 2) := by
        have : (2:Int) ^ 56 = 2 ^ m * 2 ^ (55 - m) * 2 := by
          rw [← pow_add, ← pow_succ]; congr 1; omega
        rw [this]; ring
      rw [e4, Int.add_mul_ediv_left _ _ (by positivity)]
    have e5 : a.val / 2 ^ n % 2 = w / 2 ^ (n % 56) % 2 := by rw [e2]; omega
    rw [e5]
    have hp0 : (0:Int) < 2 ^ (n % 56) := by positivity
    by_cases h : w / 2 ^ (n % 56) % 2 = 1
    · rw [if_pos h, if_pos hp0, h]
    · rw [if_neg h, if_neg (by norm_num)]; omega
  unfold bit
  have hc : n / 56 = 0 ∨ n / 56 = 1 ∨ n / 56 = 2 ∨ n / 56 = 3 ∨ n / 56 = 4 := by
    omega
  rcases hc with h | h | h | h | h <;> rw [h] <;> simp only [get] <;>
    refine congrArg some ?_
  · exact fin 0 _ 0 (a.w1 + a.w2 * 2 ^ 56 + a.w3 * 2 ^ 112 + a.w4 * 2 ^ 168) n0.1 n0.2 h (by norm_num)
      (by norm_num) (by simp only [val]; omega)
  · exact fin 1 _ a.w0 (a.w2 + a.w3 * 2 ^ 56 + a.w4 * 2 ^ 112) n1.1 n1.2 h (by omega) (by omega)
      (by simp only [val]; ring)
  · exact fin 2 _ (a.w0 + a.w1 * 2 ^ 56) (a.w3 + a.w4 * 2 ^ 56) n2.1 n2.2 h (by omega) (by omega)
      (by simp only [val]; ring)
  · exact fin 3 _ (a.w0 + a.w1 * 2 ^ 56 + a.w2 * 2 ^ 112) a.w4 n3.1 n3.2 h (by omega) (by omega)
      (by simp only [val])
  · exact fin 4 _ (a.w0 + a.w1 * 2 ^ 56 + a.w2 * 2 ^ 112 + a.w3 * 2 ^ 168) 0 h6.1 h6.2 h (by omega)
      (by omega) (by simp only [val]; ring)

end BIG
end Amcl.Secp
