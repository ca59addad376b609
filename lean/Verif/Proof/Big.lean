import Verif.Proof.Machine
import Verif.Model.Big
/-!
# Correctness of the `BIG` operations
-/

set_option exponentiation.threshold 2000

namespace Amcl

theorem BMASK_eq : BMASK = 2 ^ 58 - 1 := by norm_num [BMASK]

namespace BIG

/-- The integer denoted by the limbs. -/
def val (a : BIG) : Int :=
  a.w0 + a.w1 * 2 ^ 58 + a.w2 * 2 ^ 116 + a.w3 * 2 ^ 174 + a.w4 * 2 ^ 232 + a.w5 * 2 ^ 290
    + a.w6 * 2 ^ 348

/-- Every limb is at most `B` in absolute value. -/
structure Lim (a : BIG) (B : Int) : Prop where
  l0 : -B ≤ a.w0 ∧ a.w0 ≤ B
  l1 : -B ≤ a.w1 ∧ a.w1 ≤ B
  l2 : -B ≤ a.w2 ∧ a.w2 ≤ B
  l3 : -B ≤ a.w3 ∧ a.w3 ≤ B
  l4 : -B ≤ a.w4 ∧ a.w4 ≤ B
  l5 : -B ≤ a.w5 ∧ a.w5 ≤ B
  l6 : -B ≤ a.w6 ∧ a.w6 ≤ B

/-- Normalised: limbs 0-5 are base-`2^58` digits. -/
structure Nrm (a : BIG) : Prop where
  n0 : 0 ≤ a.w0 ∧ a.w0 < 2 ^ 58
  n1 : 0 ≤ a.w1 ∧ a.w1 < 2 ^ 58
  n2 : 0 ≤ a.w2 ∧ a.w2 < 2 ^ 58
  n3 : 0 ≤ a.w3 ∧ a.w3 < 2 ^ 58
  n4 : 0 ≤ a.w4 ∧ a.w4 < 2 ^ 58
  n5 : 0 ≤ a.w5 ∧ a.w5 < 2 ^ 58

theorem Lim.mono {a : BIG} {B C : Int} (h : Lim a B) (hBC : B ≤ C) : Lim a C := by
  obtain ⟨h0, h1, h2, h3, h4, h5, h6⟩ := h
  constructor <;> omega

theorem Nrm.w6_eq {a : BIG} (h : Nrm a) : a.w6 = a.val / 2 ^ 348 := by
  obtain ⟨h0, h1, h2, h3, h4, h5⟩ := h
  simp only [val]; omega

/-- A normalised non-negative number below `2^(348+k)` has top limb below `2^k`. -/
theorem Nrm.lim {a : BIG} (h : Nrm a) {B : Int} (h0 : 0 ≤ a.val) (h1 : a.val < B * 2 ^ 348)
    (hB : 2 ^ 58 ≤ B) : Lim a B := by
  have e := h.w6_eq
  have e1 : 0 ≤ a.w6 := by rw [e]; exact Int.ediv_nonneg h0 (by norm_num)
  have e2 : a.w6 < B := by rw [e]; exact Int.ediv_lt_of_lt_mul (by norm_num) h1
  obtain ⟨h0, h1, h2, h3, h4, h5⟩ := h
  constructor <;> omega

theorem Nrm.top {a : BIG} (h : Nrm a) {B : Int} (h0 : 0 ≤ a.val) (h1 : a.val < B * 2 ^ 348) :
    0 ≤ a.w6 ∧ a.w6 < B := by
  have e := h.w6_eq
  exact ⟨by rw [e]; exact Int.ediv_nonneg h0 (by norm_num),
    by rw [e]; exact Int.ediv_lt_of_lt_mul (by norm_num) h1⟩

/-- Normalised representations are unique. -/
theorem Nrm.ext {a b : BIG} (ha : Nrm a) (hb : Nrm b) (h : a.val = b.val) : a = b := by
  have e6 : a.w6 = b.w6 := by rw [ha.w6_eq, hb.w6_eq, h]
  obtain ⟨h0, h1, h2, h3, h4, h5⟩ := ha
  obtain ⟨g0, g1, g2, g3, g4, g5⟩ := hb
  simp only [val] at h
  ext <;> omega

theorem normStep_eq {w c : Int} (h1 : -2 ^ 63 ≤ w + c) (h2 : w + c < 2 ^ 63) :
    normStep w c = some ((w + c) % 2 ^ 58, (w + c) / 2 ^ 58) := by
  simp only [normStep, add64_eq h1 h2, BMASK_eq, and64_mask (show 58 < 64 by norm_num), sar_eq]
  rfl

theorem norm_wp {a : BIG} (h : Lim a (2 ^ 62)) : Wp (norm a) fun r => Nrm r ∧ r.val = a.val := by
  obtain ⟨h0, h1, h2, h3, h4, h5, h6⟩ := h
  unfold norm
  refine Wp.bind (Wp.of_eq (normStep_eq (by omega) (by omega)) rfl) ?_
  rintro _ rfl
  generalize hc0 : (a.w0 + 0) / 2 ^ 58 = c0
  generalize hd0 : (a.w0 + 0) % 2 ^ 58 = d0
  refine Wp.bind (Wp.of_eq (normStep_eq (by omega) (by omega)) rfl) ?_
  rintro _ rfl
  generalize hc1 : (a.w1 + c0) / 2 ^ 58 = c1
  generalize hd1 : (a.w1 + c0) % 2 ^ 58 = d1
  refine Wp.bind (Wp.of_eq (normStep_eq (by omega) (by omega)) rfl) ?_
  rintro _ rfl
  generalize hc2 : (a.w2 + c1) / 2 ^ 58 = c2
  generalize hd2 : (a.w2 + c1) % 2 ^ 58 = d2
  refine Wp.bind (Wp.of_eq (normStep_eq (by omega) (by omega)) rfl) ?_
  rintro _ rfl
  generalize hc3 : (a.w3 + c2) / 2 ^ 58 = c3
  generalize hd3 : (a.w3 + c2) % 2 ^ 58 = d3
  refine Wp.bind (Wp.of_eq (normStep_eq (by omega) (by omega)) rfl) ?_
  rintro _ rfl
  generalize hc4 : (a.w4 + c3) / 2 ^ 58 = c4
  generalize hd4 : (a.w4 + c3) % 2 ^ 58 = d4
  refine Wp.bind (Wp.of_eq (normStep_eq (by omega) (by omega)) rfl) ?_
  rintro _ rfl
  generalize hc5 : (a.w5 + c4) / 2 ^ 58 = c5
  generalize hd5 : (a.w5 + c4) % 2 ^ 58 = d5
  refine Wp.bind (Wp.of_eq (add64_eq (by omega) (by omega)) rfl) ?_
  rintro _ rfl
  refine Wp.ret ⟨⟨?_, ?_, ?_, ?_, ?_, ?_⟩, ?_⟩
  all_goals simp only [val]
  all_goals omega

theorem zipM_wp {f : Int → Int → Option Int} {g : Int → Int → Int} {a b : BIG}
    (h0 : f a.w0 b.w0 = some (g a.w0 b.w0)) (h1 : f a.w1 b.w1 = some (g a.w1 b.w1))
    (h2 : f a.w2 b.w2 = some (g a.w2 b.w2)) (h3 : f a.w3 b.w3 = some (g a.w3 b.w3))
    (h4 : f a.w4 b.w4 = some (g a.w4 b.w4)) (h5 : f a.w5 b.w5 = some (g a.w5 b.w5))
    (h6 : f a.w6 b.w6 = some (g a.w6 b.w6)) :
    zipM f a b = some ⟨g a.w0 b.w0, g a.w1 b.w1, g a.w2 b.w2, g a.w3 b.w3, g a.w4 b.w4,
      g a.w5 b.w5, g a.w6 b.w6⟩ := by
  simp [zipM, h0, h1, h2, h3, h4, h5, h6]

theorem add_wp {a b : BIG} {A B : Int} (ha : Lim a A) (hb : Lim b B) (h : A + B < 2 ^ 63) :
    Wp (add a b) fun r => Lim r (A + B) ∧ r.val = a.val + b.val := by
  obtain ⟨a0, a1, a2, a3, a4, a5, a6⟩ := ha
  obtain ⟨b0, b1, b2, b3, b4, b5, b6⟩ := hb
  refine Wp.of_eq (zipM_wp (g := (· + ·)) ?_ ?_ ?_ ?_ ?_ ?_ ?_) ?_
  any_goals exact add64_eq (by omega) (by omega)
  refine ⟨by constructor <;> simp only <;> omega, ?_⟩
  simp only [val]; ring

theorem sub_wp {a b : BIG} {A B : Int} (ha : Lim a A) (hb : Lim b B) (h : A + B < 2 ^ 63) :
    Wp (sub a b) fun r => Lim r (A + B) ∧ r.val = a.val - b.val := by
  obtain ⟨a0, a1, a2, a3, a4, a5, a6⟩ := ha
  obtain ⟨b0, b1, b2, b3, b4, b5, b6⟩ := hb
  refine Wp.of_eq (zipM_wp (g := (· - ·)) ?_ ?_ ?_ ?_ ?_ ?_ ?_) ?_
  any_goals exact sub64_eq (by omega) (by omega)
  refine ⟨by constructor <;> simp only <;> omega, ?_⟩
  simp only [val]; ring

theorem rsub_wp {a b : BIG} {A B : Int} (ha : Lim a A) (hb : Lim b B) (h : A + B < 2 ^ 63) :
    Wp (rsub a b) fun r => Lim r (A + B) ∧ r.val = b.val - a.val := by
  have := sub_wp hb ha (by omega)
  rwa [add_comm B A] at this

theorem dbl_wp {a : BIG} {A : Int} (ha : Lim a A) (h : A + A < 2 ^ 63) :
    Wp (dbl a) fun r => Lim r (A + A) ∧ r.val = a.val + a.val := add_wp ha ha h

theorem cmoveW_eq {w g : Int} (hw1 : -2 ^ 63 ≤ w) (hw2 : w < 2 ^ 63)
    (hg1 : -2 ^ 63 ≤ g) (hg2 : g < 2 ^ 63) {d : Int} (hd : d = 0 ∨ d = 1) :
    cmoveW w g (-d) = if d = 0 then w else g :=
  select_eq (n := 64) (by norm_num) hw1 hw2 hg1 hg2 hd

/-- `cmove` selects, for words in range. -/
theorem cmove_eq {a g : BIG} (ha : Lim a (2 ^ 62)) (hg : Lim g (2 ^ 62)) {d : Int}
    (hd : d = 0 ∨ d = 1) : cmove a g d = if d = 0 then a else g := by
  obtain ⟨a0, a1, a2, a3, a4, a5, a6⟩ := ha
  obtain ⟨b0, b1, b2, b3, b4, b5, b6⟩ := hg
  simp only [cmove]
  rw [cmoveW_eq (by omega) (by omega) (by omega) (by omega) hd,
    cmoveW_eq (by omega) (by omega) (by omega) (by omega) hd,
    cmoveW_eq (by omega) (by omega) (by omega) (by omega) hd,
    cmoveW_eq (by omega) (by omega) (by omega) (by omega) hd,
    cmoveW_eq (by omega) (by omega) (by omega) (by omega) hd,
    cmoveW_eq (by omega) (by omega) (by omega) (by omega) hd,
    cmoveW_eq (by omega) (by omega) (by omega) (by omega) hd]
  split <;> rfl

/-- One limb of a left shift. -/
theorem fshlW_eq {k : Nat} (hk : k ≤ 58) {hi lo : Int} (hl0 : 0 ≤ lo) (hl1 : lo < 2 ^ 58) :
    fshlW k hi lo = (hi * 2 ^ k) % 2 ^ 58 + lo / 2 ^ (58 - k) := by
  simp only [fshlW, BMASK_eq, sar_eq]
  rw [shl64_mask (show 58 < 64 by norm_num)]
  have e : (2:Int) ^ 58 = 2 ^ k * 2 ^ (58 - k) := by rw [← pow_add]; congr 1; omega
  have hq : lo / 2 ^ (58 - k) < 2 ^ k := by
    apply Int.ediv_lt_of_lt_mul (by positivity); rw [← e]; exact hl1
  have hm1 := Int.emod_nonneg (hi * 2 ^ k) (show (2:Int) ^ 58 ≠ 0 by norm_num)
  have hm2 := Int.emod_lt_of_pos (hi * 2 ^ k) (show (0:Int) < 2 ^ 58 by norm_num)
  have hk2 : (2:Int) ^ k ≤ 2 ^ 58 := pow_le_pow_right₀ (by norm_num) hk
  apply or64_add hm1 (Int.ediv_nonneg hl0 (by positivity)) hq
  · rw [e, mul_comm hi, Int.mul_emod_mul_of_pos _ _ (by positivity)]
    exact dvd_mul_right _ _
  · linarith

theorem fshl_digit {k : Nat} (hk : k ≤ 58) (hi lo : Int) (hl0 : 0 ≤ lo) (hl1 : lo < 2 ^ 58) :
    0 ≤ (hi * 2 ^ k) % 2 ^ 58 + lo / 2 ^ (58 - k) ∧
      (hi * 2 ^ k) % 2 ^ 58 + lo / 2 ^ (58 - k) < 2 ^ 58 ∧
      (hi * 2 ^ k) % 2 ^ 58 = hi * 2 ^ k - 2 ^ 58 * (hi / 2 ^ (58 - k)) := by
  have e : (2:Int) ^ 58 = 2 ^ k * 2 ^ (58 - k) := by rw [← pow_add]; congr 1; omega
  have hq : lo / 2 ^ (58 - k) < 2 ^ k := by
    apply Int.ediv_lt_of_lt_mul (by positivity); rw [← e]; exact hl1
  have hq0 : 0 ≤ lo / 2 ^ (58 - k) := Int.ediv_nonneg hl0 (by positivity)
  have e2 : (hi * 2 ^ k) % 2 ^ 58 = 2 ^ k * (hi % 2 ^ (58 - k)) := by
    rw [e, mul_comm hi, Int.mul_emod_mul_of_pos _ _ (by positivity)]
  have hr0 := Int.emod_nonneg hi (show (2:Int) ^ (58 - k) ≠ 0 by positivity)
  have hr1 := Int.emod_lt_of_pos hi (show (0:Int) < 2 ^ (58 - k) by positivity)
  have hk0 : (0:Int) < 2 ^ k := by positivity
  refine ⟨?_, ?_, ?_⟩
  · rw [e2]; have := mul_nonneg hk0.le hr0; linarith
  · rw [e2, e]; nlinarith
  · rw [e2, e]
    have := Int.emod_add_mul_ediv hi (2 ^ (58 - k))
    linear_combination (2 ^ k) * this

/-- `fshl` multiplies a normalised number by `2^k`. -/
theorem fshl_wp {a : BIG} (h : Nrm a) {k : Nat} (hk : k ≤ 58) (h60 : 0 ≤ a.w6)
    (h6 : a.w6 * 2 ^ k < 2 ^ 62) :
    Wp (fshl a k) fun r => Nrm r ∧ r.val = a.val * 2 ^ k := by
  obtain ⟨h0, h1, h2, h3, h4, h5⟩ := h
  refine Wp.of_eq (by rw [fshl, if_pos hk]) ?_
  have e0 : and64 (shl64 a.w0 k) BMASK = (a.w0 * 2 ^ k) % 2 ^ 58 := by
    rw [BMASK_eq, shl64_mask (show 58 < 64 by norm_num)]
  rw [e0, fshlW_eq hk h0.1 h0.2, fshlW_eq hk h1.1 h1.2, fshlW_eq hk h2.1 h2.2,
    fshlW_eq hk h3.1 h3.2, fshlW_eq hk h4.1 h4.2]
  have e : (2:Int) ^ 58 = 2 ^ k * 2 ^ (58 - k) := by rw [← pow_add]; congr 1; omega
  have hk2 : (2:Int) ^ k ≤ 2 ^ 58 := pow_le_pow_right₀ (by norm_num) hk
  have hq : a.w5 / 2 ^ (58 - k) < 2 ^ k := by
    apply Int.ediv_lt_of_lt_mul (by positivity); rw [← e]; exact h5.2
  have h6' : 0 ≤ a.w6 * 2 ^ k := by positivity
  have e6 : or64 (shl64 a.w6 k) (sar a.w5 (58 - k)) = a.w6 * 2 ^ k + a.w5 / 2 ^ (58 - k) := by
    rw [shl64_eq (by linarith) (by linarith), sar_eq]
    exact or64_add h6' (Int.ediv_nonneg h5.1 (by positivity)) hq (dvd_mul_left _ _) (by linarith)
  rw [e6]
  have d0 := fshl_digit hk a.w0 0 (le_refl _) (by norm_num)
  have d1 := fshl_digit hk a.w1 a.w0 h0.1 h0.2
  have d2 := fshl_digit hk a.w2 a.w1 h1.1 h1.2
  have d3 := fshl_digit hk a.w3 a.w2 h2.1 h2.2
  have d4 := fshl_digit hk a.w4 a.w3 h3.1 h3.2
  have d5 := fshl_digit hk a.w5 a.w4 h4.1 h4.2
  simp only [Int.zero_ediv, add_zero] at d0
  refine ⟨⟨⟨d0.1, d0.2.1⟩, ⟨d1.1, d1.2.1⟩, ⟨d2.1, d2.2.1⟩, ⟨d3.1, d3.2.1⟩, ⟨d4.1, d4.2.1⟩,
    ⟨d5.1, d5.2.1⟩⟩, ?_⟩
  simp only [val]
  rw [d0.2.2, d1.2.2, d2.2.2, d3.2.2, d4.2.2, d5.2.2]
  ring

/-- One limb of a right shift. -/
theorem fshrW_eq {k : Nat} (hk : k ≤ 58) {lo hi : Int} (hl0 : 0 ≤ lo) (hl1 : lo < 2 ^ 58) :
    fshrW k lo hi = lo / 2 ^ k + (hi * 2 ^ (58 - k)) % 2 ^ 58 := by
  have := fshlW_eq (k := 58 - k) (by omega) (hi := hi) hl0 hl1
  simp only [fshlW, BMASK_eq, sar_eq, show 58 - (58 - k) = k by omega] at this
  simp only [fshrW, BMASK_eq, sar_eq]
  have comm : ∀ x y : Int, or64 x y = or64 y x := by intro x y; simp only [or64, BitVec.or_comm]
  rw [comm, this, add_comm]

/-- `fshr` divides a normalised non-negative number by `2^k`, rounding down. -/
theorem fshr_wp {a : BIG} (h : Nrm a) {k : Nat} (hk : k ≤ 58) :
    Wp (fshr a k) fun r => Nrm r ∧ r.val = a.val / 2 ^ k := by
  obtain ⟨h0, h1, h2, h3, h4, h5⟩ := h
  refine Wp.of_eq (by rw [fshr, if_pos hk]) ?_
  rw [fshrW_eq hk h0.1 h0.2, fshrW_eq hk h1.1 h1.2, fshrW_eq hk h2.1 h2.2,
    fshrW_eq hk h3.1 h3.2, fshrW_eq hk h4.1 h4.2, fshrW_eq hk h5.1 h5.2]
  have e : (2:Int) ^ 58 = 2 ^ k * 2 ^ (58 - k) := by rw [← pow_add]; congr 1; omega
  have d0 := fshl_digit (k := 58 - k) (by omega) a.w1 a.w0 h0.1 h0.2
  have d1 := fshl_digit (k := 58 - k) (by omega) a.w2 a.w1 h1.1 h1.2
  have d2 := fshl_digit (k := 58 - k) (by omega) a.w3 a.w2 h2.1 h2.2
  have d3 := fshl_digit (k := 58 - k) (by omega) a.w4 a.w3 h3.1 h3.2
  have d4 := fshl_digit (k := 58 - k) (by omega) a.w5 a.w4 h4.1 h4.2
  have d5 := fshl_digit (k := 58 - k) (by omega) a.w6 a.w5 h5.1 h5.2
  simp only [show 58 - (58 - k) = k by omega] at d0 d1 d2 d3 d4 d5
  refine ⟨?_, ?_⟩
  · constructor <;> simp only <;> rw [add_comm]
    exacts [⟨d0.1, d0.2.1⟩, ⟨d1.1, d1.2.1⟩, ⟨d2.1, d2.2.1⟩, ⟨d3.1, d3.2.1⟩, ⟨d4.1, d4.2.1⟩,
      ⟨d5.1, d5.2.1⟩]
  · simp only [val, sar_eq]
    rw [d0.2.2, d1.2.2, d2.2.2, d3.2.2, d4.2.2, d5.2.2]
    symm
    have hr := Int.emod_add_mul_ediv a.w0 (2 ^ k)
    have key : a.w0 + a.w1 * 2 ^ 58 + a.w2 * 2 ^ 116 + a.w3 * 2 ^ 174 + a.w4 * 2 ^ 232
        + a.w5 * 2 ^ 290 + a.w6 * 2 ^ 348 = a.w0 % 2 ^ k + 2 ^ k * (a.w0 / 2 ^ k +
        (a.w1 + a.w2 * 2 ^ 58 + a.w3 * 2 ^ 116 + a.w4 * 2 ^ 174 + a.w5 * 2 ^ 232
        + a.w6 * 2 ^ 290) * 2 ^ (58 - k)) := by
      linear_combination (-1) * hr + (a.w1 + a.w2 * 2 ^ 58 + a.w3 * 2 ^ 116 + a.w4 * 2 ^ 174
        + a.w5 * 2 ^ 232 + a.w6 * 2 ^ 290) * e
    rw [key, Int.add_mul_ediv_left _ _ (by positivity),
      Int.ediv_eq_zero_of_lt (Int.emod_nonneg _ (by positivity)) (Int.emod_lt_of_pos _ (by positivity))]
    ring

theorem shr_wp {a : BIG} (h : Nrm a) {k : Nat} (hk : k < 58) :
    Wp (shr a k) fun r => Nrm r ∧ r.val = a.val / 2 ^ k := by
  rw [shr, if_pos hk]; exact fshr_wp h hk.le

/-- Sign of a comparison. -/
def cmpZ (x y : Int) : Int := if x = y then 0 else if x > y then 1 else -1

theorem comp_step {x y u v M : Int} (hu0 : 0 ≤ u) (hu : u < M) (hv0 : 0 ≤ v) (hv : v < M) :
    compW x y (cmpZ u v) = cmpZ (u + x * M) (v + y * M) := by
  unfold compW cmpZ
  rcases lt_trichotomy x y with h | h | h
  · have h1 : (x + 1) * M ≤ y * M := mul_le_mul_of_nonneg_right (by omega) (by omega)
    have h2 : (x + 1) * M = x * M + M := by ring
    rw [if_neg (by omega), if_neg (by omega), if_neg (by omega), if_neg (by omega)]
  · subst h
    simp only [if_true, add_left_inj, gt_iff_lt, add_lt_add_iff_right]
  · have h1 : (y + 1) * M ≤ x * M := mul_le_mul_of_nonneg_right (by omega) (by omega)
    have h2 : (y + 1) * M = y * M + M := by ring
    rw [if_neg (by omega), if_pos (by omega), if_neg (by omega), if_pos (by omega)]

theorem comp_spec {a b : BIG} (ha : Nrm a) (hb : Nrm b) : comp a b = cmpZ a.val b.val := by
  obtain ⟨h0, h1, h2, h3, h4, h5⟩ := ha
  obtain ⟨g0, g1, g2, g3, g4, g5⟩ := hb
  unfold comp val
  have s0 : compW a.w0 b.w0 0 = cmpZ a.w0 b.w0 := rfl
  rw [s0, comp_step h0.1 h0.2 g0.1 g0.2,
    comp_step (M := 2 ^ 116) (by omega) (by omega) (by omega) (by omega),
    comp_step (M := 2 ^ 174) (by omega) (by omega) (by omega) (by omega),
    comp_step (M := 2 ^ 232) (by omega) (by omega) (by omega) (by omega),
    comp_step (M := 2 ^ 290) (by omega) (by omega) (by omega) (by omega),
    comp_step (M := 2 ^ 348) (by omega) (by omega) (by omega) (by omega)]

theorem comp_lt {a b : BIG} (ha : Nrm a) (hb : Nrm b) : comp a b < 0 ↔ a.val < b.val := by
  rw [comp_spec ha hb, cmpZ]; split <;> [skip; split] <;> omega

theorem comp_eq_zero {a b : BIG} (ha : Nrm a) (hb : Nrm b) : comp a b = 0 ↔ a.val = b.val := by
  rw [comp_spec ha hb, cmpZ]; split <;> [skip; split] <;> omega

theorem comp_pos {a b : BIG} (ha : Nrm a) (hb : Nrm b) : comp a b > 0 ↔ a.val > b.val := by
  rw [comp_spec ha hb, cmpZ]; split <;> [skip; split] <;> omega

theorem iszilch_spec {a : BIG} (ha : Nrm a) : iszilch a = true ↔ a.val = 0 := by
  obtain ⟨h0, h1, h2, h3, h4, h5⟩ := ha
  simp only [iszilch, Bool.and_eq_true, beq_iff_eq, val]
  omega

theorem parity_spec {a : BIG} (ha : Nrm a) : parity a = a.val % 2 := by
  obtain ⟨h0, h1, h2, h3, h4, h5⟩ := ha
  simp only [parity, val]
  rw [Int.tmod_eq_emod_of_nonneg h0.1]
  omega

theorem new_val : new.val = 0 := by norm_num [new, val]
theorem new_nrm : new.Nrm := by constructor <;> simp [new]
theorem new_int_val (x : Int) : (new_int x).val = x := by simp [new_int, val]
theorem new_int_nrm {x : Int} (h0 : 0 ≤ x) (h1 : x < 2 ^ 58) : (new_int x).Nrm := by
  constructor <;> simp [new_int, h0] ; omega

theorem Nrm.lim63 {a : BIG} (h : Nrm a) (h6 : -2 ^ 62 ≤ a.w6 ∧ a.w6 ≤ 2 ^ 62) : Lim a (2 ^ 62) := by
  obtain ⟨h0, h1, h2, h3, h4, h5⟩ := h
  constructor <;> omega

/-- Normalised, non-negative and below `2^406`: all seven limbs are digits. -/
theorem Nrm.lim58 {a : BIG} (h : Nrm a) (h0 : 0 ≤ a.val) (h1 : a.val < 2 ^ 406) :
    Lim a (2 ^ 58) :=
  h.lim h0 (by norm_num; linarith) (le_refl _)

end BIG

end Amcl
