import Mathlib.Tactic.Ring
import Mathlib.Tactic.Linarith
import Mathlib.Tactic.LinearCombination
import Mathlib.Tactic.NormNum
import Mathlib.Tactic.Positivity
import Verif.Model.Machine
/-!
# Reasoning about checked machine operations
-/

namespace Amcl

/-- The computation returns normally and its result satisfies `Q`. -/
def Wp {α : Type} (m : Option α) (Q : α → Prop) : Prop := ∃ r, m = some r ∧ Q r

namespace Wp

variable {α β : Type}

theorem pure {Q : α → Prop} {a : α} (h : Q a) : Wp (some a) Q := ⟨a, rfl, h⟩

theorem ret {Q : α → Prop} {a : α} (h : Q a) : Wp (Pure.pure a : Option α) Q := ⟨a, rfl, h⟩

theorem bind {m : Option α} {f : α → Option β} {Q : β → Prop} {R : α → Prop}
    (hm : Wp m R) (hf : ∀ a, R a → Wp (f a) Q) : Wp (m >>= f) Q := by
  obtain ⟨a, rfl, ha⟩ := hm
  exact hf a ha

theorem mono {m : Option α} {Q R : α → Prop} (hm : Wp m R) (h : ∀ a, R a → Q a) : Wp m Q := by
  obtain ⟨a, e, ha⟩ := hm
  exact ⟨a, e, h a ha⟩

theorem of_eq {m : Option α} {Q : α → Prop} {a : α} (h : m = some a) (hq : Q a) : Wp m Q :=
  ⟨a, h, hq⟩

theorem elim {m : Option α} {Q : α → Prop} (h : Wp m Q) {a : α} (e : m = some a) : Q a := by
  obtain ⟨b, hb, q⟩ := h
  rw [e] at hb
  cases hb
  exact q

theorem and {m : Option α} {Q R : α → Prop} (h : Wp m Q) (h' : Wp m R) :
    Wp m (fun a => Q a ∧ R a) := by
  obtain ⟨a, e, q⟩ := h
  exact ⟨a, e, q, h'.elim e⟩

end Wp

theorem i64_eq {x : Int} (h1 : -2 ^ 63 ≤ x) (h2 : x < 2 ^ 63) : i64 x = some x := by
  simp only [i64]; rw [if_pos ⟨h1, h2⟩]

theorem i128_eq {x : Int} (h1 : -2 ^ 127 ≤ x) (h2 : x < 2 ^ 127) : i128 x = some x := by
  simp only [i128]; rw [if_pos ⟨h1, h2⟩]

theorem i32_eq {x : Int} (h1 : -2 ^ 31 ≤ x) (h2 : x < 2 ^ 31) : i32 x = some x := by
  simp only [i32]; rw [if_pos ⟨h1, h2⟩]

theorem add64_eq {x y : Int} (h1 : -2 ^ 63 ≤ x + y) (h2 : x + y < 2 ^ 63) :
    add64 x y = some (x + y) := i64_eq h1 h2

theorem sub64_eq {x y : Int} (h1 : -2 ^ 63 ≤ x - y) (h2 : x - y < 2 ^ 63) :
    sub64 x y = some (x - y) := i64_eq h1 h2

theorem ofInt_toNat (n : Nat) (x : Int) : ((BitVec.ofInt n x).toNat : Int) = x % 2 ^ n := by
  rw [BitVec.toNat_ofInt]
  have : (0 : Int) ≤ x % (2 ^ n : Nat) := Int.emod_nonneg _ (by positivity)
  rw [Int.toNat_of_nonneg this]; push_cast; rfl

theorem toInt_ofInt {n : Nat} {x : Int} (hn : 0 < n) (h1 : -2 ^ (n - 1) ≤ x) (h2 : x < 2 ^ (n - 1)) :
    (BitVec.ofInt n x).toInt = x := by
  rw [BitVec.toInt_ofInt]
  have e : (2 : Int) ^ n = 2 * 2 ^ (n - 1) := by
    conv_lhs => rw [show n = (n - 1) + 1 by omega, pow_succ]
    ring
  rw [Int.bmod_eq_of_le_mul_two] <;> push_cast <;> rw [e] <;> linarith

/-- `x & (2^n - 1)` keeps the low `n` bits, for signed words of width `w`. -/
theorem and_mask {w n : Nat} (hn : n < w) (x : Int) :
    (BitVec.ofInt w x &&& BitVec.ofInt w (2 ^ n - 1)).toInt = x % 2 ^ n := by
  have hp : (2 : Int) ^ n ≤ 2 ^ (w - 1) := by
    apply pow_le_pow_right₀ (by norm_num); omega
  have hw : (2 : Int) ^ w = 2 * 2 ^ (w - 1) := by
    conv_lhs => rw [show w = (w - 1) + 1 by omega, pow_succ]
    ring
  have h2 : (0:Int) < 2 ^ n := by positivity
  have hm : (BitVec.ofInt w (2 ^ n - 1)).toNat = 2 ^ n - 1 := by
    have := ofInt_toNat w (2 ^ n - 1)
    rw [Int.emod_eq_of_lt (by linarith) (by linarith)] at this
    have h3 : (1:Nat) ≤ 2 ^ n := Nat.one_le_two_pow
    zify [h3]; exact this
  have hN : ((BitVec.ofInt w x &&& BitVec.ofInt w (2 ^ n - 1)).toNat : Int) = x % 2 ^ n := by
    rw [BitVec.toNat_and, hm, Nat.and_two_pow_sub_one_eq_mod]
    push_cast
    rw [ofInt_toNat]
    exact Int.emod_emod_of_dvd x (pow_dvd_pow 2 (by omega))
  have h0 : x % 2 ^ n < 2 ^ n := Int.emod_lt_of_pos _ h2
  rw [BitVec.toInt_eq_toNat_of_lt, hN]
  zify; rw [hN, hw]; linarith

theorem and64_mask {n : Nat} (hn : n < 64) (x : Int) : and64 x (2 ^ n - 1) = x % 2 ^ n :=
  and_mask hn x

theorem and128_mask {n : Nat} (hn : n < 128) (x : Int) : and128 x (2 ^ n - 1) = x % 2 ^ n :=
  and_mask hn x

/-- `|` of a multiple of `2^n` and a number below `2^n` is their sum. -/
theorem or64_add {n : Nat} {a b : Int} (ha : 0 ≤ a) (hb : 0 ≤ b) (hbn : b < 2 ^ n)
    (hdvd : (2 : Int) ^ n ∣ a) (h : a + b < 2 ^ 63) : or64 a b = a + b := by
  obtain ⟨k, rfl⟩ := hdvd
  have hk : 0 ≤ k := by
    by_contra hneg
    have : 2 ^ n * k < 0 := mul_neg_of_pos_of_neg (by positivity) (by omega)
    omega
  obtain ⟨k, rfl⟩ := Int.eq_ofNat_of_zero_le hk
  obtain ⟨b, rfl⟩ := Int.eq_ofNat_of_zero_le hb
  have hbn' : b < 2 ^ n := by exact_mod_cast hbn
  have e1 : (BitVec.ofInt 64 (2 ^ n * (k : Int))).toNat = 2 ^ n * k := by
    zify; rw [ofInt_toNat]; exact Int.emod_eq_of_lt ha (by omega)
  have e2 : (BitVec.ofInt 64 ((b : Int))).toNat = b := by
    zify; rw [ofInt_toNat]; exact Int.emod_eq_of_lt hb (by omega)
  have e3 : (BitVec.ofInt 64 (2 ^ n * (k : Int)) ||| BitVec.ofInt 64 (b : Int)).toNat
      = 2 ^ n * k + b := by
    rw [BitVec.toNat_or, e1, e2, Nat.two_pow_add_eq_or_of_lt hbn']
  simp only [or64]
  rw [BitVec.toInt_eq_toNat_of_lt, e3]
  · push_cast; rfl
  · rw [e3]; zify; omega

theorem shl64_eq {x : Int} {n : Nat} (h1 : -2 ^ 63 ≤ x * 2 ^ n) (h2 : x * 2 ^ n < 2 ^ 63) :
    shl64 x n = x * 2 ^ n := by
  rw [shl64, Int.bmod_eq_of_le_mul_two] <;> norm_num at * <;> linarith

theorem as64_eq {x : Int} (h1 : -2 ^ 63 ≤ x) (h2 : x < 2 ^ 63) : as64 x = x := by
  rw [as64, Int.bmod_eq_of_le_mul_two] <;> norm_num at * <;> linarith

theorem as8_eq {x : Int} (h1 : -2 ^ 7 ≤ x) (h2 : x < 2 ^ 7) : as8 x = x := by
  rw [as8, Int.bmod_eq_of_le_mul_two] <;> norm_num at * <;> linarith

theorem as32_eq {x : Int} (h1 : -2 ^ 31 ≤ x) (h2 : x < 2 ^ 31) : as32 x = x := by
  rw [as32, Int.bmod_eq_of_le_mul_two] <;> norm_num at * <;> linarith

/-- Masking a shifted word: the bits dropped by `<<` lie above the mask. -/
theorem shl64_mask {x : Int} {k n : Nat} (hn : n < 64) : and64 (shl64 x k) (2 ^ n - 1) = (x * 2 ^ k) % 2 ^ n := by
  rw [and64_mask hn, shl64, Int.bmod_def]
  have d : ((2:Int) ^ n) ∣ ((2 ^ 64 : Nat) : Int) := by push_cast; exact pow_dvd_pow (2:Int) (show n ≤ 64 by omega)
  split
  · exact Int.emod_emod_of_dvd _ d
  · rw [Int.sub_emod, Int.emod_emod_of_dvd _ d, Int.emod_eq_zero_of_dvd d]; simp

theorem sar_eq (x : Int) (n : Nat) : sar x n = x / 2 ^ n := rfl

/-- The branch-free select `w ^ ((w ^ g) & -d)`. -/
theorem select_eq {n : Nat} (hn : 0 < n) {w g : Int} (hw1 : -2 ^ (n - 1) ≤ w) (hw2 : w < 2 ^ (n - 1))
    (hg1 : -2 ^ (n - 1) ≤ g) (hg2 : g < 2 ^ (n - 1)) {d : Int} (hd : d = 0 ∨ d = 1) :
    (BitVec.ofInt n w ^^^ BitVec.ofInt n
      (BitVec.ofInt n (BitVec.ofInt n w ^^^ BitVec.ofInt n g).toInt &&& BitVec.ofInt n (-d)).toInt).toInt
      = if d = 0 then w else g := by
  simp only [BitVec.ofInt_toInt]
  rcases hd with rfl | rfl
  · simp [toInt_ofInt hn hw1 hw2]
  · have : BitVec.ofInt n (-1) = BitVec.allOnes n := by
      rw [← BitVec.neg_one_eq_allOnes, BitVec.ofInt_neg]; rfl
    rw [this, BitVec.and_allOnes, ← BitVec.xor_assoc, BitVec.xor_self, BitVec.zero_xor,
      toInt_ofInt hn hg1 hg2]
    simp

end Amcl
