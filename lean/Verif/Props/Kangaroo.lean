import Verif.Proof.Kangaroo
/-!
# Property C57: the search for the error of a PIN
-/

set_option exponentiation.threshold 6000

namespace Props

open Amcl Spec

seal Spec.finalExp Spec.toBE

/-- **C57**, the program is the search by two kangaroos: for strings of at least 576 bytes, the second one of an element
of the cyclotomic subgroup, `kangaroo` ends without panic or overflow, and its value is the outcome of the search. -/
theorem C57_kangaroo (e f : List UInt8) (he : 576 ≤ e.length) (hf : 576 ≤ f.length)
    (hc : block12 f ^ (p ^ 4 - p ^ 2 + 1) = 1) :
    ∃ n, mpin.kangaroo e f = some n ∧ Kangaroo (block12 e) (block12 f) n :=
  mpin.kangaroo_wp he hf (Cyc.of_cyclotomic hc)

/-- **C57**, short strings panic. -/
theorem C57_short (e f : List UInt8) (h : e.length < 576 ∨ f.length < 576) : mpin.kangaroo e f = none := by
  unfold mpin.kangaroo
  rcases h with h | h
  · rw [FP12.frombytes_none h]; rfl
  · cases FP12.frombytes e with
    | none => rfl
    | some x => rw [FP12.frombytes_none h]; rfl

theorem jump_lt {x : Fp12} {i : Nat} (h : JumpAt x i) : i ≤ 9 := by
  obtain ⟨a, b, c, -, h | ⟨-, h⟩⟩ := h <;> omega

theorem path_inv {f x : Fp12} {n : Nat} {w : Nat → Fp12 × Nat} (h : Path f x n w) :
    ∀ k ≤ n, (w k).1 = x * f ^ (w k).2 ∧ k ≤ (w k).2 ∧ (w k).2 ≤ 512 * k := by
  intro k
  induction k with
  | zero => intro _; rw [h.1]; simp
  | succ k ih =>
    intro hk
    obtain ⟨i, hi, e⟩ := h.2 k (by omega)
    obtain ⟨h1, h2, h3⟩ := ih (by omega)
    have h4 : 2 ^ i ≤ 512 := Nat.pow_le_pow_right (n := 2) (by norm_num) (jump_lt hi) |>.trans (by norm_num)
    have h5 : 0 < 2 ^ i := by positivity
    rw [e]
    dsimp only
    refine ⟨by rw [h1, pow_add, mul_assoc], by omega, by omega⟩

/-- **C57**, the meaning of an answer other than 0. The first kind of meeting gives a relation `x f^n = 1`. The second
kind does not: there `x f^(d+D) = 1`, but the answer is the difference. -/
theorem C57_sound (x f : Fp12) (n : Int) (h : Kangaroo x f n) (hn : n ≠ 0) :
    ∃ d D : Nat, 1 ≤ d ∧ 200 ≤ D ∧ D ≤ 102400 ∧ (d : Int) < D + 10000 ∧
      ((x * f ^ d = f ^ D ∧ n = (d : Int) - D) ∨ (x * f ^ d = (f ^ D)⁻¹ ∧ n = (D : Int) - d)) := by
  obtain ⟨tame, wild, ht, hw, ⟨k, hk, hM, hD, e⟩ | ⟨-, e⟩⟩ := h
  · obtain ⟨t1, t2, t3⟩ := path_inv ht 200 le_rfl
    obtain ⟨w1, w2, w3⟩ := path_inv hw k hk
    rw [one_mul] at t1
    have hk1 := hM.1
    refine ⟨(wild k).2, (tame 200).2, by omega, t2, by omega, by omega, ?_⟩
    rw [← w1, ← t1]
    by_cases h1 : (wild k).1 = (tame 200).1
    · rw [if_pos h1] at e
      exact Or.inl ⟨h1, e⟩
    · rw [if_neg h1] at e
      exact Or.inr ⟨hM.2.1.resolve_left h1, e⟩
  · exact absurd e hn

theorem zpow_eq_one {f : Fp12} (hf : f ^ r = 1) (h1 : f ≠ 1) (n : Int) : f ^ n = 1 ↔ (r : Int) ∣ n := by
  have := Fact.mk Primes.prime_r
  obtain ⟨m, rfl | rfl⟩ := Int.eq_nat_or_neg n
  · rw [zpow_natCast, Int.natCast_dvd_natCast, ← orderOf_dvd_iff_pow_eq_one, orderOf_eq_prime hf h1]
  · rw [zpow_neg, inv_eq_one, dvd_neg, zpow_natCast, Int.natCast_dvd_natCast, ← orderOf_dvd_iff_pow_eq_one, orderOf_eq_prime hf h1]

theorem ne_zero_of {f : Fp12} (hf : f ^ r = 1) : f ≠ 0 := by
  rintro rfl
  rw [zero_pow (by decide +kernel)] at hf
  exact zero_ne_one hf

/-- **C57**, the answer after a meeting of the second kind is never right: it is not an exponent `n` with
`x f^n = 1`. -/
theorem C57_second (x f : Fp12) (hf : f ^ r = 1) (h1 : f ≠ 1) (d D : Nat) (hd : 1 ≤ d) (hd' : d ≤ 409600)
    (h : x * f ^ d = (f ^ D)⁻¹) : x * f ^ ((D : Int) - d) ≠ 1 := by
  have h0 := ne_zero_of hf
  intro e
  have hx : x = f ^ (-((d : Int) + D)) := by
    rw [zpow_neg, zpow_add₀ h0, zpow_natCast, zpow_natCast, mul_comm, mul_inv, ← h, mul_assoc, mul_inv_cancel₀ (pow_ne_zero _ h0), mul_one]
  rw [hx, ← zpow_add₀ h0, zpow_eq_one hf h1, show -((d : Int) + D) + (D - d) = -((2 * d : Nat) : Int) by push_cast; ring, dvd_neg,
    Int.natCast_dvd_natCast] at e
  have hr : 1000000 < r := by decide +kernel
  exact absurd (Nat.le_of_dvd (by omega) e) (by omega)

/-- **C57**, the error of a PIN. If `x = f^δ` with `δ` of at most four digits, then the answer is 0 (nothing found) or
`-δ`, except if the trap is at a distance `D < 10000`; then a meeting of the second kind can give a wrong answer. -/
theorem C57_pin (f : Fp12) (δ n : Int) (hf : f ^ r = 1) (h1 : f ≠ 1) (hδ : -10000 < δ) (hδ' : δ < 10000)
    (h : Kangaroo (f ^ δ) f n) :
    n = 0 ∨ n = -δ ∨ ∃ d D : Nat, 1 ≤ d ∧ 200 ≤ D ∧ (d : Int) + D = -δ ∧ n = (D : Int) - d := by
  have h0 := ne_zero_of hf
  have hr : 1000000 < r := by decide +kernel
  by_cases hn : n = 0
  · exact Or.inl hn
  right
  obtain ⟨d, D, d1, D1, D2, dD, ⟨e, en⟩ | ⟨e, en⟩⟩ := C57_sound _ _ _ h hn
  · left
    have : f ^ (δ + d - D) = 1 := by
      rw [zpow_sub₀ h0, zpow_add₀ h0, zpow_natCast, zpow_natCast, e, div_self (pow_ne_zero _ h0)]
    rw [zpow_eq_one hf h1] at this
    have := Int.eq_zero_of_abs_lt_dvd this (by rw [abs_lt]; constructor <;> omega)
    omega
  · right
    have : f ^ (δ + d + D) = 1 := by
      rw [zpow_add₀ h0, zpow_add₀ h0, zpow_natCast, zpow_natCast, e, inv_mul_cancel₀ (pow_ne_zero _ h0)]
    rw [zpow_eq_one hf h1] at this
    have := Int.eq_zero_of_abs_lt_dvd this (by rw [abs_lt]; constructor <;> omega)
    exact ⟨d, D, d1, D1, by omega, en⟩

/-- **C57**, the answer is small. -/
theorem C57_bound (x f : Fp12) (n : Int) (h : Kangaroo x f n) : -102400 < n ∧ n < 102400 := by
  by_cases hn : n = 0
  · subst hn; norm_num
  obtain ⟨d, D, d1, D1, D2, dD, ⟨-, en⟩ | ⟨-, en⟩⟩ := C57_sound _ _ _ h hn <;> omega

/-- **C57**, after a failed run of M-Pin (the strings `e`, `f` are those of `C55_run`): the search ends, and its answer
is 0, or the difference of the PINs, or the trap was at a distance below 10000. -/
theorem C57_run (e f : List UInt8) (pin pin' : Nat) (he : e.length = 576) (hf : f.length = 576)
    (h : block12 e = block12 f ^ (((pin % 10000 : Nat) : Int) - (pin' % 10000 : Nat))) (h1 : block12 f ≠ 1)
    (hr : block12 f ^ r = 1) :
    ∃ n, mpin.kangaroo e f = some n ∧ (n = 0 ∨ n = ((pin' % 10000 : Nat) : Int) - (pin % 10000 : Nat) ∨
      ∃ d D : Nat, 1 ≤ d ∧ 200 ≤ D ∧ d + D < 10000 ∧ n = (D : Int) - d) := by
  obtain ⟨n, en, hk⟩ := mpin.kangaroo_wp he.ge hf.ge (Cyc.of_order hr)
  refine ⟨n, en, ?_⟩
  rw [h] at hk
  rcases C57_pin _ _ n hr h1 (by omega) (by omega) hk with h | h | ⟨d, D, d1, D1, e, en⟩
  · exact Or.inl h
  · exact Or.inr (Or.inl (by omega))
  · exact Or.inr (Or.inr ⟨d, D, d1, D1, by omega, en⟩)

/-- The conditions can be met, by an attempt with the PIN 4321 where 1234 is right. -/
example : ∃ e f n, mpin.kangaroo e f = some n ∧ Kangaroo (block12 e) (block12 f) n ∧ block12 f ≠ 1 ∧
    block12 e = block12 f ^ ((1234 : Int) - 4321) ∧
    (n = 0 ∨ n = 4321 - 1234 ∨ ∃ d D : Nat, 1 ≤ d ∧ 200 ≤ D ∧ d + D < 10000 ∧ n = (D : Int) - d) := by
  obtain ⟨A, hA⟩ := exists_bytesPt (mpinHash 32 0 [1]) (length_mpinHash 32 (by norm_num) (by norm_num))
  obtain ⟨_, hc, sst, cst, token, sec, xid, hid, sec', out, -, -, -, -, -, -, -, -, -, h⟩ :=
    C55_run 32 [1] (toBE 48 5) (toBE 48 7) (toBE 48 11) 1234 4321 A (by norm_num) hA (length_toBE _ _)
    (length_toBE _ _) (length_toBE _ _) (by norm_num)
    (by norm_num) (by decide +kernel) (by decide +kernel) (by decide +kernel) (by decide +kernel) (by decide +kernel)
  obtain ⟨e, f, -, he, hf, h1, h2, h3⟩ := h (by norm_num)
  obtain ⟨n, en, hk⟩ := mpin.kangaroo_wp he.ge hf.ge (Cyc.of_order h3)
  obtain ⟨n', en', hn⟩ := C57_run e f 1234 4321 he hf h1 h2 h3
  obtain rfl : n = n' := by rw [en] at en'; exact Option.some.inj en'
  exact ⟨e, f, n, en, hk, h2, h1, hn⟩

end Props
