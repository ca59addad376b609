import Verif.Proof.NhsNtt
import Mathlib.Tactic.IntervalCases
/-!
# The tables of roots of `nhs.rs`
-/

namespace Amcl

namespace NHS

open Spec.NewHope

/-- `brv` without the sum. -/
def rev (i : Nat) : Nat :=
  512 * (i % 2) + 256 * (i / 2 % 2) + 128 * (i / 4 % 2) + 64 * (i / 8 % 2) + 32 * (i / 16 % 2) +
    16 * (i / 32 % 2) + 8 * (i / 64 % 2) + 4 * (i / 128 % 2) + 2 * (i / 256 % 2) + i / 512 % 2

theorem bit_if (i b c : Nat) : (if i.testBit b then c else 0) = c * (i / 2 ^ b % 2) := by
  rw [Nat.testBit_eq_decide_div_mod_eq]
  rcases Nat.mod_two_eq_zero_or_one (i / 2 ^ b) with h | h <;> simp [h]

theorem brv_eq (i : Nat) : brv i = rev i := by
  rw [brv]
  simp only [Finset.sum_range_succ, Finset.sum_range_zero, bit_if, rev]
  norm_num

set_option maxRecDepth 8000 in
theorem roots_check : (List.range 1024).map (fun k => 2 ^ 32 * 7 ^ rev k % 12289) = ROOTS := by decide +kernel

set_option maxRecDepth 8000 in
theorem iroots_check : (List.range 1024).map (fun k => 2 ^ 32 * 7 ^ (2048 - rev k) % 12289) = IROOTS := by decide +kernel

theorem seven : (7 : Zq) ^ 2048 = 1 := by decide +kernel

theorem half : (7 : Zq) ^ 1024 = -1 := by decide +kernel

theorem rev_lt (i : Nat) : rev i < 1024 := by rw [rev]; omega

theorem cast_mod (n : Nat) : ((n % 12289 : Nat) : Zq) = n := ZMod.natCast_mod n 12289

/-- The entries of `ROOTS` are powers of `7`, in Montgomery form. -/
theorem look_roots {k : Nat} (h : k < 1024) :
    Wp (look ROOTS k) fun s => 0 ≤ s ∧ s < 12289 ∧ (s : Zq) = 2 ^ 32 * 7 ^ rev k := by
  rw [look, ← roots_check, List.getElem?_map, List.getElem?_range h]
  refine .pure ⟨Int.natCast_nonneg _, by simp only [Nat.cast_lt_ofNat]; omega, ?_⟩
  rw [Int.cast_natCast, cast_mod]
  push_cast
  rfl

/-- The entries of `IROOTS` are their inverses. -/
theorem look_iroots {k : Nat} (h : k < 1024) :
    Wp (look IROOTS k) fun s => 0 ≤ s ∧ s < 12289 ∧ ∃ i : Zq, (s : Zq) = 2 ^ 32 * i ∧ 7 ^ rev k * i = 1 := by
  rw [look, ← iroots_check, List.getElem?_map, List.getElem?_range h]
  refine .pure ⟨Int.natCast_nonneg _, by simp only [Nat.cast_lt_ofNat]; omega, 7 ^ (2048 - rev k), ?_, ?_⟩
  · rw [Int.cast_natCast, cast_mod]
    push_cast
    rfl
  · rw [← pow_add, show rev k + (2048 - rev k) = 2048 by have := rev_lt k; omega, seven]

theorem pow_mod (n : Nat) : (7 : Zq) ^ (n % 2048) = 7 ^ n := by
  conv_rhs => rw [← Nat.mod_add_div n 2048, pow_add, pow_mul, seven, one_pow, mul_one]

theorem rev_level : ∀ a : Fin 10, ∀ f : Fin 1024, (2 * rev f + 1) * 2 ^ a.val % 2048 =
    (rev (2 ^ (9 - a.val) + f / 2 ^ (a.val + 1)) + 1024 * (f / 2 ^ a.val % 2)) % 2048 := by decide +kernel

/-- The roots at the levels of the transform. -/
theorem point_pow {a f : Nat} (ha : a < 10) (hf : f < 1024) :
    point f ^ 2 ^ a = (-1) ^ (f / 2 ^ a % 2) * 7 ^ rev (2 ^ (9 - a) + f / 2 ^ (a + 1)) := by
  have e : point f ^ 2 ^ a = 7 ^ ((2 * rev f + 1) * 2 ^ a) := by
    rw [point, brv_eq, ← pow_mul]; rfl
  rw [e, ← pow_mod, rev_level ⟨a, ha⟩ ⟨f, hf⟩, pow_mod, pow_add, pow_mul, half]
  ring

theorem point_top (f : Nat) : point f ^ 1024 = -1 := by
  rw [point, brv_eq, psi, ← pow_mul, mul_comm, pow_mul, half]
  exact Odd.neg_one_pow ⟨rev f, rfl⟩

theorem rev_rev : ∀ f : Fin 1024, rev (rev f) = f := by decide +kernel

theorem distinct7 : ∀ i : Fin 1024, i.val ≠ 0 → (7 : Zq) ^ (2 * i.val) ≠ 1 := by decide +kernel

/-- The roots are distinct. -/
theorem point_inj {f g : Nat} (hf : f < 1024) (hg : g < 1024) (h : point f = point g) : f = g := by
  have key : ∀ a b : Nat, a < 1024 → b < 1024 → b ≤ a → (7 : Zq) ^ (2 * a + 1) = 7 ^ (2 * b + 1) → a = b := by
    intro a b ha hb hab e
    by_contra hne
    have hu : IsUnit ((7 : Zq) ^ (2 * b + 1)) := by
      refine IsUnit.pow _ (IsUnit.of_mul_eq_one ((7 : Zq) ^ 2047) ?_)
      rw [← pow_succ', seven]
    apply distinct7 ⟨a - b, by omega⟩ (by simp only; omega)
    apply hu.mul_left_cancel
    rw [← pow_add, mul_one, ← e]
    congr 1
    simp only
    omega
  have : rev f = rev g := by
    rw [point, point, brv_eq, brv_eq] at h
    rcases le_total (rev g) (rev f) with c | c
    · exact key _ _ (rev_lt f) (rev_lt g) c h
    · exact (key _ _ (rev_lt g) (rev_lt f) c h.symm).symm
  have hf' := rev_rev ⟨f, hf⟩
  have hg' := rev_rev ⟨g, hg⟩
  simp only at hf' hg'
  rw [← hf', ← hg', this]

end NHS

end Amcl
