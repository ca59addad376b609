import Mathlib.Algebra.Polynomial.Roots
import Mathlib.Algebra.Field.ZMod
import Mathlib.Tactic.NormNum.Prime
import Verif.Proof.NhsTransform
/-!
# Products of polynomials through the transforms
-/

namespace Amcl

namespace NHS

open Spec.NewHope

instance prime_q : Fact (Nat.Prime 12289) := ⟨by norm_num⟩

/-- A negacyclic shift. -/
theorem shift_sum (N : Nat) (b : Nat → Zq) {p : Zq} (hp : p ^ N = -1) {j : Nat} (hj : j < N) :
    ∑ i ∈ Finset.range N, (if j ≤ i then b (i - j) else - b (N + i - j)) * p ^ i = p ^ j * ∑ i ∈ Finset.range N, b i * p ^ i := by
  obtain ⟨r, rfl⟩ : ∃ r, N = j + r := ⟨N - j, by omega⟩
  have e2 : ∑ i ∈ Finset.range (j + r), b i * p ^ i =
      ∑ i ∈ Finset.range r, b i * p ^ i + ∑ i ∈ Finset.range j, b (r + i) * p ^ (r + i) := by
    rw [add_comm j r, Finset.sum_range_add]
  rw [e2, Finset.sum_range_add, mul_add, add_comm, Finset.mul_sum, Finset.mul_sum]
  congr 1
  · refine Finset.sum_congr rfl fun i hi => ?_
    rw [if_pos (by omega), show j + i - j = i by omega, pow_add]; ring
  · refine Finset.sum_congr rfl fun i hi => ?_
    rw [Finset.mem_range] at hi
    rw [if_neg (by omega), show j + r + i - j = r + i by omega]
    have : p ^ j * p ^ (r + i) = - p ^ i := by
      rw [← pow_add, ← add_assoc, pow_add, hp]; ring
    linear_combination (- b (r + i)) * this

theorem shift_eval (b : Nat → Zq) {p : Zq} (hp : p ^ 1024 = -1) {j : Nat} (hj : j < 1024) :
    ∑ i ∈ Finset.range 1024, (if j ≤ i then b (i - j) else - b (1024 + i - j)) * p ^ i = p ^ j * eval b p :=
  shift_sum 1024 b hp hj

/-- Values of products. -/
theorem eval_mul (a b : Nat → Zq) {p : Zq} (hp : p ^ 1024 = -1) :
    eval (Spec.NewHope.mul a b) p = eval a p * eval b p := by
  have : eval (Spec.NewHope.mul a b) p = ∑ j ∈ Finset.range 1024, ∑ i ∈ Finset.range 1024,
      a j * ((if j ≤ i then b (i - j) else - b (1024 + i - j)) * p ^ i) := by
    rw [eval, Finset.sum_comm]
    refine Finset.sum_congr rfl fun i _ => ?_
    rw [Spec.NewHope.mul, Finset.sum_mul]
    refine Finset.sum_congr rfl fun j _ => ?_
    split <;> ring
  rw [this]
  have : ∀ j ∈ Finset.range 1024, ∑ i ∈ Finset.range 1024, a j * ((if j ≤ i then b (i - j) else - b (1024 + i - j)) * p ^ i)
      = a j * p ^ j * eval b p := by
    intro j hj
    rw [← Finset.mul_sum, shift_eval b hp (Finset.mem_range.1 hj)]
    ring
  rw [Finset.sum_congr rfl this, ← Finset.sum_mul]
  rfl

theorem eval_add (a b : Nat → Zq) (p : Zq) : eval (fun i => a i + b i) p = eval a p + eval b p := by
  simp only [eval, add_mul, Finset.sum_add_distrib]

theorem eval_sub (a b : Nat → Zq) (p : Zq) : eval (fun i => a i - b i) p = eval a p - eval b p := by
  simp only [eval, sub_mul, Finset.sum_sub_distrib]

theorem eval_congr {a b : Nat → Zq} (h : ∀ i, i < 1024 → a i = b i) (p : Zq) : eval a p = eval b p :=
  Finset.sum_congr rfl fun i hi => by rw [h i (Finset.mem_range.1 hi)]

/-- Polynomials are determined by their values at the roots. -/
theorem eval_inj {a b : Nat → Zq} (h : ∀ f, f < 1024 → eval a (point f) = eval b (point f)) :
    ∀ l, l < 1024 → a l = b l := by
  let P : Polynomial Zq := ∑ i ∈ Finset.range 1024, Polynomial.C (a i - b i) * Polynomial.X ^ i
  have hP : P = 0 := by
    refine Polynomial.eq_zero_of_natDegree_lt_card_of_eval_eq_zero P (ι := Fin 1024) (f := fun f => point f)
      (fun f g e => Fin.ext (point_inj f.2 g.2 e)) (fun f => ?_) ?_
    · have := h f f.2
      simp only [P, Polynomial.eval_finsetSum, Polynomial.eval_mul, Polynomial.eval_C, Polynomial.eval_pow,
        Polynomial.eval_X]
      have h2 := eval_sub a b (point f)
      rw [this, sub_self] at h2
      exact h2
    · rw [Fintype.card_fin]
      refine lt_of_le_of_lt (Polynomial.natDegree_sum_le_of_forall_le _ _ (n := 1023) fun i hi => ?_) (by norm_num)
      refine (Polynomial.natDegree_C_mul_X_pow_le _ _).trans ?_
      have := Finset.mem_range.1 hi
      omega
  intro l hl
  have : P.coeff l = a l - b l := by
    simp only [P, Polynomial.finsetSum_coeff, Polynomial.coeff_C_mul_X_pow]
    rw [Finset.sum_ite_eq (Finset.range 1024) l (fun i => a i - b i), if_pos (Finset.mem_range.2 hl)]
  rw [hP, Polynomial.coeff_zero] at this
  exact (sub_eq_zero.1 this.symm)

end NHS

end Amcl
