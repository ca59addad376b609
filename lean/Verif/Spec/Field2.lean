import Mathlib.Algebra.QuadraticAlgebra.Basic
import Mathlib.NumberTheory.LegendreSymbol.QuadraticReciprocity
import Verif.Spec.Field
/-!
# Specification: the quadratic extension `Fp2 = Fp(i)`, `i² = -1`
-/

namespace Spec

theorem neg_one_nonsquare : ¬ IsSquare (-1 : Fp) := by
  rw [ZMod.exists_sq_eq_neg_one_iff]
  norm_num [p]

/-- The quadratic extension, with real part `re` and imaginary part `im`. -/
abbrev Fp2 := QuadraticAlgebra Fp (-1) 0

instance fact_fp2 : Fact (∀ r : Fp, r ^ 2 ≠ -1 + 0 * r) := ⟨fun r h => by
  rw [zero_mul, add_zero] at h
  exact neg_one_nonsquare ⟨r, by rw [← h, sq]⟩⟩

instance : DecidableEq Fp2 := fun a b =>
  decidable_of_iff (a.re = b.re ∧ a.im = b.im) QuadraticAlgebra.ext_iff.symm

/-- The imaginary unit. -/
def i : Fp2 := ⟨0, 1⟩

theorem i_sq : i ^ 2 = -1 := by
  rw [sq]; ext <;> simp [i, QuadraticAlgebra.re_one, QuadraticAlgebra.im_one]

end Spec
