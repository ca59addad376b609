import Verif.Proof.CurveEval
import Verif.Spec.Generators
/-!
# The standard generators have order `r`
-/

set_option exponentiation.threshold 2000

namespace Amcl

open Spec

theorem gen1_is : Eval.Is Eval.fp ⟨g1x, g1y, 1⟩ gen1 := by
  show Proj (g1x : Fp) (g1y : Fp) ((1 : Nat) : Fp) gen1
  rw [Nat.cast_one]
  exact Proj.mk g1_on

theorem b1_is : Eval.fp.toF 12 = 3 * b1 := by
  show ((12 : Nat) : Fp) = 3 * 4
  norm_num

theorem r_gen1 : r • gen1 = 0 := by
  rw [← Eval.smul_zero_iff b1_is gen1_is (f := 255) (by norm_num [r])]
  decide +kernel

theorem gen2_is : Eval.Is Eval.fp2 ⟨(g2xa, g2xb), (g2ya, g2yb), (1, 0)⟩ gen2 := by
  show Proj (⟨(g2xa : Fp), (g2xb : Fp)⟩ : Fp2) ⟨(g2ya : Fp), (g2yb : Fp)⟩ (Eval.fp2.toF Eval.fp2.one) gen2
  rw [Eval.fp2.one_eq]
  exact Proj.mk g2_on

theorem b2_is : Eval.fp2.toF (12, 12) = 3 * b2 := by
  rw [b2]
  ext <;> simp [Eval.fp2, Eval.fp, i, QuadraticAlgebra.re_one, QuadraticAlgebra.im_one,
    show (4 : Fp2).re = 4 from rfl, show (4 : Fp2).im = 0 from rfl,
    show (3 : Fp2).re = 3 from rfl, show (3 : Fp2).im = 0 from rfl] <;> norm_num

theorem r_gen2 : r • gen2 = 0 := by
  rw [← Eval.smul_zero_iff b2_is gen2_is (f := 255) (by norm_num [r])]
  decide +kernel

/-- Ordinate of a twist point with abscissa 2. -/
def two_ya : Nat := 0x18c6b864ae17dc9da64203ffefb966306425a7bc6aeb7c75247438372716284a4173830420cd476ba1a365b95bfcec38
@[inherit_doc two_ya]
def two_yb : Nat := 0x172e93db764a8400a7d5071b6b6f5de0da2f0f4a063119abca014006b7c40a2cfe291a1924e65db0d6d0fcfbf3bf3d5c

theorem two_is : ∀ h, Eval.Is Eval.fp2 ⟨(2, 0), (two_ya, two_yb), (1, 0)⟩
    (Pt.mk (⟨((2 : Nat) : Fp), ((0 : Nat) : Fp)⟩ : Fp2) ⟨(two_ya : Fp), (two_yb : Fp)⟩ h : G2) := by
  intro h
  show Proj (⟨((2 : Nat) : Fp), ((0 : Nat) : Fp)⟩ : Fp2) ⟨(two_ya : Fp), (two_yb : Fp)⟩ (Eval.fp2.toF Eval.fp2.one) _
  rw [Eval.fp2.one_eq]
  exact Proj.mk h

theorem two_on : (⟨(two_ya : Fp), (two_yb : Fp)⟩ : Fp2) ^ 2 = (⟨((2 : Nat) : Fp), ((0 : Nat) : Fp)⟩ : Fp2) ^ 3 + b2 := by
  have h1 : ((two_ya ^ 2 + (p - two_yb) * two_yb : Nat) : Fp) = ((12 : Nat) : Fp) := by
    rw [ZMod.natCast_eq_natCast_iff, Nat.ModEq]
    norm_num [two_ya, two_yb, p]
  have h2 : ((2 * two_ya * two_yb : Nat) : Fp) = ((4 : Nat) : Fp) := by
    rw [ZMod.natCast_eq_natCast_iff, Nat.ModEq]
    norm_num [two_ya, two_yb, p]
  rw [Nat.cast_add, Nat.cast_mul, Nat.cast_sub (by norm_num [two_yb, p]), CharP.cast_eq_zero Fp p] at h1
  push_cast at h1 h2
  rw [b2]
  ext
  · simp [pow_succ, i, QuadraticAlgebra.re_one, QuadraticAlgebra.im_one, show (4 : Fp2).re = 4 from rfl,
      show (4 : Fp2).im = 0 from rfl]
    linear_combination h1
  · simp [pow_succ, i, QuadraticAlgebra.re_one, QuadraticAlgebra.im_one, show (4 : Fp2).re = 4 from rfl,
      show (4 : Fp2).im = 0 from rfl]
    linear_combination h2

theorem two_order : r • (Pt.mk _ _ two_on : G2) ≠ 0 := by
  rw [Ne, ← Eval.smul_zero_iff b2_is (two_is two_on) (f := 255) (by norm_num [r])]
  decide +kernel

/-- The order of the curve `y² = x³ + 4` over the quadratic extension, which `r` divides too. -/
def otherOrder : Nat := 16019282247729705411943748644318972617695120099330552659862384536985976748491357143400656079302193429974954385540178735350214327874493741515851674229349549576732891050042476874288656032797313108158616246286454896710677267523756943

theorem two_not_other : otherOrder • (Pt.mk _ _ two_on : G2) ≠ 0 := by
  rw [Ne, ← Eval.smul_zero_iff b2_is (two_is two_on) (f := 763) (by norm_num [otherOrder])]
  decide +kernel

end Amcl
