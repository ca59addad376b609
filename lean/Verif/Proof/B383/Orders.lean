import Verif.Proof.B383.CurveEval
import Verif.Spec.B383.Generators
/-!
# The generators have order `r`
-/

set_option exponentiation.threshold 2000

namespace Amcl.B383

open Spec Spec.B383

theorem gen1_is : Eval.Is Eval.fp ⟨g1x, g1y, 1⟩ gen1 := by
  show Proj (g1x : Fp) (g1y : Fp) ((1 : Nat) : Fp) gen1
  rw [Nat.cast_one]
  exact Proj.mk g1_on

theorem b1_is : Eval.fp.toF 45 = 3 * b1 := by
  show ((45 : Nat) : Fp) = 3 * 15
  norm_num

theorem r_gen1 : r • gen1 = 0 := by
  rw [← Eval.smul_zero_iff b1_is gen1_is (f := 257) (by norm_num [r])]
  decide +kernel

theorem gen2_is : Eval.Is Eval.fp2 ⟨(g2xa, g2xb), (g2ya, g2yb), (1, 0)⟩ gen2 := by
  show Proj (⟨(g2xa : Fp), (g2xb : Fp)⟩ : Fp2) ⟨(g2ya : Fp), (g2yb : Fp)⟩ (Eval.fp2.toF Eval.fp2.one) gen2
  rw [Eval.fp2.one_eq]
  exact Proj.mk g2_on

theorem b2_is : Eval.fp2.toF (45, 45) = 3 * b2 := by
  rw [b2]
  ext <;> simp [Eval.fp2, Eval.fp, i, QuadraticAlgebra.re_one, QuadraticAlgebra.im_one,
    show (15 : Fp2).re = 15 from rfl, show (15 : Fp2).im = 0 from rfl,
    show (3 : Fp2).re = 3 from rfl, show (3 : Fp2).im = 0 from rfl] <;> norm_num

theorem r_gen2 : r • gen2 = 0 := by
  rw [← Eval.smul_zero_iff b2_is gen2_is (f := 257) (by norm_num [r])]
  decide +kernel

/-- Ordinate of a twist point with abscissa 1. -/
def one_ya : Nat := 0x480b7460e4bed5b748554a9cb4cbf16158b9f5454c117ce50a7431196fae408157619d1f037cd87c2dae0f30d30548df
@[inherit_doc one_ya]
def one_yb : Nat := 0x35731c526729bb41f930fe422ad3723d10b124117cf150785869bf1fc9482b952ede703a1c8408b81eea5822038ace76

theorem one_is : ∀ h, Eval.Is Eval.fp2 ⟨(1, 0), (one_ya, one_yb), (1, 0)⟩
    (Pt.mk (⟨((1 : Nat) : Fp), ((0 : Nat) : Fp)⟩ : Fp2) ⟨(one_ya : Fp), (one_yb : Fp)⟩ h : G2) := by
  intro h
  show Proj (⟨((1 : Nat) : Fp), ((0 : Nat) : Fp)⟩ : Fp2) ⟨(one_ya : Fp), (one_yb : Fp)⟩ (Eval.fp2.toF Eval.fp2.one) _
  rw [Eval.fp2.one_eq]
  exact Proj.mk h

theorem one_on : (⟨(one_ya : Fp), (one_yb : Fp)⟩ : Fp2) ^ 2 = (⟨((1 : Nat) : Fp), ((0 : Nat) : Fp)⟩ : Fp2) ^ 3 + b2 := by
  have h1 : ((one_ya ^ 2 + (p - one_yb) * one_yb : Nat) : Fp) = ((16 : Nat) : Fp) := by
    rw [ZMod.natCast_eq_natCast_iff, Nat.ModEq]
    norm_num [one_ya, one_yb, p]
  have h2 : ((2 * one_ya * one_yb : Nat) : Fp) = ((15 : Nat) : Fp) := by
    rw [ZMod.natCast_eq_natCast_iff, Nat.ModEq]
    norm_num [one_ya, one_yb, p]
  rw [Nat.cast_add, Nat.cast_mul, Nat.cast_sub (by norm_num [one_yb, p]), CharP.cast_eq_zero Fp p] at h1
  push_cast at h1 h2
  rw [b2]
  ext
  · simp [pow_succ, i, QuadraticAlgebra.re_one, QuadraticAlgebra.im_one, show (15 : Fp2).re = 15 from rfl,
      show (15 : Fp2).im = 0 from rfl]
    linear_combination h1
  · simp [pow_succ, i, QuadraticAlgebra.re_one, QuadraticAlgebra.im_one, show (15 : Fp2).re = 15 from rfl,
      show (15 : Fp2).im = 0 from rfl]
    linear_combination h2

theorem one_order : r • (Pt.mk _ _ one_on : G2) ≠ 0 := by
  rw [Ne, ← Eval.smul_zero_iff b2_is (one_is one_on) (f := 257) (by norm_num [r])]
  decide +kernel

/-- The order of the curve `y² = x³ + 15` over the quadratic extension, which `r` divides too. -/
def otherOrder : Nat := 172754868469853098737817297030179180917080824086830493127071782895886694709288958387579517260876709980628447301645231990598561388331710070467330266980122620821973027856081331176883496009510216391368726485643005137963376950552088463

theorem one_not_other : otherOrder • (Pt.mk _ _ one_on : G2) ≠ 0 := by
  rw [Ne, ← Eval.smul_zero_iff b2_is (one_is one_on) (f := 766) (by norm_num [otherOrder])]
  decide +kernel

end Amcl.B383
