import Verif.Proof.B383.Psi
import Verif.Model.B383.Endo
/-!
# The endomorphism of the curve given by a cube root of unity

`glvMap (x, y) = (β x, y)` for the cube root of unity `β` of `rom.rs`. On the points of order `r` it is
multiplication by `-xPar²`.
-/

set_option exponentiation.threshold 6000

namespace Spec.B383

open Amcl.B383

/-- The number of `rom::CURVE_CRU` in the field. -/
def cru : Fp := (rom.CURVE_CRU.val : Int)

theorem cru_eq : cru = ((rom.CURVE_CRU.val.toNat : Nat) : Fp) := by
  have h : 0 ≤ rom.CURVE_CRU.val := by decide +kernel
  rw [cru, ← Int.toNat_of_nonneg h]
  simp

theorem cru_cube : cru ^ 3 = 1 := by
  rw [cru_eq]
  have h : ((rom.CURVE_CRU.val.toNat ^ 3 : Nat) : Fp) = ((1 : Nat) : Fp) := by
    rw [ZMod.natCast_eq_natCast_iff, Nat.ModEq]
    decide +kernel
  push_cast at h
  exact h

theorem cru_ne : cru ≠ 0 := by
  intro h
  have := cru_cube
  rw [h] at this
  norm_num at this

theorem glv_on {a b : Fp} (h : b ^ 2 = a ^ 3 + b1) : b ^ 2 = (cru * a) ^ 3 + b1 := by
  rw [mul_pow, cru_cube, one_mul]
  exact h

/-- The endomorphism `(x, y) ↦ (β x, y)`. -/
def glvMap : G1 → G1
  | .zero => 0
  | .some _ _ h => Pt.mk _ _ (glv_on (Pt.nonsingular_iff.1 h))

theorem glvMap_zero : glvMap 0 = 0 := rfl

theorem glvMap_mk {a b : Fp} (h : b ^ 2 = a ^ 3 + b1) : glvMap (Pt.mk a b h) = Pt.mk _ _ (glv_on h) := rfl

theorem glvMap_add (A B : G1) : glvMap (A + B) = glvMap A + glvMap B := by
  rcases Pt.cases A with rfl | ⟨a, b, h, rfl⟩
  · rw [zero_add, glvMap_zero, zero_add]
  rcases Pt.cases B with rfl | ⟨c, d, h', rfl⟩
  · rw [add_zero, glvMap_zero, add_zero]
  have hg := cru_ne
  have hg3 := cru_cube
  by_cases hc : a = c
  · subst hc
    have : (b - d) * (b + d) = 0 := by linear_combination h - h'
    rcases mul_eq_zero.1 this with e | e
    · have e := sub_eq_zero.1 e
      subst e
      have hb : b ≠ 0 := Pt.y_ne h
      have h2 : (2 : Fp) ≠ 0 := fp_two_ne
      obtain ⟨h3, e3⟩ := Pt.add_self h (l := 3 * a ^ 2 / (2 * b)) (by field_simp) rfl rfl
      obtain ⟨h4, e4⟩ := Pt.add_self (glv_on h) (l := cru ^ 2 * (3 * a ^ 2 / (2 * b)))
        (by field_simp) rfl rfl
      rw [e3, glvMap_mk, glvMap_mk, e4, Pt.mk_inj]
      constructor
      · linear_combination (-cru * (3 * a ^ 2 / (2 * b)) ^ 2) * hg3
      · linear_combination (3 * a ^ 2 / (2 * b)) * ((3 * a ^ 2 / (2 * b)) ^ 2 * (1 + cru ^ 3) - 3 * a) * hg3
    · have hd : d = -b := by linear_combination e
      subst hd
      rw [Pt.add_opp, glvMap_zero, glvMap_mk, glvMap_mk]
      have : Pt.mk _ _ (glv_on h') = -Pt.mk _ _ (glv_on h) := by
        rw [Pt.neg_mk]
      rw [this, add_neg_cancel]
  · have hd : a - c ≠ 0 := sub_ne_zero.2 hc
    have hc' : cru * a ≠ cru * c := fun e => hc (mul_left_cancel₀ hg e)
    obtain ⟨h3, e3⟩ := Pt.add_ne h h' hc (l := (b - d) / (a - c)) (by field_simp) rfl rfl
    obtain ⟨h4, e4⟩ := Pt.add_ne (glv_on h) (glv_on h') hc'
      (l := cru ^ 2 * ((b - d) / (a - c))) (by field_simp; linear_combination (b - d) * hg3) rfl rfl
    rw [e3, glvMap_mk, glvMap_mk, glvMap_mk, e4, Pt.mk_inj]
    generalize (b - d) / (a - c) = l
    constructor
    · linear_combination (-cru * l ^ 2) * hg3
    · linear_combination (l ^ 3 * (1 + cru ^ 3) - l * (2 * a + c)) * hg3

/-- The endomorphism as a homomorphism. -/
def glvHom : G1 →+ G1 := ⟨⟨glvMap, glvMap_zero⟩, glvMap_add⟩

theorem glvMap_nsmul (n : Nat) (A : G1) : glvMap (n • A) = n • glvMap A := map_nsmul glvHom n A

theorem glv_gen1_eval : ∀ t, t = Eval.smul Eval.fp 45 ⟨g1x, g1y, 1⟩ 130 (xPar * xPar) →
    (Eval.fp.isZero (Eval.fp.sub t.x (Eval.fp.mul (Eval.fp.mul rom.CURVE_CRU.val.toNat g1x) t.z)) &&
    Eval.fp.isZero (Eval.fp.add t.y (Eval.fp.mul g1y t.z))) = true := by
  rintro _ rfl
  decide +kernel

theorem glv_gen1 : (xPar * xPar) • gen1 = -glvMap gen1 := by
  have ht := Eval.smul_is b1_is gen1_is 130 (xPar * xPar) (by decide +kernel)
  generalize hT : Eval.smul Eval.fp 45 ⟨g1x, g1y, 1⟩ 130 (xPar * xPar) = t at ht
  have he := glv_gen1_eval t hT.symm
  rw [Bool.and_eq_true, Eval.fp.isZero_eq, Eval.fp.isZero_eq, Eval.fp.sub_eq, Eval.fp.add_eq] at he
  simp only [Eval.fp.mul_eq] at he
  have e1 : Eval.fp.toF rom.CURVE_CRU.val.toNat = cru := cru_eq.symm
  have e2 : Eval.fp.toF g1x = (g1x : Fp) := rfl
  have e3 : Eval.fp.toF g1y = (g1y : Fp) := rfl
  rw [e1, e2, e3] at he
  have hp : -glvMap gen1 = Pt.mk _ _ (by rw [neg_sq]; exact glv_on g1_on) := by
    rw [gen1, glvMap_mk, Pt.neg_mk]
  rw [hp]
  apply (Amcl.Proj.eq_iff ht (Amcl.Proj.mk _)).1
  constructor
  · linear_combination he.1
  · linear_combination he.2

/-- On the points of order `r`, the endomorphism is multiplication by `-xPar²`. -/
theorem glv_torsion {P : G1} (hP : r • P = 0) : (xPar * xPar) • P = -glvMap P := by
  obtain ⟨k, rfl⟩ := torsion_gen1 hP
  rw [glvMap_nsmul, ← smul_neg, ← glv_gen1, smul_comm]

end Spec.B383
