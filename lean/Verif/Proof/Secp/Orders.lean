import Verif.Proof.CurveEval
import Verif.Spec.Secp.Generators
import Mathlib.GroupTheory.Perm.Cycle.Type
/-!
# The curve secp256k1 has exactly `n` points

The base point has the prime order `n`. A point is determined by its abscissa and the parity of its ordinate, so
there are at most `2p + 1 < 3n` points. There is no point of order two. This leaves `n`.
-/

set_option exponentiation.threshold 2000

namespace Amcl.Secp

open Spec.Secp
open Spec (Pt GoodB)

/-- Numbers modulo `p`. -/
def evalFp : Eval.Alg Nat Fp where
  toF n := (n : Fp)
  add a b := (a + b) % p
  sub a b := (a + (p - b % p)) % p
  mul a b := a * b % p
  zero := 0
  one := 1
  isZero a := a % p == 0
  add_eq a b := by simp
  sub_eq a b := by
    have hb : b % p ≤ p := (Nat.mod_lt _ prime_p.pos).le
    simp [Nat.cast_sub hb, sub_eq_add_neg]
  mul_eq a b := by simp
  zero_eq := by simp
  one_eq := by simp
  isZero_eq a := by rw [beq_iff_eq, ZMod.natCast_eq_zero_iff, Nat.dvd_iff_mod_eq_zero]

theorem gen_is : Eval.Is evalFp ⟨gx, gy, 1⟩ gen := by
  show Proj (gx : Fp) (gy : Fp) ((1 : Nat) : Fp) gen
  rw [Nat.cast_one]
  exact Proj.mk g_on

theorem b1_is : evalFp.toF 21 = 3 * b1 := by
  show ((21 : Nat) : Fp) = 3 * 7
  norm_num

theorem n_gen : n • gen = 0 := by
  rw [← Eval.smul_zero_iff b1_is gen_is (f := 256) (by norm_num [n])]
  decide +kernel

theorem gen_ne : gen ≠ 0 := Pt.mk_ne g_on

theorem order_gen : addOrderOf gen = n := addOrderOf_eq_prime n_gen gen_ne

/-- A code for a point: nothing for the point at infinity, else the abscissa and the parity of the ordinate. -/
noncomputable def code (P : G1) : Option (Fp × Bool) :=
  match P with
  | .zero => none
  | .some x y _ => some (x, y.val % 2 == 0)

theorem code_mk {x y : Fp} (h : y ^ 2 = x ^ 3 + b1) : code (Pt.mk x y h) = some (x, y.val % 2 == 0) := rfl

theorem code_zero : code 0 = none := rfl

theorem code_inj : Function.Injective code := by
  intro P Q h
  rcases P.cases with rfl | ⟨x, y, hP, rfl⟩ <;> rcases Q.cases with rfl | ⟨x', y', hQ, rfl⟩
  · rfl
  · rw [code_zero, code_mk] at h; cases h
  · rw [code_zero, code_mk] at h; cases h
  · rw [code_mk, code_mk] at h
    injection h with h
    injection h with hx hy
    subst hx
    rw [Pt.mk_inj]
    refine ⟨rfl, ?_⟩
    have h2 : (y - y') * (y + y') = 0 := by linear_combination hP - hQ
    rcases mul_eq_zero.1 h2 with h3 | h3
    · exact sub_eq_zero.1 h3
    · exfalso
      have h4 : y' = -y := by linear_combination h3
      have hy0 : y ≠ 0 := Pt.y_ne hP
      have : NeZero y := ⟨hy0⟩
      rw [h4, ZMod.val_neg_of_ne_zero] at hy
      have h5 : y.val < p := ZMod.val_lt y
      have h6 : p % 2 = 1 := by norm_num [p]
      have h7 : (y.val % 2 == 0) = true ↔ ((p - y.val) % 2 == 0) = true := by rw [hy]
      simp only [beq_iff_eq] at h7
      omega

instance : Finite G1 := Finite.of_injective code code_inj

theorem card_le : Nat.card G1 ≤ 2 * p + 1 := by
  have h := Nat.card_le_card_of_injective code code_inj
  have e : Nat.card (Option (Fp × Bool)) = 2 * p + 1 := by
    rw [Finite.card_option, Nat.card_prod, Nat.card_zmod, Nat.card_eq_fintype_card, Fintype.card_bool, mul_comm]
  omega

theorem no_two {P : G1} (h : 2 • P = 0) : P = 0 := by
  rcases P.cases with rfl | ⟨x, y, hP, rfl⟩
  · rfl
  · exfalso
    rw [two_nsmul] at h
    have h2 := eq_neg_of_add_eq_zero_left h
    rw [Pt.neg_mk, Pt.mk_inj] at h2
    have h3 : 2 * y = 0 := by linear_combination h2.2
    rcases mul_eq_zero.1 h3 with h4 | h4
    · exact fp_two_ne h4
    · exact Pt.y_ne hP h4

/-- The number of points of the curve is `n`. -/
theorem card_G1 : Nat.card G1 = n := by
  have h1 : n ∣ Nat.card G1 := by rw [← order_gen]; exact addOrderOf_dvd_natCard gen
  obtain ⟨k, hk⟩ := h1
  have hpos : 0 < Nat.card G1 := Nat.card_pos
  have h2 := card_le
  have hk0 : k ≠ 0 := by rintro rfl; omega
  have hk3 : k < 3 := by
    by_contra h
    have h3 : n * 3 ≤ n * k := Nat.mul_le_mul_left n (by omega)
    have h4 : 2 * p + 1 < n * 3 := by norm_num [p, n]
    omega
  have hk2 : k ≠ 2 := by
    rintro rfl
    have : Fact (Nat.Prime 2) := ⟨Nat.prime_two⟩
    obtain ⟨P, hP⟩ := exists_prime_addOrderOf_dvd_card' 2 (Dvd.intro_left n hk.symm)
    have h5 := no_two (P := P) (by rw [← hP]; exact addOrderOf_nsmul_eq_zero P)
    rw [h5, addOrderOf_zero] at hP
    omega
  have : k = 1 := by omega
  rw [hk, this, mul_one]

/-- `n` annihilates every point. -/
theorem n_smul (P : G1) : n • P = 0 := by
  rw [← card_G1]; exact card_nsmul_eq_zero'

theorem order_eq {P : G1} (h : P ≠ 0) : addOrderOf P = n := addOrderOf_eq_prime (n_smul P) h

end Amcl.Secp
