import Verif.Proof.BigJacobi
import Verif.Proof.B383.Fp
/-!
# `FP::jacobi` and `FP::sqrt` decide and take square roots
-/

set_option exponentiation.threshold 2000

namespace Amcl.B383

open Spec Spec.B383 NumberTheorySymbols

theorem p_ne_two : p ≠ 2 := by norm_num [p]

namespace FP

/-- `FP::jacobi` is the quadratic character. -/
theorem jacobi_wp {f : FP} {L E : Int} {v : Fp} (hf : Ok f L E v) (h : 1 ≤ L ∧ L ≤ 8 ∧ E ≤ 2 ^ 23) :
    Wp (jacobi f) fun j => j = quadraticChar Fp v := by
  unfold jacobi
  refine Wp.bind (redc_wp hf h) ?_
  rintro r ⟨nr, r0, r1, er, -⟩
  have hp := p_lt
  refine (BIG.jacobi_wp nr r0 (by omega) modulus_nrm (by rw [modulus_val, p_val]; norm_num)
    (by rw [modulus_val]; omega) (by rw [modulus_val, p_val]; norm_num)).mono ?_
  rintro j rfl
  rw [modulus_val, Int.toNat_natCast, ← jacobiSym.legendreSym.to_jacobiSym, legendreSym, er]

/-- `jacobi = 1` exactly for non-zero squares. -/
theorem jacobi_one {f : FP} {L E : Int} {v : Fp} (hf : Ok f L E v) (h : 1 ≤ L ∧ L ≤ 8 ∧ E ≤ 2 ^ 23) :
    Wp (jacobi f) fun j => j = 1 ↔ v ≠ 0 ∧ IsSquare v := by
  refine (jacobi_wp hf h).mono ?_
  rintro j rfl
  constructor
  · intro e
    have hv : v ≠ 0 := by
      rintro rfl
      rw [quadraticChar_zero] at e
      exact zero_ne_one e
    exact ⟨hv, (quadraticChar_one_iff_isSquare hv).1 e⟩
  · rintro ⟨hv, hs⟩
    exact (quadraticChar_one_iff_isSquare hv).2 hs

theorem sqrt_pow {v : Fp} (h : IsSquare v) : (v ^ ((p + 1) / 4)) ^ 2 = v := by
  obtain ⟨w, rfl⟩ := h
  by_cases hw : w = 0
  · subst hw
    simp only [mul_zero]
    rw [zero_pow (by norm_num [p]), zero_pow (by norm_num)]
  · have h1 : w ^ (p - 1) = 1 := ZMod.pow_card_sub_one_eq_one hw
    rw [← pow_mul, ← sq, ← pow_mul,
      show 2 * ((p + 1) / 4 * 2) = (p - 1) + 2 by norm_num [p], pow_add, h1, one_mul]

end FP

end Amcl.B383
