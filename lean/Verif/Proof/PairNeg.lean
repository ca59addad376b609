import Verif.Proof.SigOutside
/-!
# The pairing at opposite points

Changing the sign of the point of the twist conjugates all values of Miller's function. So the pairing is inverted, at
points of any order.
-/

set_option exponentiation.threshold 6000

namespace Spec

open Amcl

seal Spec.finalExp

theorem τ_uy (b : Fp2) : τ (uy b) = uy (-b) := by
  rw [uy, uy, map_div₀, map_pow, τ_ι2, τ_W, map_neg, neg_div]
  rw [show (-W) ^ 3 = -(W ^ 3) by ring, div_neg]

theorem vertAt_neg (x : Fp) (A : G2) : vertAt x (-A) = τ (vertAt x A) := by
  rcases Pt.cases A with rfl | ⟨a, b, h, rfl⟩
  · rw [neg_zero]; exact (map_one τ).symm
  · rw [Pt.neg_mk]
    change ι1 x - ux a = τ (ι1 x - ux a)
    rw [map_sub, τ_ι1, τ_ux]

theorem lineAt_neg (x y : Fp) (A B : G2) : lineAt x y (-A) (-B) = τ (lineAt x y A B) := by
  rcases Pt.cases A with rfl | ⟨a, b, h, rfl⟩
  · rw [neg_zero, zero_lineAt, zero_lineAt, vertAt_neg]
  · rcases Pt.cases B with rfl | ⟨c, d, h', rfl⟩
    · rw [neg_zero, lineAt_zero, lineAt_zero, vertAt_neg]
    · rw [Pt.neg_mk, Pt.neg_mk]
      change (if a = c ∧ -b = - -d then ι1 x - ux a
        else ι1 y - uy (-b) - ι2 (if a = c then 3 * a ^ 2 / (2 * -b) else (-b - -d) / (a - c)) / W * (ι1 x - ux a)) =
        τ (if a = c ∧ b = -d then ι1 x - ux a
        else ι1 y - uy b - ι2 (if a = c then 3 * a ^ 2 / (2 * b) else (b - d) / (a - c)) / W * (ι1 x - ux a))
      by_cases hv : a = c ∧ b = -d
      · rw [if_pos ⟨hv.1, by rw [hv.2]⟩, if_pos hv, map_sub, τ_ι1, τ_ux]
      · rw [if_neg fun e => hv ⟨e.1, neg_inj.1 e.2⟩, if_neg hv]
        have e : (if a = c then 3 * a ^ 2 / (2 * -b) else (-b - -d) / (a - c)) =
            -(if a = c then 3 * a ^ 2 / (2 * b) else (b - d) / (a - c)) := by
          split
          · rw [mul_neg, div_neg]
          · rw [← neg_div]; congr 1; ring
        rw [e]
        simp only [map_sub, map_mul, map_div₀, τ_ι1, τ_ux, τ_uy, τ_ι2, τ_W, map_neg, neg_div, div_neg]

theorem miller_neg (x y : Fp) (Q : G2) (n : Nat) : miller x y (-Q) n = τ (miller x y Q n) := by
  induction n with
  | zero => exact (map_one τ).symm
  | succ n ih => rw [miller, miller, ih, smul_neg, smul_neg, lineAt_neg, vertAt_neg, map_mul, map_div₀]

theorem τ_root {z : Fp12} (h : z ^ r = 1) : τ z = z⁻¹ := by
  apply eq_inv_of_mul_eq_one_left
  rw [τ_eq, ← pow_succ]
  obtain ⟨c, hc⟩ : r ∣ p ^ 6 + 1 := by decide +kernel
  rw [hc, pow_mul, h, one_pow]

/-- The pairing at the opposite of a point of the twist, of any order. -/
theorem pairing_neg_left (Q : G2) (P : G1) : pairing (-Q) P = (pairing Q P)⁻¹ := by
  rw [← τ_root (pairing_pow_r_all Q P)]
  rcases Pt.cases P with rfl | ⟨x, y, h, rfl⟩
  · rw [pairing_zero_right, pairing_zero_right, map_one]
  · change ((miller x y (-Q) xAbs)⁻¹) ^ finalExp = τ (((miller x y Q xAbs)⁻¹) ^ finalExp)
    rw [miller_neg, map_pow, map_inv₀]

theorem pairing_neg_right {Q : G2} (hQ : r • Q = 0) (P : G1) : pairing Q (-P) = (pairing Q P)⁻¹ := by
  apply eq_inv_of_mul_eq_one_left
  rw [← pairing_add_right hQ, neg_add_cancel, pairing_zero_right]

end Spec
