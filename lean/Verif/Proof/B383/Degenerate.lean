import Verif.Proof.B383.Pairing
/-!
# The pairing algorithm at the coordinates of the point at infinity

The code calls the pairing with the first two projective coordinates of a key. For the point at infinity
these are `(0, y)` with `y ≠ 0`, not a point of the curve.
-/

set_option exponentiation.threshold 6000

namespace Spec.B383

open Amcl.B383 Amcl.B383.Eval
open Amcl.B383.FP12 (naf naf_step naf_one)

seal Spec.B383.finalExp

theorem lineAt_ne_of_y {x y : Fp} (hy : y ≠ 0) (A B : G2) : lineAt x y A B ≠ 0 := by
  rcases Pt.cases A with rfl | ⟨a, b, h, rfl⟩
  · rw [zero_lineAt]; exact vertAt_ne B
  · rcases Pt.cases B with rfl | ⟨c, d, h', rfl⟩
    · rw [lineAt_zero]; exact vertAt_ne _
    · by_cases hc : a = c ∧ b = -d
      · obtain ⟨rfl, rfl⟩ := hc
        change (if a = a ∧ -d = - d then _ else _) ≠ _
        rw [if_pos ⟨rfl, rfl⟩]
        exact vert_ne (a_ne h)
      · rw [lineAt_mk h h' hc, lineAt_chord]
        exact chord_ne hy _ _

/-- The final exponentiation kills the subfield of degree 4. -/
theorem kill_ι4 {z : Fp4} (h : z ≠ 0) : ι4 z ^ finalExp = 1 := by
  have h1 : z ^ (p ^ 4 - 1) = 1 := by
    have : Finite Fp2 := Finite.of_equiv _ (QuadraticAlgebra.equivProd (-1 : Fp) 0).symm
    have : Finite Fp4 := Finite.of_equiv _ (QuadraticAlgebra.equivProd (1 + i : Fp2) 0).symm
    have : Fintype Fp4 := Fintype.ofFinite _
    have e1 : Nat.card Fp2 = p ^ 2 := by
      rw [Nat.card_congr (QuadraticAlgebra.equivProd (-1 : Fp) 0), Nat.card_prod, Nat.card_zmod, sq]
    have e2 : Nat.card Fp4 = p ^ 4 := by
      rw [Nat.card_congr (QuadraticAlgebra.equivProd (1 + i : Fp2) 0), Nat.card_prod, e1]; ring
    have := FiniteField.pow_card_sub_one_eq_one _ h
    rwa [← Nat.card_eq_fintype_card, e2] at this
  have e : finalExp = (p ^ 4 - 1) * (finalExp / (p ^ 4 - 1)) := by decide +kernel
  rw [e, pow_mul, ← map_pow, h1, map_one, one_pow]

/-- With abscissa 0, all lines lie in the subfield of degree 4, up to factors that are killed. -/
theorem kill_lineAt {y : Fp} (hy : y ≠ 0) (A B : G2) : lineAt 0 y A B ^ finalExp = 1 := by
  rcases Pt.cases A with rfl | ⟨a, b, h, rfl⟩
  · rw [zero_lineAt]; exact kill_vertAt B
  · rcases Pt.cases B with rfl | ⟨c, d, h', rfl⟩
    · rw [lineAt_zero]; exact kill_vertAt _
    · by_cases hc : a = c ∧ b = -d
      · obtain ⟨rfl, rfl⟩ := hc
        change (if a = a ∧ -d = - d then _ else _) ^ _ = _
        rw [if_pos ⟨rfl, rfl⟩]
        exact kill_vert (vert_ne (a_ne h))
      · have h0 := lineAt_ne_of_y (x := 0) hy (Pt.mk a b h) (Pt.mk c d h')
        rw [lineAt_mk h h' hc, lineAt_chord] at h0 ⊢
        generalize b - (if a = c then 3 * a ^ 2 / (2 * b) else (b - d) / (a - c)) * a = k at h0 ⊢
        rw [map_zero, mul_zero, sub_zero] at h0 ⊢
        have e : ι1 y - ι2 k / W ^ 3 = ι4 (⟨-k, algebraMap Fp Fp2 y⟩ / ⟨0, 1⟩) := by
          have hW := W_ne
          rw [map_div₀, ι4_mk, ι4_mk, map_neg, map_zero, map_one, ι1_eq]
          field_simp
          ring
        rw [e] at h0 ⊢
        exact kill_ι4 (fun h => h0 (by rw [h, map_zero]))

theorem signedLoop_zero_abscissa {y : Fp} (hy : y ≠ 0) {Q : G2} (hQ : r • Q = 0) (h0 : Q ≠ 0) {n : Nat}
    (hn : 6 * n + 1 < r) : ∀ (i : Nat) (f : Fp12), 1 ≤ naf n (i + 1) → f ^ finalExp = 1 →
      signedLoop 0 y n Q i f (naf n (i + 1) • Q) ^ finalExp = 1 := by
  intro i
  induction i with
  | zero => intro f _ hf; exact hf
  | succ i ih =>
    intro f hm hf
    rw [signedLoop]
    have step := naf_step n (i + 1)
    rw [← digit] at step
    have hle := naf_le n (i + 1 + 1)
    generalize naf n (i + 1 + 1) = m at *
    have e2 : m • Q + m • Q = (2 * m) • Q := by rw [two_mul, add_nsmul]
    have hf2 : (f ^ 2 * lineAt 0 y (m • Q) (m • Q)) ^ finalExp = 1 := by
      rw [mul_pow, kill_lineAt hy, pow_right_comm, hf, one_pow, one_mul]
    rw [e2]
    split
    · next hd =>
      have hk : naf n (i + 1) = 2 * m + 1 := by omega
      rw [← succ_nsmul, ← hk]
      refine ih _ (by omega) ?_
      have hne : (2 * m) • Q ≠ Q := by
        intro e
        have : (2 * m - 1) • Q = 0 := by
          have h3 : (2 * m - 1) • Q + Q = Q := by rw [← succ_nsmul, Nat.sub_add_cancel (by omega)]; exact e
          simpa using h3
        exact smul_ne hQ h0 (by omega) (by omega) this
      rw [chordAt, if_neg hne, mul_pow, hf2, kill_lineAt hy, one_mul]
    · split
      · next hd =>
        have hk : 2 * m = naf n (i + 1) + 1 := by omega
        have e3 : (2 * m) • Q + -Q = naf n (i + 1) • Q := by rw [hk, succ_nsmul, add_neg_cancel_right]
        rw [e3]
        refine ih _ (by omega) ?_
        have hne : (2 * m) • Q ≠ -Q := by
          intro e
          have : (2 * m + 1) • Q = 0 := by rw [succ_nsmul, e, neg_add_cancel]
          exact smul_ne hQ h0 (by omega) (by omega) this
        rw [chordAt, if_neg hne, mul_pow, hf2, kill_lineAt hy, one_mul]
      · next hd hd' =>
        have hk : naf n (i + 1) = 2 * m := by
          have h1 : 3 * n / 2 ^ (i + 1) % 2 < 2 := Nat.mod_lt _ (by norm_num)
          have h2 : n / 2 ^ (i + 1) % 2 < 2 := Nat.mod_lt _ (by norm_num)
          rw [digit] at *
          omega
        rw [← hk]
        exact ih _ (by omega) hf2

/-- At the coordinates of the point at infinity the algorithm gives 1, for all points of order `r`. -/
theorem signedMiller_zero_abscissa {y : Fp} (hy : y ≠ 0) {Q : G2} (hQ : r • Q = 0) (h0 : Q ≠ 0) :
    signedMiller 0 y Q ^ finalExp = 1 := by
  have htop : naf xPar ((3 * xPar).size - 2 + 1) = 1 := by decide +kernel
  have h := signedLoop_zero_abscissa hy hQ h0 (n := xPar) (by decide +kernel) ((3 * xPar).size - 2) 1 (by rw [htop])
    (one_pow _)
  rw [htop, one_nsmul] at h
  rw [signedMiller, h]

end Spec.B383
