import Verif.Proof.B383.Ate
import Verif.Proof.B383.Reciprocity
/-!
# Miller's algorithm with signed digits computes the pairing
-/

set_option exponentiation.threshold 6000

namespace Spec.B383

open Amcl.B383 (FP12.naf FP12.naf_step FP12.naf_one)
open Amcl.B383.FP12 (naf naf_step naf_one)

theorem smul_ne {Q : G2} (hQ : r • Q = 0) (h0 : Q ≠ 0) {k : Nat} (hk : 0 < k) (hk' : k < r) : k • Q ≠ 0 := by
  have := Fact.mk Primes.B383.prime_r
  intro h
  have h1 := addOrderOf_dvd_of_nsmul_eq_zero h
  rw [addOrderOf_eq_prime hQ h0] at h1
  exact absurd (Nat.le_of_dvd hk h1) (by omega)

theorem naf_le (n j : Nat) : naf n j ≤ 3 * n := (Nat.sub_le _ _).trans (Nat.div_le_self _ _)

theorem signedLoop_eq {x y : Fp} (hP : y ^ 2 = x ^ 3 + b1) {Q : G2} (hQ : r • Q = 0) (h0 : Q ≠ 0) {n : Nat}
    (hn : 6 * n + 1 < r) : ∀ (i : Nat) (f : Fp12), 1 ≤ naf n (i + 1) →
      f ^ finalExp = (mill (U hP) Q (naf n (i + 1)) : Fp12ˣ) →
      (signedLoop x y n Q i f (naf n (i + 1) • Q)) ^ finalExp = (mill (U hP) Q n : Fp12ˣ) := by
  intro i
  have hc := U_cocycle hP
  induction i with
  | zero =>
    intro f _ hf
    rw [naf_one] at hf
    exact hf
  | succ i ih =>
    intro f hm hf
    rw [signedLoop]
    have step := naf_step n (i + 1)
    rw [← digit] at step
    have hle := naf_le n (i + 1 + 1)
    generalize naf n (i + 1 + 1) = m at *
    have e2 : m • Q + m • Q = (2 * m) • Q := by rw [two_mul, add_nsmul]
    have hf2 : (f ^ 2 * lineAt x y (m • Q) (m • Q)) ^ finalExp = (mill (U hP) Q (2 * m) : Fp12ˣ) := by
      rw [hc.mill_dbl, Units.val_mul, Units.val_pow_eq_pow_val, ← hf, mul_pow]
      refine congrArg₂ _ ?_ rfl
      exact pow_right_comm _ _ _
    rw [e2]
    split
    · next hd =>
      have hk : naf n (i + 1) = 2 * m + 1 := by omega
      rw [← succ_nsmul, ← hk]
      refine ih _ (by omega) ?_
      have hne : (2 * m) • Q ≠ Q := by
        intro e
        have : (2 * m - 1) • Q = 0 := by
          have h3 : (2 * m - 1) • Q + Q = Q := by rw [← succ_nsmul, Nat.sub_add_cancel (by omega)]; exact e
          simpa using h3
        exact smul_ne hQ h0 (by omega) (by omega) this
      rw [chordAt, if_neg hne, mul_pow, hf2, hk, mill, Units.val_mul]
      rfl
    · split
      · next hd =>
        have hk : 2 * m = naf n (i + 1) + 1 := by omega
        have e3 : (2 * m) • Q + -Q = naf n (i + 1) • Q := by rw [hk, succ_nsmul, add_neg_cancel_right]
        rw [e3]
        refine ih _ (by omega) ?_
        have hne : (2 * m) • Q ≠ -Q := by
          intro e
          have : (2 * m + 1) • Q = 0 := by rw [succ_nsmul, e, neg_add_cancel]
          exact smul_ne hQ h0 (by omega) (by omega) this
        rw [chordAt, if_neg hne, mul_pow, hf2, hc.mill_pred Q (naf n (i + 1)), ← hk, Units.val_mul]
        rfl
      · next hd hd' =>
        have hk : naf n (i + 1) = 2 * m := by
          have h1 : 3 * n / 2 ^ (i + 1) % 2 < 2 := Nat.mod_lt _ (by norm_num)
          have h2 : n / 2 ^ (i + 1) % 2 < 2 := Nat.mod_lt _ (by norm_num)
          rw [digit] at *
          omega
        rw [← hk]
        exact ih _ (by omega) (by rw [hk]; exact hf2)

/-- On the subgroup of order `r`, Miller's algorithm with signed digits computes the pairing. -/
theorem signedMiller_eq {x y : Fp} (hP : y ^ 2 = x ^ 3 + b1) {Q : G2} (hQ : r • Q = 0) (h0 : Q ≠ 0) :
    signedMiller x y Q ^ finalExp = pairing Q (Pt.mk x y hP) := by
  have htop : naf xPar ((3 * xPar).size - 2 + 1) = 1 := by decide +kernel
  have h := signedLoop_eq hP hQ h0 (n := xPar) (by decide +kernel) ((3 * xPar).size - 2) 1
    (by rw [htop]) (by rw [htop, (U_cocycle hP).mill_one, one_pow]; rfl)
  rw [htop, one_nsmul] at h
  rw [pairing_eq, M_mk, ← h]
  rfl

theorem signedLoop_inf {x y : Fp} (hx : x ≠ 0) (n : Nat) : ∀ (i : Nat) (f : Fp12), f ^ finalExp = 1 →
    (signedLoop x y n 0 i f 0) ^ finalExp = 1 := by
  have hk : (ι1 x) ^ finalExp = 1 := kill ((map_ne_zero ι1).2 hx) (Or.inl (τ_ι1 x))
  intro i
  induction i with
  | zero => intro f hf; exact hf
  | succ i ih =>
    intro f hf
    rw [signedLoop]
    have hf2 : (f ^ 2 * lineAt x y 0 0) ^ finalExp = 1 := by
      rw [zero_lineAt, vertAt_zero, mul_one, pow_right_comm, hf, one_pow]
    have hf3 : (f ^ 2 * lineAt x y 0 0 * ι1 x) ^ finalExp = 1 := by rw [mul_pow, hf2, hk, one_mul]
    have e1 : chordAt x y 0 0 = ι1 x := by rw [chordAt, if_pos rfl, if_pos rfl]
    simp only [add_zero, neg_zero, e1]
    split
    · exact ih _ hf3
    · split
      · exact ih _ hf3
      · exact ih _ hf2

/-- The point at infinity pairs to 1 with every point with nonzero first coordinate. -/
theorem signedMiller_inf {x y : Fp} (hx : x ≠ 0) : signedMiller x y 0 ^ finalExp = 1 := by
  rw [signedMiller, signedLoop_inf hx _ _ _ (one_pow _)]

theorem signedLoop_zero {y : Fp} (n : Nat) : ∀ (i : Nat) (f : Fp12),
    (f = 0 ∨ ∃ j, 1 ≤ j ∧ j ≤ i ∧ digit n j ≠ 0) → signedLoop 0 y n 0 i f 0 = 0 := by
  intro i
  induction i with
  | zero =>
    intro f hf
    rcases hf with rfl | ⟨j, h1, h2, -⟩
    · rfl
    · omega
  | succ i ih =>
    intro f hf
    rw [signedLoop]
    have e1 : chordAt (0 : Fp) y 0 0 = 0 := by rw [chordAt, if_pos rfl, if_pos rfl, map_zero]
    simp only [add_zero, neg_zero, e1, mul_zero]
    split
    · exact ih _ (Or.inl rfl)
    · split
      · exact ih _ (Or.inl rfl)
      · next hd hd' =>
        apply ih
        rcases hf with rfl | ⟨j, h1, h2, h3⟩
        · left; ring
        · right
          refine ⟨j, h1, ?_, h3⟩
          by_contra hj
          have : j = i + 1 := by omega
          subst this
          have h1 : 3 * n / 2 ^ (i + 1) % 2 < 2 := Nat.mod_lt _ (by norm_num)
          have h2 : n / 2 ^ (i + 1) % 2 < 2 := Nat.mod_lt _ (by norm_num)
          rw [digit] at *
          omega

/-- The point at infinity pairs to 0 with the points with first coordinate 0. -/
theorem signedMiller_inf_zero (y : Fp) : signedMiller 0 y 0 = 0 :=
  signedLoop_zero _ _ _ (Or.inr ⟨10, by norm_num, by decide +kernel, by decide +kernel⟩)

end Spec.B383
