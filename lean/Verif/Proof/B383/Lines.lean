import Verif.Spec.B383.Miller
import Verif.Proof.B383.LineValue
import Verif.Proof.Rcb
/-!
# The line formulas in projective coordinates
-/

set_option exponentiation.threshold 6000

namespace Spec.B383

open Amcl Amcl.B383

/-- Equality up to a factor that the final exponentiation kills. -/
def Same (v w : Fp12) : Prop := ∃ c, c ≠ 0 ∧ c ^ finalExp = 1 ∧ v = c * w

theorem Same.refl (v : Fp12) : Same v v := ⟨1, one_ne_zero, one_pow _, (one_mul v).symm⟩

theorem Same.mul {v w v' w' : Fp12} (h : Same v w) (h' : Same v' w') : Same (v * v') (w * w') := by
  obtain ⟨c, c0, c1, rfl⟩ := h
  obtain ⟨d, d0, d1, rfl⟩ := h'
  exact ⟨c * d, mul_ne_zero c0 d0, by rw [mul_pow, c1, d1, one_mul], by ring⟩

theorem Same.trans {u v w : Fp12} (h : Same u v) (h' : Same v w) : Same u w := by
  obtain ⟨c, c0, c1, rfl⟩ := h
  obtain ⟨d, d0, d1, rfl⟩ := h'
  exact ⟨c * d, mul_ne_zero c0 d0, by rw [mul_pow, c1, d1, one_mul], by ring⟩

theorem Same.sq {v w : Fp12} (h : Same v w) : Same (v ^ 2) (w ^ 2) := by
  rw [pow_two, pow_two]; exact h.mul h

theorem Same.pow_eq {v w : Fp12} (h : Same v w) : v ^ finalExp = w ^ finalExp := by
  obtain ⟨c, c0, c1, rfl⟩ := h
  rw [mul_pow, c1, one_mul]

theorem Same.of {c w : Fp12} {z : Fp2} {k : Nat} (hz : z ≠ 0) (h : c = ι2 z * W ^ k * w) : Same c w :=
  ⟨ι2 z * W ^ k, mul_ne_zero ((map_ne_zero ι2).2 hz) (pow_ne_zero _ W_ne), by
    rw [mul_pow, kill_ι2 hz, pow_right_comm, kill_W, one_pow, one_mul], h⟩

/-- The tangent line. -/
theorem tangent_same {X Y Z : Fp2} {A : G2} (h : Proj X Y Z A) (x y : Fp) :
    Same (ι2 (-(4 * Y * Z) * algebraMap Fp Fp2 y * (1 + i)) + ι2 (90 * Z ^ 2 * (1 + i) - 2 * Y ^ 2) * W ^ 3 +
      ι2 (6 * X ^ 2 * algebraMap Fp Fp2 x) * W ^ 5) (lineAt x y A A) := by
  have h2 := fp2_two_ne
  have hW := W_ne
  rcases h with ⟨rfl, hY, rfl, rfl⟩ | ⟨hZ, a, b, h, rfl, rfl, rfl⟩
  · refine Same.of (z := -(2 * Y ^ 2)) (k := 3) (neg_ne_zero.2 (mul_ne_zero h2 (pow_ne_zero _ hY))) ?_
    rw [zero_lineAt, vertAt_zero]
    simp
  · have hb : b ≠ 0 := Pt.y_ne h
    have h4 : (4 : Fp2) ≠ 0 := by
      rw [show (4 : Fp2) = 2 * 2 by norm_num]; exact mul_ne_zero h2 h2
    refine Same.of (z := -(4 * b * Z ^ 2)) (k := 6)
      (neg_ne_zero.2 (mul_ne_zero (mul_ne_zero h4 hb) (pow_ne_zero _ hZ))) ?_
    have hc : ¬ (a = a ∧ b = -b) := by
      rintro ⟨-, e⟩
      apply mul_ne_zero h2 hb
      linear_combination e
    have h' := congrArg ι2 h
    have hb' : ι2 b ≠ 0 := (map_ne_zero ι2).2 hb
    have h2' : (2 : Fp12) ≠ 0 := by
      have := (map_ne_zero ι2).2 h2
      rwa [map_ofNat] at this
    rw [lineAt_mk h h hc, if_pos rfl, ux, uy, ι1_eq, ι1_eq]
    simp only [map_add, map_mul, map_sub, map_pow, map_neg, map_ofNat, map_div₀, ι2_b2] at h' ⊢
    rw [← map_add ι2 1 i, ← W_six]
    field_simp
    linear_combination -(12 * ι2 Z ^ 2) * h'

/-- The chord. -/
theorem chord_same {X Y Z bx by' bz : Fp2} {A B : G2} (h : Proj X Y Z A) (h' : Proj bx by' bz B) (hz : B ≠ 0 → bz = 1)
    (hAB : B = 0 → A = 0) (x y : Fp) :
    Same (ι2 ((X - Z * bx) * algebraMap Fp Fp2 y * (1 + i)) +
      ι2 ((Y - Z * by') * bx - (X - Z * bx) * by') * W ^ 3 +
      ι2 (-((Y - Z * by') * algebraMap Fp Fp2 x)) * W ^ 5) (chordAt x y A B) := by
  have h2 := fp2_two_ne
  have hW := W_ne
  rcases h' with ⟨rfl, hY', rfl, rfl⟩ | ⟨hZ', c, d, h', rfl, rfl, rfl⟩
  · rw [hAB rfl] at h ⊢
    rcases h with ⟨rfl, hY, rfl, -⟩ | ⟨hZ, a, b, h, rfl, rfl, e⟩
    · refine Same.of (z := -Y) (k := 5) (neg_ne_zero.2 hY) ?_
      rw [chordAt, if_pos rfl, if_pos rfl, ι1_eq]
      simp
      ring
    · exact absurd e.symm (Pt.mk_ne h)
  · obtain rfl := hz (Pt.mk_ne h')
    rw [mul_one, mul_one]
    rcases h with ⟨rfl, hY, rfl, rfl⟩ | ⟨hZ, a, b, h, rfl, rfl, rfl⟩
    · refine Same.of (z := -Y) (k := 5) (neg_ne_zero.2 hY) ?_
      rw [chordAt, if_neg (Pt.mk_ne h').symm, zero_lineAt, vertAt_mk, ux, ι1_eq]
      simp only [map_add, map_mul, map_sub, map_pow, map_neg, map_zero]
      field_simp
      ring
    · rw [chordAt]
      split
      · next e =>
        obtain ⟨rfl, rfl⟩ := Pt.mk_inj.1 e
        rw [if_neg (Pt.mk_ne h)]
        refine Same.of (z := 1) (k := 0) one_ne_zero ?_
        rw [mul_zero]
        simp only [map_add, map_mul, map_sub, map_pow, map_neg]
        ring
      · next e =>
        by_cases hac : a = c
        · subst hac
          have hbd : b = -d := by
            have : (b - d) * (b + d) = 0 := by linear_combination h - h'
            rcases mul_eq_zero.1 this with e' | e'
            · exact absurd (Pt.mk_inj.2 ⟨rfl, sub_eq_zero.1 e'⟩) e
            · exact eq_neg_of_add_eq_zero_left e'
          have hd : d = -b := by rw [hbd, neg_neg]
          subst hd
          have hb : b ≠ 0 := Pt.y_ne h
          rw [lineAt_opp]
          refine Same.of (z := -(2 * b * Z)) (k := 5) (neg_ne_zero.2 (mul_ne_zero (mul_ne_zero h2 hb) hZ)) ?_
          rw [ux, ι1_eq]
          simp only [map_add, map_mul, map_sub, map_pow, map_neg, map_ofNat]
          field_simp
          ring
        · have hd : a - c ≠ 0 := sub_ne_zero.2 hac
          have hd' : ι2 a - ι2 c ≠ 0 := by rw [← map_sub]; exact (map_ne_zero ι2).2 hd
          rw [lineAt_mk h h' (fun e => hac e.1), if_neg hac]
          refine Same.of (z := (a - c) * Z) (k := 6) (mul_ne_zero hd hZ) ?_
          rw [ux, uy, ι1_eq, ι1_eq]
          simp only [map_add, map_mul, map_sub, map_pow, map_neg, map_ofNat, map_div₀]
          rw [← map_add ι2 1 i, ← W_six]
          field_simp
          ring

end Spec.B383
