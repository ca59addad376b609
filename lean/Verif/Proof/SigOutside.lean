import Verif.Proof.Verify
import Verif.Proof.Order
import Mathlib.RingTheory.RootsOfUnity.PrimitiveRoots
import Mathlib.Combinatorics.Pigeonhole
/-!
# The pairing algorithm at points of the twist outside the subgroup
-/

set_option exponentiation.threshold 6000

namespace Spec

open Amcl Amcl.Eval

open Amcl (FP12.naf FP12.naf_step FP12.naf_one)
open Amcl.FP12 (naf naf_step naf_one)

seal Spec.finalExp

/-- The multiples of a point that are infinity. -/
theorem coprime_smul {k : Nat} (hk : Nat.Coprime k (h2 * r)) {Q : G2} (h : k • Q = 0) : Q = 0 := by
  have := card_G2.1
  have hc : (h2 * r) • Q = 0 := by
    rw [← card_G2.2]
    exact card_nsmul_eq_zero'
  have h3 := Nat.dvd_gcd (addOrderOf_dvd_of_nsmul_eq_zero h) (addOrderOf_dvd_of_nsmul_eq_zero hc)
  rw [hk] at h3
  exact AddMonoid.addOrderOf_eq_one_iff.1 (Nat.dvd_one.1 h3)

/-- No addition of the loop meets a tangent: the two summands are equal only if a multiple coprime to the number
of points is infinity. -/
def Chords (n i : Nat) : Prop := ∀ j, 1 ≤ j → j ≤ i →
  (digit n j = 1 → 1 ≤ naf n (j + 1) ∧ Nat.Coprime (2 * naf n (j + 1) - 1) (h2 * r)) ∧
  (digit n j = -1 → 1 ≤ naf n (j + 1) ∧ Nat.Coprime (2 * naf n (j + 1) + 1) (h2 * r))

theorem signedLoop_all {x y : Fp} (hP : y ^ 2 = x ^ 3 + b1) {Q : G2} (h0 : Q ≠ 0) {n : Nat} : ∀ (i : Nat) (f : Fp12),
    Chords n i → f ^ finalExp = (mill (U hP) Q (naf n (i + 1)) : Fp12ˣ) →
      (signedLoop x y n Q i f (naf n (i + 1) • Q)) ^ finalExp = (mill (U hP) Q n : Fp12ˣ) := by
  intro i
  have hc := U_cocycle hP
  induction i with
  | zero =>
    intro f _ hf
    rw [naf_one] at hf
    exact hf
  | succ i ih =>
    intro f hm hf
    rw [signedLoop]
    have step := naf_step n (i + 1)
    rw [← digit] at step
    obtain ⟨hp, hn⟩ := hm (i + 1) (by omega) le_rfl
    have hm' : Chords n i := fun j h h' => hm j h (by omega)
    generalize naf n (i + 1 + 1) = m at *
    have e2 : m • Q + m • Q = (2 * m) • Q := by rw [two_mul, add_nsmul]
    have hf2 : (f ^ 2 * lineAt x y (m • Q) (m • Q)) ^ finalExp = (mill (U hP) Q (2 * m) : Fp12ˣ) := by
      rw [hc.mill_dbl, Units.val_mul, Units.val_pow_eq_pow_val, ← hf, mul_pow]
      refine congrArg₂ _ ?_ rfl
      exact pow_right_comm _ _ _
    rw [e2]
    split
    · next hd =>
      obtain ⟨h1, hcop⟩ := hp hd
      have hk : naf n (i + 1) = 2 * m + 1 := by omega
      rw [← succ_nsmul, ← hk]
      refine ih _ hm' ?_
      have hne : (2 * m) • Q ≠ Q := by
        intro e
        have : (2 * m - 1) • Q = 0 := by
          have h3 : (2 * m - 1) • Q + Q = Q := by rw [← succ_nsmul, Nat.sub_add_cancel (by omega)]; exact e
          simpa using h3
        exact h0 (coprime_smul hcop this)
      rw [chordAt, if_neg hne, mul_pow, hf2, hk, mill, Units.val_mul]
      rfl
    · split
      · next hd =>
        obtain ⟨h1, hcop⟩ := hn hd
        have hk : 2 * m = naf n (i + 1) + 1 := by omega
        have e3 : (2 * m) • Q + -Q = naf n (i + 1) • Q := by rw [hk, succ_nsmul, add_neg_cancel_right]
        rw [e3]
        refine ih _ hm' ?_
        have hne : (2 * m) • Q ≠ -Q := by
          intro e
          have : (2 * m + 1) • Q = 0 := by rw [succ_nsmul, e, neg_add_cancel]
          exact h0 (coprime_smul hcop this)
        rw [chordAt, if_neg hne, mul_pow, hf2, hc.mill_pred Q (naf n (i + 1)), ← hk, Units.val_mul]
        rfl
      · next hd hd' =>
        have hk : naf n (i + 1) = 2 * m := by
          have h1 : 3 * n / 2 ^ (i + 1) % 2 < 2 := Nat.mod_lt _ (by norm_num)
          have h2 : n / 2 ^ (i + 1) % 2 < 2 := Nat.mod_lt _ (by norm_num)
          rw [digit] at *
          omega
        rw [← hk]
        exact ih _ hm' (by rw [hk]; exact hf2)

theorem chords_xAbs : Chords xAbs ((3 * xAbs).size - 2) := by
  have h : ∀ j < (3 * xAbs).size - 2 + 1, 1 ≤ j →
      (digit xAbs j = 1 → 1 ≤ naf xAbs (j + 1) ∧ Nat.Coprime (2 * naf xAbs (j + 1) - 1) (h2 * r)) ∧
      (digit xAbs j = -1 → 1 ≤ naf xAbs (j + 1) ∧ Nat.Coprime (2 * naf xAbs (j + 1) + 1) (h2 * r)) := by
    decide +kernel
  exact fun j h1 h2 => h j (by omega) h1

/-- At every finite point of the twist, of any order, Miller's algorithm with signed digits gives the value
defined by the linear recursion. -/
theorem signedMiller_all {x y : Fp} (hP : y ^ 2 = x ^ 3 + b1) {Q : G2} (h0 : Q ≠ 0) :
    (signedMiller x y Q)⁻¹ ^ finalExp = pairing Q (Pt.mk x y hP) := by
  have htop : naf xAbs ((3 * xAbs).size - 2 + 1) = 1 := by decide +kernel
  have h := signedLoop_all hP h0 (n := xAbs) ((3 * xAbs).size - 2) 1 chords_xAbs
    (by rw [htop, (U_cocycle hP).mill_one, one_pow]; rfl)
  rw [htop, one_nsmul] at h
  rw [pairing_eq, M_mk, Units.val_inv_eq_inv_val, ← h, ← inv_pow]
  rfl

theorem signedLoop_zero_all {y : Fp} (hy : y ≠ 0) {Q : G2} (h0 : Q ≠ 0) {n : Nat} : ∀ (i : Nat) (f : Fp12),
    Chords n i → f ^ finalExp = 1 → signedLoop 0 y n Q i f (naf n (i + 1) • Q) ^ finalExp = 1 := by
  intro i
  induction i with
  | zero => intro f _ hf; exact hf
  | succ i ih =>
    intro f hm hf
    rw [signedLoop]
    have step := naf_step n (i + 1)
    rw [← digit] at step
    obtain ⟨hp, hn⟩ := hm (i + 1) (by omega) le_rfl
    have hm' : Chords n i := fun j h h' => hm j h (by omega)
    generalize naf n (i + 1 + 1) = m at *
    have e2 : m • Q + m • Q = (2 * m) • Q := by rw [two_mul, add_nsmul]
    have hf2 : (f ^ 2 * lineAt 0 y (m • Q) (m • Q)) ^ finalExp = 1 := by
      rw [mul_pow, kill_lineAt hy, pow_right_comm, hf, one_pow, one_mul]
    rw [e2]
    split
    · next hd =>
      obtain ⟨h1, hcop⟩ := hp hd
      have hk : naf n (i + 1) = 2 * m + 1 := by omega
      rw [← succ_nsmul, ← hk]
      refine ih _ hm' ?_
      have hne : (2 * m) • Q ≠ Q := by
        intro e
        have : (2 * m - 1) • Q = 0 := by
          have h3 : (2 * m - 1) • Q + Q = Q := by rw [← succ_nsmul, Nat.sub_add_cancel (by omega)]; exact e
          simpa using h3
        exact h0 (coprime_smul hcop this)
      rw [chordAt, if_neg hne, mul_pow, hf2, kill_lineAt hy, one_mul]
    · split
      · next hd =>
        obtain ⟨h1, hcop⟩ := hn hd
        have hk : 2 * m = naf n (i + 1) + 1 := by omega
        have e3 : (2 * m) • Q + -Q = naf n (i + 1) • Q := by rw [hk, succ_nsmul, add_neg_cancel_right]
        rw [e3]
        refine ih _ hm' ?_
        have hne : (2 * m) • Q ≠ -Q := by
          intro e
          have : (2 * m + 1) • Q = 0 := by rw [succ_nsmul, e, neg_add_cancel]
          exact h0 (coprime_smul hcop this)
        rw [chordAt, if_neg hne, mul_pow, hf2, kill_lineAt hy, one_mul]
      · next hd hd' =>
        have hk : naf n (i + 1) = 2 * m := by
          have h1 : 3 * n / 2 ^ (i + 1) % 2 < 2 := Nat.mod_lt _ (by norm_num)
          have h2 : n / 2 ^ (i + 1) % 2 < 2 := Nat.mod_lt _ (by norm_num)
          rw [digit] at *
          omega
        rw [← hk]
        exact ih _ hm' hf2

/-- At the coordinates of the point at infinity the algorithm gives 1, for all finite points of the twist. -/
theorem signedMiller_zero_all {y : Fp} (hy : y ≠ 0) {Q : G2} (h0 : Q ≠ 0) : (signedMiller 0 y Q)⁻¹ ^ finalExp = 1 := by
  have htop : naf xAbs ((3 * xAbs).size - 2 + 1) = 1 := by decide +kernel
  have h := signedLoop_zero_all hy h0 (n := xAbs) ((3 * xAbs).size - 2) 1 chords_xAbs (one_pow _)
  rw [htop, one_nsmul] at h
  rw [inv_pow, signedMiller, h, inv_one]

/-- `ate_pairing` computes the pairing at all points of the twist, unless both arguments are infinity, or the
first is and the other has abscissa 0. -/
theorem pairing_all_wp {P : ECP2} {Q : G2} {R : ECP} {g : G1} (hP : P.Aff Q) (hR : R.Aff g)
    (hx : Q = 0 → g ≠ 0 ∧ XNe g) : Wp (utils.ate_pairing P R) fun z => FP12.Can z (pairing Q g) := by
  by_cases h0 : Q = 0
  · exact pairing_wp hP (by rw [h0, smul_zero]) hR hx
  rcases Pt.cases g with rfl | ⟨x, y, h, rfl⟩
  · obtain ⟨h1, h2⟩ := hR.1.inf_coords
    refine (pair.ate_pairing_wp hP.1 hP.2 (hR.1.x.mono (by norm_num)) (hR.1.y.mono (by norm_num))).mono fun z hz => ?_
    rw [h1, signedMiller_zero_all h2 h0] at hz
    exact hz
  · obtain ⟨h1, h2⟩ := hR.coords
    refine (pair.ate_pairing_wp hP.1 hP.2 h1 h2).mono fun z hz => ?_
    rwa [signedMiller_all h h0] at hz

/-- The pairing of every point of the twist is an `r`-th root of unity. -/
theorem pairing_pow_r_all (Q : G2) (P : G1) : pairing Q P ^ r = 1 := by
  rcases Pt.cases P with rfl | ⟨x, y, h, rfl⟩
  · rw [pairing_zero_right, one_pow]
  · by_cases h0 : Q = 0
    · rw [h0, pairing_zero_left, one_pow]
    · rw [← signedMiller_all h h0, inv_pow, inv_pow, pow_finalExp_r _ dvd_rfl, inv_one]
      intro e
      have h1 := signedMiller_all h h0
      rw [e, inv_zero, zero_pow (by decide +kernel)] at h1
      exact pairing_ne _ _ h1.symm

/-- The logarithm of the pairing with the generator. -/
theorem exists_log (S : G2) : ∃ k, k < r ∧ pairing S gen1 = pairing gen2 gen1 ^ k := by
  have hr : NeZero r := ⟨by decide +kernel⟩
  have hp : IsPrimitiveRoot (pairing gen2 gen1) r := by
    have h := IsPrimitiveRoot.orderOf (pairing gen2 gen1)
    rwa [orderOf_pairing] at h
  obtain ⟨k, h, hk⟩ := hp.eq_pow_of_pow_eq_one (pairing_pow_r_all S gen1)
  exact ⟨k, h, hk.symm⟩

/-- Every point of the twist pairs with the generator as a point of the subgroup. -/
theorem exists_shadow (S : G2) : ∃ S' : G2, r • S' = 0 ∧ pairing S' gen1 = pairing S gen1 := by
  obtain ⟨k, -, hk⟩ := exists_log S
  exact ⟨k • gen2, by rw [smul_comm, Amcl.r_gen2, smul_zero], by rw [pairing_nsmul_left Amcl.r_gen2, hk]⟩

/-- At least `h2` points of the twist have the same pairing with the generator. -/
theorem exists_many : ∃ S' : G2, r • S' = 0 ∧ ∃ A : Finset G2, h2 ≤ A.card ∧ ∀ S ∈ A, pairing S gen1 = pairing S' gen1 := by
  classical
  obtain ⟨hf, hc⟩ := card_G2
  have := Fintype.ofFinite G2
  choose k hk hk' using exists_log
  have hr : Nonempty (Fin r) := ⟨⟨0, by decide +kernel⟩⟩
  obtain ⟨c, h⟩ := Fintype.exists_le_card_fiber_of_mul_le_card (fun S : G2 => (⟨k S, hk S⟩ : Fin r)) (n := h2)
    (by rw [Fintype.card_fin, ← Nat.card_eq_fintype_card, hc, mul_comm])
  refine ⟨c.1 • gen2, by rw [smul_comm, Amcl.r_gen2, smul_zero], _, h, fun S hS => ?_⟩
  rw [Finset.mem_filter] at hS
  rw [pairing_nsmul_left Amcl.r_gen2, hk', ← hS.2]

/-- The value of Miller's algorithm at a finite point and the generator. -/
def millAt (a b nb : Nat × Nat) : E12 :=
  loopE g1x g1y xAbs ⟨a, b, (1, 0)⟩ ⟨a, nb, (1, 0)⟩ ((3 * xAbs).size - 2) E12.one ⟨a, b, (1, 0)⟩

/-- A test for a pairing that is not 1. -/
theorem pairing_ne_one {a b nb : Nat × Nat} {Q : G2} (h0 : Q ≠ 0) (h : Is fp2 ⟨a, b, (1, 0)⟩ Q)
    (hn : Is fp2 ⟨a, nb, (1, 0)⟩ (-Q)) (he : (E12.pow (millAt a b nb) 2040 ((p ^ 2 + 1) * hardExp)).c7 % p ≠ 0) :
    pairing Q gen1 ≠ 1 := by
  intro h1
  have hs : Same (millAt a b nb).toF (signedMiller g1x g1y Q) :=
    loopE_same h hn h0 rfl rfl _ _ _ _ _ (by rw [E12.one_toF]; exact Same.refl 1) h
  have h2 : pairing Q gen1 = (signedMiller g1x g1y Q)⁻¹ ^ finalExp := (signedMiller_all g1_on h0).symm
  rw [h1, inv_pow, ← hs.pow_eq, eq_comm, inv_eq_one] at h2
  have hG := E12.pow_toF (millAt a b nb) 2040 ((p ^ 2 + 1) * hardExp) (by decide +kernel)
  generalize E12.pow (millAt a b nb) 2040 ((p ^ 2 + 1) * hardExp) = G at hG he
  apply he
  have hG1 : G.toF ^ (p ^ 6 - 1) = 1 := by
    rw [hG, ← pow_mul, mul_comm, ← mul_assoc, ← finalExp_eq]
    exact h2
  have hτ : τ G.toF = G.toF := by
    rw [τ_eq, show p ^ 6 = (p ^ 6 - 1) + 1 by decide +kernel, pow_succ, hG1, one_mul]
  have := τ_fixed hτ
  rwa [ZMod.natCast_eq_zero_iff, Nat.dvd_iff_mod_eq_zero] at this

theorem two_eval : (E12.pow (millAt (2, 0) (two_ya, two_yb) (p - two_ya, p - two_yb)) 2040 ((p ^ 2 + 1) * hardExp)).c7 % p ≠ 0 := by
  decide +kernel

theorem two_eval' : (E12.pow (millAt (2, 0) (p - two_ya, p - two_yb) (two_ya, two_yb)) 2040 ((p ^ 2 + 1) * hardExp)).c7 % p ≠ 0 := by
  decide +kernel

theorem ntwo_is : Is fp2 ⟨(2, 0), (p - two_ya, p - two_yb), (1, 0)⟩ (-(Pt.mk _ _ two_on : G2)) := by
  have h := Proj.neg (two_is two_on)
  have e : fp2.toF (p - two_ya, p - two_yb) = -fp2.toF (two_ya, two_yb) := by
    have h1 : two_ya ≤ p := by decide +kernel
    have h2 : two_yb ≤ p := by decide +kernel
    apply QuadraticAlgebra.ext
    · simp [fp2, fp, Nat.cast_sub h1]
    · simp [fp2, fp, Nat.cast_sub h2]
  rw [← e] at h
  exact h

/-- Neither point over the abscissa 2 pairs to 1 with the generator. -/
theorem pairing_two : pairing (Pt.mk _ _ two_on) gen1 ≠ 1 ∧ pairing (-Pt.mk _ _ two_on) gen1 ≠ 1 :=
  ⟨pairing_ne_one (Pt.mk_ne _) (two_is two_on) ntwo_is two_eval,
    pairing_ne_one (neg_ne_zero.2 (Pt.mk_ne _)) ntwo_is (by rw [neg_neg]; exact two_is two_on) two_eval'⟩

end Spec
