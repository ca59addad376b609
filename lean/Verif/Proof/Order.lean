import Verif.Proof.Count
import Verif.Proof.Orders
import Verif.Spec.HashToCurve
import Mathlib.GroupTheory.OrderOfElement
import Mathlib.Tactic.IntervalCases
/-!
# The orders of the two curve groups

The curve over the base field has `h1·r` points, the twist `h2·r`.
-/

set_option exponentiation.threshold 2000

namespace Spec

open Finset

section count

variable {F : Type} [Field F] [DecidableEq F] {b : F} [g : GoodB b]

/-- A point is the neutral element or a pair on the curve. -/
noncomputable def ptEquiv : Option {xy : F × F // xy.2 ^ 2 = xy.1 ^ 3 + b} ≃ Pt b where
  toFun o := match o with
    | none => 0
    | some z => Pt.mk z.1.1 z.1.2 z.2
  invFun P := match P with
    | .zero => none
    | .some x y h => some ⟨(x, y), Pt.nonsingular_iff.1 h⟩
  left_inv o := by cases o <;> rfl
  right_inv P := by cases P <;> rfl

theorem card_pt [Fintype F] (hF : ringChar F ≠ 2) :
    Finite (Pt b) ∧ (Nat.card (Pt b) : Int) = Fintype.card F + 1 + Count.S b := by
  have hfin : Finite (Pt b) := Finite.of_equiv _ ptEquiv
  refine ⟨hfin, ?_⟩
  rw [← Nat.card_congr (ptEquiv (b := b)), Nat.card_eq_fintype_card, Fintype.card_option]
  have e : (Fintype.card {xy : F × F // xy.2 ^ 2 = xy.1 ^ 3 + b} : Int) = ∑ x : F, (quadraticChar F (x ^ 3 + b) + 1) := by
    rw [Fintype.card_subtype, ← Finset.sum_boole, Fintype.sum_prod_type]
    refine Fintype.sum_congr _ _ fun x => ?_
    rw [← quadraticChar_card_sqrts hF, Finset.sum_boole, Set.toFinset_ofPred]
  push_cast
  rw [e, sum_add_distrib, Count.S]
  simp
  ring

end count

/-! ### Descent -/

theorem descent {P : Nat} (hP : P.Prime) {a c x y M : Int} (hac : a ^ 2 + 3 * c ^ 2 = P)
    (h : x ^ 2 + 3 * y ^ 2 = 4 * P * M) :
    ∃ x' y', x' ^ 2 + 3 * y' ^ 2 = 4 * M ∧ x = a * x' - 3 * c * y' ∧
      (y = c * x' + a * y' ∨ -y = c * x' + a * y') := by
  have hp : Prime (P : Int) := Nat.prime_iff_prime_int.1 hP
  have hP0 : (P : Int) ≠ 0 := hp.ne_zero
  have key : ∀ y : Int, x ^ 2 + 3 * y ^ 2 = 4 * P * M → (P : Int) ∣ y * a - x * c →
      ∃ x' y', x' ^ 2 + 3 * y' ^ 2 = 4 * M ∧ x = a * x' - 3 * c * y' ∧ y = c * x' + a * y' := by
    rintro y h ⟨y', hy'⟩
    have hX : (P : Int) ∣ (x * a + 3 * y * c) := by
      refine hp.dvd_of_dvd_pow (n := 2) ⟨4 * P * M - 3 * P * y' ^ 2, ?_⟩
      linear_combination (a ^ 2 + 3 * c ^ 2) * h + 4 * P * M * hac - 3 * (y * a - x * c + P * y') * hy'
    obtain ⟨x', hx'⟩ := hX
    refine ⟨x', y', ?_, ?_, ?_⟩
    · apply mul_left_cancel₀ (pow_ne_zero 2 hP0)
      linear_combination (a ^ 2 + 3 * c ^ 2) * h + 4 * P * M * hac - 3 * (y * a - x * c + P * y') * hy' -
        (x * a + 3 * y * c + P * x') * hx'
    · apply mul_left_cancel₀ hP0
      linear_combination a * hx' - 3 * c * hy' - x * hac
    · apply mul_left_cancel₀ hP0
      linear_combination c * hx' + a * hy' - y * hac
  have hd : (P : Int) ∣ (y * a - x * c) * (-y * a - x * c) := by
    refine ⟨4 * M * c ^ 2 - y ^ 2, ?_⟩
    linear_combination c ^ 2 * h - y ^ 2 * hac
  rcases hp.dvd_or_dvd hd with h1 | h1
  · obtain ⟨x', y', e1, e2, e3⟩ := key y h h1
    exact ⟨x', y', e1, e2, .inl e3⟩
  · obtain ⟨x', y', e1, e2, e3⟩ := key (-y) (by linear_combination h) h1
    exact ⟨x', y', e1, e2, .inr e3⟩

theorem units_six {x y : Int} (h : x ^ 2 + 3 * y ^ 2 = 4) :
    (x = 2 ∧ y = 0) ∨ (x = -2 ∧ y = 0) ∨ (x = 1 ∧ y = 1) ∨ (x = 1 ∧ y = -1) ∨ (x = -1 ∧ y = 1) ∨
      (x = -1 ∧ y = -1) := by
  have h1 : x ≤ 2 := by nlinarith
  have h2 : -2 ≤ x := by nlinarith
  have h3 : y ≤ 1 := by nlinarith
  have h4 : -1 ≤ y := by nlinarith
  interval_cases x <;> interval_cases y <;> simp_all

/-- `p = π_a² + 3 π_c²`. -/
def pia : Int := 1732572413036826159502629170420196178159986834751407226880
@[inherit_doc pia]
def pic : Int := -577524137678942053167543056806732059391706403658116289877

theorem pi_norm : pia ^ 2 + 3 * pic ^ 2 = p := by norm_num [pia, pic, p]

/-- The published cofactor of the first group. -/
def h1 : Nat := 0x396c8c005555e1568c00aaab0000aaab

theorem trace1 {x y : Int} (h : x ^ 2 + 3 * y ^ 2 = 4 * p) (hr : (r : Int) ∣ p + 1 + x) :
    (p : Int) + 1 + x = h1 * r := by
  obtain ⟨x', y', e, ex, -⟩ := descent (M := 1) prime_p pi_norm (by rw [h]; ring)
  subst ex
  rcases units_six e with ⟨rfl, rfl⟩ | ⟨rfl, rfl⟩ | ⟨rfl, rfl⟩ | ⟨rfl, rfl⟩ | ⟨rfl, rfl⟩ | ⟨rfl, rfl⟩ <;>
    first
    | (norm_num [p, r, h1, pia, pic]; done)
    | (exfalso; revert hr; norm_num [p, r, pia, pic]; done)

theorem trace2 {x y : Int} (h : x ^ 2 + 3 * y ^ 2 = 4 * p ^ 2) (hr : (r : Int) ∣ p ^ 2 + 1 + x) :
    (p : Int) ^ 2 + 1 + x = h2 * r ∨ (p : Int) ^ 2 + 1 + x = Amcl.otherOrder := by
  obtain ⟨x', y', e, ex, -⟩ := descent (M := p) prime_p pi_norm (by rw [h]; ring)
  obtain ⟨x'', y'', e', ex', ey'⟩ := descent (M := 1) prime_p pi_norm (by rw [e]; ring)
  have ey' : y' = pic * x'' + pia * y'' ∨ y' = -(pic * x'' + pia * y'') := by
    rcases ey' with h | h
    · exact .inl h
    · exact .inr (by linear_combination -h)
  subst ex ex'
  rcases ey' with rfl | rfl <;>
  rcases units_six e' with ⟨rfl, rfl⟩ | ⟨rfl, rfl⟩ | ⟨rfl, rfl⟩ | ⟨rfl, rfl⟩ | ⟨rfl, rfl⟩ | ⟨rfl, rfl⟩ <;>
    first
    | (left; norm_num [p, r, h2, pia, pic]; done)
    | (right; norm_num [p, Amcl.otherOrder, pia, pic]; done)
    | (exfalso; revert hr; norm_num [p, r, pia, pic]; done)

theorem three_dvd_units {F : Type} [Field F] [Fintype F] [DecidableEq F] {n : Nat} (h : Fintype.card F = n)
    (hn : n % 3 = 1) : 3 ∣ Fintype.card Fˣ := by
  rw [Fintype.card_units, h]
  omega

theorem ringChar_ne {F : Type} [Field F] (h : (2 : F) ≠ 0) : ringChar F ≠ 2 := by
  intro e
  apply h
  have := ringChar.Nat.cast_ringChar (R := F)
  rw [e] at this
  exact_mod_cast this

theorem addOrder_gen {G : Type} [AddGroup G] [Finite G] {g : G} (h0 : g ≠ 0) (h : r • g = 0) : r ∣ Nat.card G := by
  rw [← addOrderOf_eq_prime h h0]
  exact addOrderOf_dvd_natCard g

noncomputable instance : Fintype Fp2 := Fintype.ofEquiv _ (QuadraticAlgebra.equivProd _ _).symm

theorem card_fp2 : Fintype.card Fp2 = p ^ 2 := by
  rw [Fintype.ofEquiv_card, Fintype.card_prod, ZMod.card, pow_two]

/-- **The curve over the base field has `h1·r` points.** -/
theorem card_G1 : Finite G1 ∧ Nat.card G1 = h1 * r := by
  obtain ⟨hfin, e⟩ := card_pt (b := b1) (ringChar_ne fp_two_ne)
  refine ⟨hfin, ?_⟩
  have hr : r ∣ Nat.card G1 := addOrder_gen (Pt.mk_ne g1_on) Amcl.r_gen1
  have h4 : (b1 : Fp) ≠ 0 := by
    rw [b1, show (4 : Fp) = 2 * 2 by norm_num]
    exact mul_ne_zero fp_two_ne fp_two_ne
  obtain ⟨f, hf⟩ := Count.S_norm (ringChar_ne fp_two_ne) (three_dvd_units (ZMod.card p) (by norm_num [p])) h4
  rw [ZMod.card] at hf e
  have hr' : (r : Int) ∣ p + 1 + Count.S b1 := by rw [← e]; exact Int.natCast_dvd_natCast.2 hr
  have := trace1 hf hr'
  rw [← e] at this
  exact_mod_cast this

theorem b2_ne : (b2 : Fp2) ≠ 0 := by
  rw [b2]
  intro h
  have := congrArg QuadraticAlgebra.im h
  simp [i, show (4 : Fp2).re = 4 from rfl, show (4 : Fp2).im = 0 from rfl, QuadraticAlgebra.re_one, QuadraticAlgebra.im_one] at this
  rw [show (4 : Fp) = 2 * 2 by norm_num] at this
  exact mul_ne_zero fp_two_ne fp_two_ne this

/-- **The twist has `h2·r` points.** -/
theorem card_G2 : Finite G2 ∧ Nat.card G2 = h2 * r := by
  obtain ⟨hfin, e⟩ := card_pt (b := b2) (ringChar_ne fp2_two_ne)
  refine ⟨hfin, ?_⟩
  have hr : r ∣ Nat.card G2 := addOrder_gen (Pt.mk_ne g2_on) Amcl.r_gen2
  obtain ⟨f, hf⟩ := Count.S_norm (ringChar_ne fp2_two_ne) (three_dvd_units card_fp2 (by norm_num [p])) b2_ne
  rw [card_fp2] at hf e
  push_cast at hf e
  have hr' : (r : Int) ∣ p ^ 2 + 1 + Count.S b2 := by rw [← e]; exact Int.natCast_dvd_natCast.2 hr
  rcases trace2 hf hr' with this | this
  · rw [← e] at this
    exact_mod_cast this
  · exfalso
    rw [← e] at this
    have hN : Nat.card G2 = Amcl.otherOrder := by exact_mod_cast this
    apply Amcl.two_not_other
    rw [← hN]
    exact card_nsmul_eq_zero'

end Spec
