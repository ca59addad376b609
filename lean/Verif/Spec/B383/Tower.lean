import Mathlib.FieldTheory.KummerPolynomial
import Mathlib.RingTheory.AdjoinRoot
import Mathlib.FieldTheory.Finite.Basic
import Verif.Spec.B383.Groups
/-!
# Specification: the tower `Fp2 ⊂ Fp4 ⊂ Fp12`

`Fp4 = Fp2(V)` with `V² = 1 + i`, and `Fp12 = Fp4(W)` with `W³ = V`.
-/

set_option exponentiation.threshold 2000

namespace Spec.B383

open Polynomial

theorem norm_one_add_i : QuadraticAlgebra.norm (1 + i : Fp2) = 2 := by
  rw [QuadraticAlgebra.norm_def]
  simp [i, QuadraticAlgebra.re_one, QuadraticAlgebra.im_one]; norm_num

/-- `1 + i` is not a square: its norm 2 is not. -/
theorem one_add_i_nonsquare (z : Fp2) : z ^ 2 ≠ 1 + i := by
  intro h
  have e := congrArg QuadraticAlgebra.norm h
  rw [map_pow, norm_one_add_i] at e
  have h2 : IsSquare (2 : Fp) := ⟨QuadraticAlgebra.norm z, by rw [← e, sq]⟩
  rw [ZMod.exists_sq_eq_two_iff (by norm_num [p])] at h2
  norm_num [p] at h2

/-- The quartic extension, with `V² = 1 + i`. -/
abbrev Fp4 := QuadraticAlgebra Fp2 (1 + i) 0

instance fact_fp4 : Fact (∀ r : Fp2, r ^ 2 ≠ (1 + i) + 0 * r) := ⟨fun r h => by
  rw [zero_mul, add_zero] at h
  exact one_add_i_nonsquare r h⟩

/-- The square root of `1 + i`. -/
def V : Fp4 := ⟨0, 1⟩

theorem V_sq : V ^ 2 = algebraMap Fp2 Fp4 (1 + i) := by
  rw [sq]; ext <;> simp [V, QuadraticAlgebra.re_one, QuadraticAlgebra.im_one]

/-- `2` is not a cube in the base field. -/
theorem two_noncube (x : Fp) : x ^ 3 ≠ 2 := by
  exact_mod_cast noncube 2 (by decide +kernel) (by decide +kernel) x

/-- `V` is not a cube: its norm down to the base field is not. -/
theorem V_noncube (z : Fp4) : z ^ 3 ≠ V := by
  intro h
  have e := congrArg (fun z => QuadraticAlgebra.norm (QuadraticAlgebra.norm z)) h
  have hV : QuadraticAlgebra.norm V = -(1 + i) := by
    rw [QuadraticAlgebra.norm_def]; simp [V]
  rw [map_pow, map_pow, hV, QuadraticAlgebra.norm_neg, norm_one_add_i] at e
  exact two_noncube _ e

/-- The defining polynomial of `W`. -/
noncomputable def polyW : Fp4[X] := X ^ 3 - C V

instance fact_polyW : Fact (Irreducible polyW) :=
  ⟨X_pow_sub_C_irreducible_of_prime Nat.prime_three V_noncube⟩

/-- The extension of degree 12, with `W³ = V`. -/
def Fp12 : Type := AdjoinRoot polyW

noncomputable instance : Field Fp12 := inferInstanceAs (Field (AdjoinRoot polyW))

noncomputable instance : DecidableEq Fp12 := Classical.decEq _

/-- The embedding of the quartic extension. -/
noncomputable def ι4 : Fp4 →+* Fp12 := AdjoinRoot.of polyW

/-- The embedding of the quadratic extension. -/
noncomputable def ι2 : Fp2 →+* Fp12 := ι4.comp (algebraMap Fp2 Fp4)

/-- The embedding of the base field. -/
noncomputable def ι1 : Fp →+* Fp12 := ι2.comp (algebraMap Fp Fp2)

/-- The cube root of `V`. -/
noncomputable def W : Fp12 := AdjoinRoot.root polyW

theorem W_cube : W ^ 3 = ι4 V := by
  have h : (AdjoinRoot.root polyW) ^ 3 - AdjoinRoot.of polyW V = 0 := by
    have := AdjoinRoot.eval₂_root polyW
    have e : polyW = X ^ 3 - C V := rfl
    have h2 := congrArg (eval₂ (AdjoinRoot.of polyW) (AdjoinRoot.root polyW)) e
    rw [this, eval₂_sub, eval₂_pow, eval₂_X, eval₂_C] at h2
    exact h2.symm
  exact sub_eq_zero.1 h

theorem ι4_mk (a b : Fp2) : ι4 ⟨a, b⟩ = ι2 a + ι2 b * W ^ 3 := by
  rw [W_cube, ι2, RingHom.comp_apply, RingHom.comp_apply, ← map_mul, ← map_add]
  congr 1
  ext <;> simp [V]

theorem W_six : W ^ 6 = ι2 (1 + i) := by
  rw [show W ^ 6 = (W ^ 3) ^ 2 by ring, W_cube, ← map_pow, V_sq]; rfl

theorem W_ne : W ≠ 0 := by
  intro h
  have := W_cube
  rw [h, zero_pow (by norm_num)] at this
  have h2 := (map_eq_zero ι4).1 this.symm
  have := congrArg QuadraticAlgebra.im h2
  simp [V] at this

theorem monic_polyW : polyW.Monic := monic_X_pow_sub_C V (by norm_num)

theorem natDegree_polyW : polyW.natDegree = 3 := natDegree_X_pow_sub_C

/-- `1, W, W²` are independent. -/
theorem Fp12_eq_zero {a b c : Fp4} (h : ι4 a + ι4 b * W + ι4 c * W ^ 2 = 0) : a = 0 ∧ b = 0 ∧ c = 0 := by
  have h1 : AdjoinRoot.mk polyW (C a + C b * X + C c * X ^ 2) = 0 := by
    rw [map_add, map_add, map_mul, map_mul, map_pow, AdjoinRoot.mk_X, AdjoinRoot.mk_C, AdjoinRoot.mk_C,
      AdjoinRoot.mk_C]
    exact h
  rw [AdjoinRoot.mk_eq_zero] at h1
  have h2 := Polynomial.eq_zero_of_dvd_of_degree_lt h1 (by
    rw [degree_eq_natDegree monic_polyW.ne_zero, natDegree_polyW]
    refine lt_of_le_of_lt (b := 2) ?_ (by norm_num)
    compute_degree)
  have e0 := congrArg (coeff · 0) h2
  have e1 := congrArg (coeff · 1) h2
  have e2 := congrArg (coeff · 2) h2
  simp [coeff_X, coeff_C] at e0 e1 e2
  exact ⟨e0, e1, e2⟩

/-- Coordinates are unique. -/
theorem Fp12_ext_iff {a b c a' b' c' : Fp4} :
    ι4 a + ι4 b * W + ι4 c * W ^ 2 = ι4 a' + ι4 b' * W + ι4 c' * W ^ 2 ↔ a = a' ∧ b = b' ∧ c = c' := by
  constructor
  · intro h
    have := Fp12_eq_zero (a := a - a') (b := b - b') (c := c - c') (by
      simp only [map_sub]; linear_combination h)
    simpa [sub_eq_zero] using this
  · rintro ⟨rfl, rfl, rfl⟩; rfl

/-- Every element has coordinates. -/
theorem Fp12_exists (z : Fp12) : ∃ a b c : Fp4, z = ι4 a + ι4 b * W + ι4 c * W ^ 2 := by
  obtain ⟨f, hf⟩ := AdjoinRoot.mk_surjective (g := polyW) z
  have hm := modByMonic_add_div f polyW
  have hd : (f %ₘ polyW).natDegree < 3 := by
    have := natDegree_modByMonic_lt f monic_polyW (by
      intro h
      have := natDegree_polyW
      rw [h] at this
      simp at this)
    rwa [natDegree_polyW] at this
  generalize f %ₘ polyW = g at hm hd
  generalize f /ₘ polyW = q at hm
  refine ⟨g.coeff 0, g.coeff 1, g.coeff 2, ?_⟩
  have e1 : AdjoinRoot.mk polyW f = AdjoinRoot.mk polyW g := by
    rw [← hm, map_add, map_mul, AdjoinRoot.mk_self, zero_mul, add_zero]
  have e2 : AdjoinRoot.mk polyW g = AdjoinRoot.of polyW (g.coeff 0) +
      AdjoinRoot.of polyW (g.coeff 1) * AdjoinRoot.root polyW +
      AdjoinRoot.of polyW (g.coeff 2) * AdjoinRoot.root polyW ^ 2 := by
    conv_lhs => rw [g.as_sum_range' 3 hd]
    simp only [Finset.sum_range_succ, Finset.sum_range_zero, zero_add, map_add, ← C_mul_X_pow_eq_monomial,
      map_mul, map_pow, AdjoinRoot.mk_X, AdjoinRoot.mk_C, pow_zero, pow_one, mul_one]
  exact hf.symm.trans (e1.trans e2)

/-- Finite, of characteristic `p`, with `p^12` elements. -/
instance : Finite Fp12 := by
  have : Finite Fp2 := Finite.of_equiv _ (QuadraticAlgebra.equivProd (-1 : Fp) 0).symm
  have : Finite Fp4 := Finite.of_equiv _ (QuadraticAlgebra.equivProd (1 + i : Fp2) 0).symm
  refine Finite.of_surjective (fun z : Fp4 × Fp4 × Fp4 => ι4 z.1 + ι4 z.2.1 * W + ι4 z.2.2 * W ^ 2) fun z => ?_
  obtain ⟨a, b, c, rfl⟩ := Fp12_exists z
  exact ⟨(a, b, c), rfl⟩

theorem card_Fp12 : Nat.card Fp12 = p ^ 12 := by
  have e1 : Nat.card Fp2 = p ^ 2 := by
    rw [Nat.card_congr (QuadraticAlgebra.equivProd (-1 : Fp) 0), Nat.card_prod, Nat.card_zmod, sq]
  have e2 : Nat.card Fp4 = p ^ 4 := by
    rw [Nat.card_congr (QuadraticAlgebra.equivProd (1 + i : Fp2) 0), Nat.card_prod, e1]; ring
  have hb : Function.Bijective (fun z : Fp4 × Fp4 × Fp4 => ι4 z.1 + ι4 z.2.1 * W + ι4 z.2.2 * W ^ 2) := by
    constructor
    · rintro ⟨a, b, c⟩ ⟨a', b', c'⟩ h
      obtain ⟨rfl, rfl, rfl⟩ := Fp12_ext_iff.1 h
      rfl
    · intro z
      obtain ⟨a, b, c, rfl⟩ := Fp12_exists z
      exact ⟨(a, b, c), rfl⟩
  rw [← Nat.card_congr (Equiv.ofBijective _ hb), Nat.card_prod, Nat.card_prod, e2]
  ring

instance : CharP Fp12 p := charP_of_injective_ringHom ι1.injective p

end Spec.B383
