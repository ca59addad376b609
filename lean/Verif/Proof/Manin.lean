import Verif.Spec.Curve
import Mathlib.Algebra.Polynomial.FieldDivision
import Mathlib.Algebra.Polynomial.Expand
import Mathlib.RingTheory.Localization.NumDen
import Mathlib.RingTheory.PrincipalIdealDomain
import Mathlib.RingTheory.Polynomial.Basic
import Mathlib.FieldTheory.Separable
import Mathlib.Tactic.Module
/-!
# Abscissas of multiples of the generic point

On `y² = x³ + b` the abscissas of `R + D` and `R - D` are the roots of a quadratic polynomial whose coefficients are
polynomials in the abscissas of `R` and `D`. Over the rational functions this determines the degrees of the abscissas of
all sums `aZ + bωZ`, `Z` the generic point and `ω` the automorphism of order 3 (the method of Manin).
-/

set_option linter.unusedSectionVars false

namespace Manin

open Spec Polynomial

section Field

variable {F : Type} [Field F] [DecidableEq F] {b : F} [good : GoodB b]

/-- The abscissa of `R` is `u/v`, infinite for `v = 0`. -/
def IsX (R : Pt b) (u v : F) : Prop :=
  ∃ τ, τ ≠ 0 ∧ (R = 0 ∧ u = τ ∧ v = 0 ∨ ∃ x y h, R = Pt.mk x y h ∧ u = τ * x ∧ v = τ)

theorem four_ne (this : (2 : F) ≠ 0) : (4 : F) ≠ 0 := by
  rw [show (4 : F) = 2 * 2 by norm_num]
  exact mul_ne_zero this this

theorem exists_isX (R : Pt b) : ∃ u v, IsX R u v := by
  rcases Pt.cases R with rfl | ⟨x, y, h, rfl⟩
  · exact ⟨1, 0, 1, one_ne_zero, Or.inl ⟨rfl, rfl, rfl⟩⟩
  · exact ⟨x, 1, 1, one_ne_zero, Or.inr ⟨x, y, h, rfl, (one_mul _).symm, rfl⟩⟩

theorem isX_mk {x y : F} {h : y ^ 2 = x ^ 3 + b} {u v : F} : IsX (Pt.mk x y h) u v ↔ v ≠ 0 ∧ u = v * x := by
  constructor
  · rintro ⟨τ, h0, ⟨e, -⟩ | ⟨x', y', h', e, e1, e2⟩⟩
    · exact absurd e (Pt.mk_ne _)
    · obtain ⟨rfl, rfl⟩ := Pt.mk_inj.1 e
      rw [e2]
      exact ⟨h0, e1⟩
  · rintro ⟨h0, e⟩
    exact ⟨v, h0, Or.inr ⟨x, y, h, rfl, e, rfl⟩⟩

theorem isX_zero {u v : F} : IsX (0 : Pt b) u v ↔ v = 0 ∧ u ≠ 0 := by
  constructor
  · rintro ⟨τ, h0, ⟨-, e1, e2⟩ | ⟨x', y', h', e, e1, e2⟩⟩
    · exact ⟨e2, e1 ▸ h0⟩
    · exact absurd e.symm (Pt.mk_ne _)
  · rintro ⟨h0, e⟩
    exact ⟨u, e, Or.inl ⟨rfl, rfl, h0⟩⟩

theorem IsX.smul {R : Pt b} {u v s : F} (h : IsX R u v) (hs : s ≠ 0) : IsX R (s * u) (s * v) := by
  obtain ⟨τ, h0, ⟨e, e1, e2⟩ | ⟨x', y', h', e, e1, e2⟩⟩ := h
  · exact ⟨s * τ, mul_ne_zero hs h0, Or.inl ⟨e, by rw [e1], by rw [e2, mul_zero]⟩⟩
  · exact ⟨s * τ, mul_ne_zero hs h0, Or.inr ⟨x', y', h', e, by rw [e1]; ring, by rw [e2]⟩⟩

theorem IsX.ne {R : Pt b} {u v : F} (h : IsX R u v) : u ≠ 0 ∨ v ≠ 0 := by
  obtain ⟨τ, h0, ⟨e, e1, e2⟩ | ⟨x', y', h', e, e1, e2⟩⟩ := h
  · exact Or.inl (e1 ▸ h0)
  · exact Or.inr (e2 ▸ h0)

/-- The coefficients of the quadratic polynomial. -/
def cA {R : Type} [CommRing R] (x u v : R) : R := (u - x * v) ^ 2
def cB {R : Type} [CommRing R] (b x u v : R) : R := 2 * x * u * (u + x * v) + 4 * b * v ^ 2
def cC {R : Type} [CommRing R] (b x u v : R) : R := x ^ 2 * u ^ 2 - 4 * b * v * (u + x * v)

theorem pair_aux {x y : F} {h : y ^ 2 = x ^ 3 + b} {R : Pt b} {u v u1 v1 u2 v2 : F} (h0 : IsX R u v)
    (h1 : IsX (R + Pt.mk x y h) u1 v1) (h2 : IsX (R - Pt.mk x y h) u2 v2) :
    ∃ s, s ≠ 0 ∧ u1 * u2 = s * cC b x u v ∧ u1 * v2 + u2 * v1 = s * cB b x u v ∧ v1 * v2 = s * cA x u v := by
  have t2 := good.two
  have t4 := four_ne t2
  unfold cA cB cC
  rcases Pt.cases R with rfl | ⟨x0, y0, hh, rfl⟩
  · rw [zero_add, isX_mk] at h1
    rw [zero_sub, Pt.neg_mk, isX_mk] at h2
    rw [isX_zero] at h0
    obtain ⟨rfl, hu⟩ := h0
    obtain ⟨h1, rfl⟩ := h1
    obtain ⟨h2, rfl⟩ := h2
    refine ⟨v1 * v2 / u ^ 2, div_ne_zero (mul_ne_zero h1 h2) (pow_ne_zero 2 hu), ?_, ?_, ?_⟩ <;> field_simp <;> ring
  · rw [isX_mk] at h0
    obtain ⟨hv, rfl⟩ := h0
    by_cases hx : x0 = x
    · subst hx
      have hy0 := Pt.y_ne hh
      have hyy : (y0 - y) * (y0 + y) = 0 := by linear_combination hh - h
      have key : ∀ {z u1 v1 u2 v2 : F} {hz : z ^ 2 = x0 ^ 3 + b}, IsX (Pt.mk x0 z hz + Pt.mk x0 z hz) u1 v1 →
          IsX (0 : Pt b) u2 v2 → ∃ s, s ≠ 0 ∧
          u1 * u2 = s * (x0 ^ 2 * (v * x0) ^ 2 - 4 * b * v * (v * x0 + x0 * v)) ∧
          u1 * v2 + u2 * v1 = s * (2 * x0 * (v * x0) * (v * x0 + x0 * v) + 4 * b * v ^ 2) ∧
          v1 * v2 = s * (v * x0 - x0 * v) ^ 2 := by
        intro z u1 v1 u2 v2 hz h1 h2
        have hz0 := Pt.y_ne hz
        rw [isX_zero] at h2
        obtain ⟨rfl, hu⟩ := h2
        obtain ⟨h3, e3⟩ := Pt.add_self hz (l := 3 * x0 ^ 2 / (2 * z)) (by field_simp) rfl rfl
        rw [e3, isX_mk] at h1
        obtain ⟨h1, rfl⟩ := h1
        refine ⟨v1 * u2 / (4 * z ^ 2 * v ^ 2), div_ne_zero (mul_ne_zero h1 hu)
          (mul_ne_zero (mul_ne_zero t4 (pow_ne_zero 2 hz0)) (pow_ne_zero 2 hv)), ?_, ?_, ?_⟩
        · field_simp
          linear_combination (-32 * x0) * hz
        · field_simp
          linear_combination 16 * u2 * hz
        · field_simp
          ring
      rcases mul_eq_zero.1 hyy with e | e
      · have e : y0 = y := by linear_combination e
        subst e
        rw [sub_self] at h2
        exact key h1 h2
      · have e : y = -y0 := by linear_combination e
        subst e
        rw [Pt.add_opp] at h1
        rw [sub_eq_add_neg, Pt.neg_mk] at h2
        have e4 : Pt.mk x0 (- -y0) (by rw [neg_neg]; exact hh) = Pt.mk (b := b) x0 y0 hh := by rw [Pt.mk_inj]; exact ⟨rfl, neg_neg _⟩
        rw [e4] at h2
        obtain ⟨s, s0, e1, e2, e3⟩ := key h2 h1
        exact ⟨s, s0, by rw [mul_comm, e1], by rw [← e2]; ring, by rw [mul_comm, e3]⟩
    · have hd : x0 - x ≠ 0 := sub_ne_zero.2 hx
      obtain ⟨h3, e3⟩ := Pt.add_ne hh h hx (l := (y0 - y) / (x0 - x)) (by field_simp) rfl rfl
      rw [e3, isX_mk] at h1
      rw [sub_eq_add_neg, Pt.neg_mk] at h2
      obtain ⟨h4, e4⟩ := Pt.add_ne hh (by rw [neg_sq]; exact h : (-y) ^ 2 = x ^ 3 + b) hx (l := (y0 + y) / (x0 - x))
        (by field_simp; ring) rfl rfl
      rw [e4, isX_mk] at h2
      obtain ⟨h1, rfl⟩ := h1
      obtain ⟨h2, rfl⟩ := h2
      refine ⟨v1 * v2 / ((x0 - x) ^ 2 * v ^ 2), div_ne_zero (mul_ne_zero h1 h2)
          (mul_ne_zero (pow_ne_zero 2 hd) (pow_ne_zero 2 hv)), ?_, ?_, ?_⟩
      · field_simp
        linear_combination (y0 ^ 2 - y ^ 2 + x0 ^ 3 - x ^ 3) * (hh - h) - 2 * (x0 + x) * (x0 - x) ^ 2 * (hh + h)
      · field_simp
        linear_combination 2 * hh + 2 * h
      · field_simp

/-- A common factor can be cancelled. -/
theorem isX_cancel {R : Pt b} {u v f1 g1 f2 g2 κ : F} (h : IsX R u v) (hκ : κ ≠ 0) (h2 : f2 ≠ 0 ∨ g2 ≠ 0)
    (e1 : u * f2 = κ * (f1 * f2)) (e2 : u * g2 + f2 * v = κ * (f1 * g2 + f2 * g1)) (e3 : v * g2 = κ * (g1 * g2)) :
    IsX R f1 g1 := by
  have key : u = κ * f1 ∧ v = κ * g1 := by
    rcases h2 with h2 | h2
    · have hu : u = κ * f1 := mul_right_cancel₀ h2 (by linear_combination e1)
      refine ⟨hu, mul_left_cancel₀ h2 ?_⟩
      rw [hu] at e2
      linear_combination e2
    · have hv : v = κ * g1 := mul_right_cancel₀ h2 (by linear_combination e3)
      refine ⟨mul_right_cancel₀ h2 ?_, hv⟩
      rw [hv] at e2
      linear_combination e2
  have := h.smul (inv_ne_zero hκ)
  rwa [key.1, key.2, ← mul_assoc, ← mul_assoc, inv_mul_cancel₀ hκ, one_mul, one_mul] at this

/-- The two orders of the pair. -/
def IsPair (R D R1 R2 : Pt b) : Prop := R1 = R + D ∧ R2 = R - D ∨ R1 = R - D ∧ R2 = R + D

theorem pair {x y : F} {h : y ^ 2 = x ^ 3 + b} {R R1 R2 : Pt b} {u v u1 v1 u2 v2 : F} (hp : IsPair R (Pt.mk x y h) R1 R2)
    (h0 : IsX R u v) (h1 : IsX R1 u1 v1) (h2 : IsX R2 u2 v2) :
    ∃ s, s ≠ 0 ∧ u1 * u2 = s * cC b x u v ∧ u1 * v2 + u2 * v1 = s * cB b x u v ∧ v1 * v2 = s * cA x u v := by
  rcases hp with ⟨rfl, rfl⟩ | ⟨rfl, rfl⟩
  · exact pair_aux h0 h1 h2
  · obtain ⟨s, s0, e1, e2, e3⟩ := pair_aux h0 h2 h1
    exact ⟨s, s0, by rw [mul_comm, e1], by rw [← e2]; ring, by rw [mul_comm, e3]⟩

end Field

section Generic

variable {k : Type} [Field k] [DecidableEq k]

/-- The rational functions. -/
abbrev K (k : Type) [Field k] := FractionRing k[X]

noncomputable instance : DecidableEq (K k) := Classical.decEq _

/-- The polynomials among the rational functions. -/
noncomputable abbrev ι : k[X] →+* K k := algebraMap k[X] (K k)

theorem ι_inj {f g : k[X]} : (ι f : K k) = ι g ↔ f = g := (IsFractionRing.injective k[X] (K k)).eq_iff

theorem ι_ne {f : k[X]} : (ι f : K k) ≠ 0 ↔ f ≠ 0 := by rw [Ne, Ne, ← map_zero (ι : k[X] →+* K k), ι_inj]

/-- The cubic polynomial of the curve. -/
noncomputable def lam (B : k) : k[X] := X ^ 3 + C B

theorem lam_ne (B : k) : lam B ≠ 0 := (monic_X_pow_add_C B three_ne_zero).ne_zero

/-- The constant of the twist of the curve by `lam`. -/
noncomputable def bK (B : k) : K k := ι (C B * lam B ^ 3)

variable {B : k} [good : GoodB B]

theorem B_ne : B ≠ 0 := by
  have := good.nocube 0
  rwa [zero_pow three_ne_zero, zero_add] at this

instance : GoodB (bK B) where
  two := by
    rw [← map_ofNat (ι : k[X] →+* K k) 2, ι_ne, ← C_ofNat, Ne, C_eq_zero]
    exact good.two
  three := by
    rw [← map_ofNat (ι : k[X] →+* K k) 3, ι_ne, ← C_ofNat, Ne, C_eq_zero]
    exact good.three
  nocube := by
    intro x hx
    have hl : (ι (lam B) : K k) ≠ 0 := ι_ne.2 (lam_ne B)
    have hz : (x / ι (lam B)) ^ 3 = ι (C (-B)) := by
      rw [div_pow, div_eq_iff (pow_ne_zero 3 hl), ← map_pow, ← map_mul, C_neg, neg_mul, map_neg]
      rw [bK] at hx
      linear_combination hx
    obtain ⟨q, hq⟩ := IsIntegrallyClosed.exists_algebraMap_eq_of_isIntegral_pow (R := k[X]) (n := 3) (by norm_num)
      (hz ▸ isIntegral_algebraMap)
    rw [← hq, ← map_pow, ι_inj] at hz
    have hd := congrArg natDegree hz
    rw [natDegree_pow, natDegree_C] at hd
    obtain ⟨c, rfl⟩ := natDegree_eq_zero.1 (show q.natDegree = 0 by omega)
    rw [← C_pow, C_inj] at hz
    exact good.nocube c (by rw [hz]; ring)

/-- The abscissa of `Q` is `lam` times `f/g`, in lowest terms. -/
def IsF (Q : Pt (bK B)) (f g : k[X]) : Prop := IsCoprime f g ∧ IsX Q (ι (lam B * f)) (ι g)

theorem exists_isF (Q : Pt (bK B)) : ∃ f g, IsF Q f g := by
  rcases Pt.cases Q with rfl | ⟨x, y, h, rfl⟩
  · refine ⟨1, 0, isCoprime_one_left, isX_zero.2 ⟨map_zero _, ι_ne.2 ?_⟩⟩
    rw [mul_one]
    exact lam_ne B
  · obtain ⟨f, g, hr, e⟩ := IsFractionRing.exists_reduced_fraction k[X] (x / ι (lam B))
    refine ⟨f, g, hr.isCoprime, isX_mk.2 ⟨ι_ne.2 (nonZeroDivisors.ne_zero g.2), ?_⟩⟩
    have hl : (ι (lam B) : K k) ≠ 0 := ι_ne.2 (lam_ne B)
    have hg : (ι (g : k[X]) : K k) ≠ 0 := ι_ne.2 (nonZeroDivisors.ne_zero g.2)
    rw [IsFractionRing.mk'_eq_div, div_eq_div_iff hg hl] at e
    rw [map_mul, mul_comm, e, mul_comm]

/-- The generic point, its abscissa multiplied by a root of unity. -/
noncomputable def gp (B : k) [GoodB B] (ζ : k) (hζ : ζ ^ 3 = 1) : Pt (bK B) :=
  Pt.mk (ι (lam B * (C ζ * X))) (ι (lam B ^ 2)) (by
    rw [bK, ← map_pow, ← map_pow, ← map_add, ι_inj]
    have h1 : (C ζ : k[X]) ^ 3 = 1 := by rw [← C_pow, hζ, C_1]
    rw [mul_pow, mul_pow, h1, one_mul, ← pow_mul]
    have h2 : lam B = X ^ 3 + C B := rfl
    linear_combination (lam B ^ 3) * h2)

theorem top_of {a b c : k[X]} (h : ∀ M : Ideal k[X], M.IsMaximal → a ∈ M → b ∈ M → c ∈ M → False) :
    ∃ x y z, x * a + y * b + z * c = 1 := by
  by_contra hn
  have hI : Ideal.span {a, b, c} ≠ ⊤ := by
    intro e
    rw [Ideal.eq_top_iff_one, Ideal.mem_span_insert] at e
    obtain ⟨x, w, hw, e⟩ := e
    obtain ⟨y, z, e'⟩ := Ideal.mem_span_pair.1 hw
    exact hn ⟨x, y, z, by rw [e, ← e']; ring⟩
  obtain ⟨M, hM, hle⟩ := Ideal.exists_le_maximal _ hI
  refine h M hM (hle (Ideal.subset_span ?_)) (hle (Ideal.subset_span ?_)) (hle (Ideal.subset_span ?_)) <;> simp

theorem prim1 {f1 g1 f2 g2 : k[X]} (h1 : IsCoprime f1 g1) (h2 : IsCoprime f2 g2) :
    ∃ x y z, x * (f1 * f2) + y * (f1 * g2 + f2 * g1) + z * (g1 * g2) = 1 := by
  refine top_of fun M hM ha hb hc => ?_
  have hp := hM.isPrime
  have no : ∀ {f g : k[X]}, IsCoprime f g → f ∈ M → g ∈ M → False := by
    rintro f g ⟨u, v, e⟩ hf hg
    refine hM.ne_top ((Ideal.eq_top_iff_one _).2 ?_)
    rw [← e]
    exact M.add_mem (M.mul_mem_left _ hf) (M.mul_mem_left _ hg)
  rcases hp.mem_or_mem ha with h | h
  · have h3 : f2 * g1 ∈ M := by
      have := M.sub_mem hb (M.mul_mem_right g2 h)
      rwa [add_sub_cancel_left] at this
    rcases hp.mem_or_mem h3 with h' | h'
    · rcases hp.mem_or_mem hc with h'' | h''
      · exact no h1 h h''
      · exact no h2 h' h''
    · exact no h1 h h'
  · have h3 : f1 * g2 ∈ M := by
      have := M.sub_mem hb (M.mul_mem_right g1 h)
      rwa [add_sub_cancel_right] at this
    rcases hp.mem_or_mem h3 with h' | h'
    · rcases hp.mem_or_mem hc with h'' | h''
      · exact no h1 h' h''
      · exact no h2 h h''
    · exact no h2 h h'

theorem prim2_aux {L : Type} [Field L] (φ : k[X] →+* L) {f g : k[X]} {ζ : k} (h : IsCoprime f g)
    (hc : φ (cC (C B) (C ζ * X) f g) = 0) (hb : φ (cB (C B) (C ζ * X) f g) = 0) (ha : φ (cA (C ζ * X) f g) = 0) : False := by
  obtain ⟨u, v, e⟩ := h
  have hne : ∀ {a : k}, a ≠ 0 → φ (C a) ≠ 0 := fun h => (map_ne_zero (φ.comp (C : k →+* k[X]))).2 h
  have e := congrArg φ e
  have h2 : (2 : L) ≠ 0 := by rw [← map_ofNat φ 2, ← C_ofNat]; exact hne good.two
  have h3 : (3 : L) ≠ 0 := by rw [← map_ofNat φ 3, ← C_ofNat]; exact hne good.three
  have hB := hne (B_ne (B := B))
  simp only [cA, cB, cC, map_add, map_mul, map_one, map_sub, map_pow, map_ofNat] at e ha hb hc
  have ha := pow_eq_zero_iff (two_ne_zero) |>.1 ha
  generalize φ (C ζ) * φ X = x at *
  have hf : φ f = x * φ g := by linear_combination ha
  have hg : φ g ≠ 0 := by
    intro h0
    rw [hf, h0] at e
    simp at e
  rw [hf] at hb hc
  generalize φ g = y at *
  generalize φ (C B) = β at *
  have hx : x ^ 3 = -β := by
    refine mul_left_cancel₀ (mul_ne_zero (mul_ne_zero h2 h2) (pow_ne_zero 2 hg)) ?_
    linear_combination hb
  have hx0 : x ≠ 0 := by
    intro h0
    rw [h0, zero_pow three_ne_zero] at hx
    exact hB (by linear_combination hx)
  refine mul_ne_zero (mul_ne_zero (mul_ne_zero (mul_ne_zero h3 h3) hB) (pow_ne_zero 2 hg)) hx0 ?_
  linear_combination (x * y ^ 2) * hx - hc

theorem prim2 {f g : k[X]} (ζ : k) (h : IsCoprime f g) :
    ∃ x y z, x * cC (C B) (C ζ * X) f g + y * cB (C B) (C ζ * X) f g + z * cA (C ζ * X) f g = 1 := by
  refine top_of fun M hM hc hb ha => ?_
  let _ := Ideal.Quotient.field M
  exact prim2_aux (Ideal.Quotient.mk M) h (Ideal.Quotient.eq_zero_iff_mem.2 hc) (Ideal.Quotient.eq_zero_iff_mem.2 hb)
    (Ideal.Quotient.eq_zero_iff_mem.2 ha)

/-- The relation of the abscissas, for polynomials. -/
theorem pairF {Q Q1 Q2 : Pt (bK B)} {ζ : k} {hζ : ζ ^ 3 = 1} {f g f1 g1 f2 g2 : k[X]} (hp : IsPair Q (gp B ζ hζ) Q1 Q2)
    (h : IsF Q f g) (h1 : IsF Q1 f1 g1) (h2 : IsF Q2 f2 g2) :
    ∃ c : k, c ≠ 0 ∧ f1 * f2 = C c * cC (C B) (C ζ * X) f g ∧ f1 * g2 + f2 * g1 = C c * cB (C B) (C ζ * X) f g ∧
      g1 * g2 = C c * cA (C ζ * X) f g := by
  obtain ⟨s, s0, e1, e2, e3⟩ := pair hp h.2 h1.2 h2.2
  have hl : (ι (lam B) : K k) ≠ 0 := ι_ne.2 (lam_ne B)
  obtain ⟨m, n, hn, hs⟩ := IsFractionRing.div_surjective (A := k[X]) (s * ι (lam B) ^ 2)
  have hn0 : (ι n : K k) ≠ 0 := ι_ne.2 (nonZeroDivisors.ne_zero hn)
  rw [div_eq_iff hn0] at hs
  have i1 : n * (f1 * f2) = m * cC (C B) (C ζ * X) f g := by
    rw [← ι_inj, map_mul, map_mul, map_mul]
    refine mul_left_cancel₀ (pow_ne_zero 2 hl) ?_
    rw [show (algebraMap k[X] (K k)) m = _ from hs]
    simp only [cC, bK, map_mul, map_sub, map_add, map_pow, map_ofNat] at e1 ⊢
    linear_combination (algebraMap k[X] (K k) n) * e1
  have i2 : n * (f1 * g2 + f2 * g1) = m * cB (C B) (C ζ * X) f g := by
    rw [← ι_inj, map_mul, map_mul]
    refine mul_left_cancel₀ hl ?_
    rw [show (algebraMap k[X] (K k)) m = _ from hs]
    simp only [cB, bK, map_mul, map_add, map_pow, map_ofNat] at e2 ⊢
    linear_combination (algebraMap k[X] (K k) n) * e2
  have i3 : n * (g1 * g2) = m * cA (C ζ * X) f g := by
    rw [← ι_inj, map_mul, map_mul, map_mul]
    rw [show (algebraMap k[X] (K k)) m = _ from hs]
    simp only [cA, map_mul, map_sub, map_pow] at e3 ⊢
    linear_combination (algebraMap k[X] (K k) n) * e3
  obtain ⟨x, y, z, t1⟩ := prim1 h1.1 h2.1
  obtain ⟨x', y', z', t2⟩ := prim2 (B := B) ζ h.1
  have d1 : m ∣ n := ⟨x * cC (C B) (C ζ * X) f g + y * cB (C B) (C ζ * X) f g + z * cA (C ζ * X) f g, by
    linear_combination (-n) * t1 + x * i1 + y * i2 + z * i3⟩
  have d2 : n ∣ m := ⟨x' * (f1 * f2) + y' * (f1 * g2 + f2 * g1) + z' * (g1 * g2), by
    linear_combination (-m) * t2 - x' * i1 - y' * i2 - z' * i3⟩
  obtain ⟨w, hw⟩ := associated_of_dvd_dvd d2 d1
  obtain ⟨c, hc, ec⟩ := Polynomial.isUnit_iff.1 w.isUnit
  have hnn := nonZeroDivisors.ne_zero hn
  rw [← ec] at hw
  refine ⟨c, hc.ne_zero, ?_, ?_, ?_⟩ <;> refine mul_left_cancel₀ hnn ?_
  · rw [i1, ← hw]; ring
  · rw [i2, ← hw]; ring
  · rw [i3, ← hw]; ring

/-! ### Degrees -/

theorem deg_aux {f g : k[X]} (ζ : k) (h : g.degree < f.degree) :
    f ≠ 0 ∧ g.natDegree ≤ f.natDegree ∧ (C ζ * X * g).natDegree ≤ f.natDegree := by
  have hf : f ≠ 0 := by
    rintro rfl
    simp at h
  refine ⟨hf, natDegree_le_natDegree h.le, ?_⟩
  by_cases hg : g = 0
  · rw [hg, mul_zero, natDegree_zero]; exact Nat.zero_le _
  · have h1 := natDegree_lt_natDegree hg h
    have h2 : (C ζ * X * g).natDegree ≤ (C ζ * X).natDegree + g.natDegree := natDegree_mul_le
    have h3 : (C ζ * X).natDegree ≤ 1 := (natDegree_C_mul_le _ _).trans natDegree_X.le
    omega

theorem deg_cA {f g : k[X]} (ζ : k) (h : g.degree < f.degree) : (cA (C ζ * X) f g).natDegree ≤ 2 * f.natDegree := by
  obtain ⟨-, h1, h2⟩ := deg_aux ζ h
  unfold cA
  refine natDegree_pow_le.trans (Nat.mul_le_mul_left 2 ((natDegree_sub_le _ _).trans (max_le le_rfl h2)))

theorem deg_sum {f g : k[X]} (ζ : k) (h : g.degree < f.degree) : (f + C ζ * X * g).natDegree ≤ f.natDegree := by
  obtain ⟨-, h1, h2⟩ := deg_aux ζ h
  exact (natDegree_add_le _ _).trans (max_le le_rfl h2)

theorem deg_cB {f g : k[X]} (ζ : k) (h : g.degree < f.degree) : (cB (C B) (C ζ * X) f g).natDegree ≤ 2 * f.natDegree + 1 := by
  obtain ⟨-, h1, h2⟩ := deg_aux ζ h
  have h4 := deg_sum ζ h
  unfold cB
  refine (natDegree_add_le _ _).trans (max_le ?_ ?_)
  · have e : 2 * (C ζ * X) * f * (f + C ζ * X * g) = C (2 * ζ) * (X * (f * (f + C ζ * X * g))) := by
      rw [C_mul, C_ofNat]; ring
    rw [e]
    refine (natDegree_C_mul_le _ _).trans (natDegree_mul_le.trans ?_)
    have h3 : (f * (f + C ζ * X * g)).natDegree ≤ f.natDegree + (f + C ζ * X * g).natDegree := natDegree_mul_le
    rw [natDegree_X]
    omega
  · have e : 4 * C B * g ^ 2 = C (4 * B) * g ^ 2 := by rw [C_mul, C_ofNat]
    rw [e]
    refine (natDegree_C_mul_le _ _).trans (natDegree_pow_le.trans ?_)
    omega

theorem deg_cC {f g : k[X]} {ζ : k} (hζ : ζ ≠ 0) (h : g.degree < f.degree) :
    (cC (C B) (C ζ * X) f g).natDegree = 2 * f.natDegree + 2 := by
  obtain ⟨hf, h1, h2⟩ := deg_aux ζ h
  have h4 := deg_sum ζ h
  unfold cC
  have h5 : ((C ζ * X) ^ 2 * f ^ 2).natDegree = 2 * f.natDegree + 2 := by
    have hx : C ζ * X ≠ 0 := mul_ne_zero (C_ne_zero.2 hζ) X_ne_zero
    rw [natDegree_mul (pow_ne_zero 2 hx) (pow_ne_zero 2 hf), natDegree_pow, natDegree_pow, natDegree_C_mul_X ζ hζ]
    ring
  rw [natDegree_sub_eq_left_of_natDegree_lt, h5]
  rw [h5]
  have e : 4 * C B * g * (f + C ζ * X * g) = C (4 * B) * (g * (f + C ζ * X * g)) := by
    rw [C_mul, C_ofNat]; ring
  rw [e]
  refine lt_of_le_of_lt ((natDegree_C_mul_le _ _).trans natDegree_mul_le) ?_
  omega

theorem degrees {f g f1 g1 f2 g2 : k[X]} {ζ c : k} (hζ : ζ ≠ 0) (h : g.degree < f.degree) (hc : c ≠ 0)
    (e1 : f1 * f2 = C c * cC (C B) (C ζ * X) f g) (e2 : f1 * g2 + f2 * g1 = C c * cB (C B) (C ζ * X) f g)
    (e3 : g1 * g2 = C c * cA (C ζ * X) f g) :
    f1.natDegree + f2.natDegree = 2 * f.natDegree + 2 ∧ g1.degree < f1.degree := by
  have d1 := congrArg natDegree e1
  have d2 := congrArg natDegree e2
  have d3 := congrArg natDegree e3
  rw [natDegree_C_mul hc] at d1 d2 d3
  rw [deg_cC hζ h] at d1
  have b2 := d2.trans_le (deg_cB (B := B) ζ h)
  have b3 := d3.trans_le (deg_cA ζ h)
  have hf : f1 * f2 ≠ 0 := by
    intro h0
    rw [h0, natDegree_zero] at d1
    omega
  have hf1 : f1 ≠ 0 := left_ne_zero_of_mul hf
  have hf2 : f2 ≠ 0 := right_ne_zero_of_mul hf
  rw [natDegree_mul hf1 hf2] at d1
  refine ⟨d1, ?_⟩
  by_contra hn
  have hle := not_lt.1 hn
  have hg1 : g1 ≠ 0 := by
    rintro rfl
    rw [degree_zero, le_bot_iff, degree_eq_bot] at hle
    exact hf1 hle
  have h1 := natDegree_le_natDegree hle
  have h3 := natDegree_mul hf2 hg1
  by_cases hg2 : g2 = 0
  · rw [hg2, mul_zero, zero_add, h3] at b2
    omega
  · rw [natDegree_mul hg1 hg2] at b3
    have h4 : (f1 * g2).natDegree ≤ f1.natDegree + g2.natDegree := natDegree_mul_le
    rw [natDegree_add_eq_right_of_natDegree_lt (by omega), h3] at b2
    omega

/-! ### The lattice -/

/-- `Q` has an abscissa of degree `n`, and its value at `x` is the abscissa of `ρ` at every point `(x, y)`. -/
def Sp (Q : Pt (bK B)) (ρ : ∀ x y : k, y ^ 2 = x ^ 3 + B → Pt B) (n : ℤ) : Prop :=
  ∃ f g, IsF Q f g ∧ (f.natDegree : ℤ) = n ∧ g.degree < f.degree ∧ ∀ x y h, IsX (ρ x y h) (f.eval x) (g.eval x)

/-- The point with the abscissa multiplied by a root of unity. -/
def rot {ζ : k} (hζ : ζ ^ 3 = 1) {x y : k} (h : y ^ 2 = x ^ 3 + B) : Pt B :=
  Pt.mk (ζ * x) y (by rw [mul_pow, hζ, one_mul]; exact h)

theorem step {Q Q1 Q2 : Pt (bK B)} {ρ ρ1 ρ2 : ∀ x y : k, y ^ 2 = x ^ 3 + B → Pt B} {n m : ℤ} {ζ : k} {hζ : ζ ^ 3 = 1}
    (h : Sp Q ρ n) (h2 : Sp Q2 ρ2 m) (hp : IsPair Q (gp B ζ hζ) Q1 Q2)
    (hr : ∀ x y h, IsPair (ρ x y h) (rot hζ h) (ρ1 x y h) (ρ2 x y h)) : Sp Q1 ρ1 (2 * n + 2 - m) := by
  obtain ⟨f, g, i, en, hd, hs⟩ := h
  obtain ⟨f2, g2, i2, en2, hd2, hs2⟩ := h2
  obtain ⟨f1, g1, i1⟩ := exists_isF Q1
  obtain ⟨c, hc, e1, e2, e3⟩ := pairF hp i i1 i2
  have hζ0 : ζ ≠ 0 := by
    rintro rfl
    norm_num at hζ
  obtain ⟨d1, d2⟩ := degrees hζ0 hd hc e1 e2 e3
  refine ⟨f1, g1, i1, by omega, d2, fun x y h => ?_⟩
  obtain ⟨u, v, hu⟩ := exists_isX (ρ1 x y h)
  obtain ⟨s, s0, t1, t2, t3⟩ := pair (hr x y h) (hs x y h) hu (hs2 x y h)
  have e1 := congrArg (eval x) e1
  have e2 := congrArg (eval x) e2
  have e3 := congrArg (eval x) e3
  simp only [cA, cB, cC, eval_mul, eval_add, eval_sub, eval_pow, eval_C, eval_X, eval_ofNat] at e1 e2 e3 t1 t2 t3
  refine isX_cancel hu (div_ne_zero s0 hc) (hs2 x y h).ne ?_ ?_ ?_
  · rw [e1, t1]; field_simp
  · rw [e2]; rw [mul_comm (eval x f2) v, mul_comm v, t2]; field_simp
  · rw [e3, t3]; field_simp

theorem isX_neg {F : Type} [Field F] [DecidableEq F] {b : F} [GoodB b] {R : Pt b} {u v : F} (h : IsX R u v) :
    IsX (-R) u v := by
  rcases Pt.cases R with rfl | ⟨x, y, hh, rfl⟩
  · rwa [neg_zero]
  · rw [Pt.neg_mk, isX_mk]
    exact isX_mk.1 h

theorem Sp.neg {Q : Pt (bK B)} {ρ : ∀ x y : k, y ^ 2 = x ^ 3 + B → Pt B} {n : ℤ} (h : Sp Q ρ n) :
    Sp (-Q) (fun x y h => -ρ x y h) n := by
  obtain ⟨f, g, i, en, hd, hs⟩ := h
  exact ⟨f, g, ⟨i.1, isX_neg i.2⟩, en, hd, fun x y h => isX_neg (hs x y h)⟩

theorem sp_zero : Sp (0 : Pt (bK B)) (fun _ _ _ => 0) 0 := by
  refine ⟨1, 0, ⟨isCoprime_one_left, isX_zero.2 ⟨map_zero _, ι_ne.2 ?_⟩⟩, by simp, by simp, fun x y h => isX_zero.2 (by simp)⟩
  rw [mul_one]
  exact lam_ne B

theorem sp_gp {ζ : k} (hζ : ζ ^ 3 = 1) : Sp (gp B ζ hζ) (fun _ _ h => rot hζ h) 1 := by
  have hζ0 : ζ ≠ 0 := by
    rintro rfl
    norm_num at hζ
  refine ⟨C ζ * X, 1, ⟨isCoprime_one_right, isX_mk.2 ⟨ι_ne.2 one_ne_zero, by rw [map_one, one_mul]⟩⟩, ?_, ?_, fun x y h => isX_mk.2 ?_⟩
  · rw [natDegree_C_mul_X ζ hζ0]; rfl
  · rw [degree_C_mul_X hζ0, degree_one]; exact zero_lt_one
  · simp

/-- The three points with one ordinate lie on a line. -/
theorem line {F : Type} [Field F] [DecidableEq F] {b : F} [good : GoodB b] {β x y : F} (hβ : β ^ 2 + β + 1 = 0)
    (h : y ^ 2 = x ^ 3 + b) (h1 : y ^ 2 = (β * x) ^ 3 + b) (h2 : (-y) ^ 2 = (β ^ 2 * x) ^ 3 + b) :
    Pt.mk x y h + Pt.mk (β * x) y h1 = Pt.mk (β ^ 2 * x) (-y) h2 := by
  have h3 := good.three
  have hβ1 : β ≠ 1 := by
    rintro rfl
    apply h3
    linear_combination hβ
  by_cases hx : x = 0
  · subst hx
    have e : Pt.mk (β * 0) y h1 = Pt.mk 0 y h := by rw [Pt.mk_inj]; exact ⟨mul_zero _, rfl⟩
    obtain ⟨h4, e4⟩ := Pt.add_self h (l := 0) (x3 := 0) (y3 := -y) (by ring) (by ring) (by ring)
    rw [e, e4, Pt.mk_inj]
    exact ⟨(mul_zero _).symm, rfl⟩
  · have hne : x ≠ β * x := by
      intro e
      apply hβ1
      refine mul_right_cancel₀ hx ?_
      rw [← e, one_mul]
    obtain ⟨h4, e4⟩ := Pt.add_ne h h1 hne (l := 0) (x3 := β ^ 2 * x) (y3 := -y) (by ring) (by linear_combination x * hβ) (by ring)
    exact e4

theorem int_two {P : ℤ → Prop} (h0 : P 0) (h1 : P 1) (hu : ∀ n, P n → P (n + 1) → P (n + 2))
    (hd : ∀ n, P n → P (n + 1) → P (n - 1)) : ∀ n, P n := by
  have u : ∀ n : ℕ, P n ∧ P (n + 1) := by
    intro n
    induction n with
    | zero => exact ⟨h0, h1⟩
    | succ n ih =>
      refine ⟨by exact_mod_cast ih.2, ?_⟩
      have := hu n ih.1 ih.2
      rwa [show (n : ℤ) + 2 = ((n + 1 : ℕ) : ℤ) + 1 by push_cast; ring] at this
  have d : ∀ n : ℕ, P (-n) ∧ P (-n + 1) := by
    intro n
    induction n with
    | zero => exact ⟨h0, h1⟩
    | succ n ih =>
      have := hd (-n) ih.1 ih.2
      refine ⟨?_, ?_⟩
      · rwa [show (-(n : ℤ)) - 1 = -((n + 1 : ℕ) : ℤ) by push_cast; ring] at this
      · rw [show -((n + 1 : ℕ) : ℤ) + 1 = -n by push_cast; ring]
        exact ih.1
  intro n
  rcases Int.eq_nat_or_neg n with ⟨m, rfl | rfl⟩
  · exact (u m).1
  · exact (d m).1

section Lattice

variable {β : k} (hβ : β ^ 2 + β + 1 = 0)

include hβ in
theorem cube : β ^ 3 = 1 := by linear_combination (β - 1) * hβ

theorem cube2 (hβ : β ^ 2 + β + 1 = 0) : (β ^ 2) ^ 3 = 1 := by rw [← pow_mul, mul_comm, pow_mul, cube hβ, one_pow]

/-- The sum `aZ + bωZ` for the generic point. -/
noncomputable def lat (B : k) [GoodB B] (hβ : β ^ 2 + β + 1 = 0) (a b : ℤ) : Pt (bK B) :=
  a • gp B 1 (one_pow 3) + b • gp B β (cube hβ)

/-- The sum `aP + bωP`. -/
def val (hβ : β ^ 2 + β + 1 = 0) (a b : ℤ) (x y : k) (h : y ^ 2 = x ^ 3 + B) : Pt B :=
  a • rot (one_pow 3) h + b • rot (cube hβ) h

theorem line_gp : gp B 1 (one_pow 3) + gp B β (cube hβ) = -gp B (β ^ 2) (cube2 hβ) := by
  have hβ' : (ι (C β) : K k) ^ 2 + ι (C β) + 1 = 0 := by
    rw [← map_pow, ← map_add, ← map_one (ι : k[X] →+* K k), ← map_add, ← C_pow, ← C_add, ← C_1, ← C_add, hβ, C_0, map_zero]
  unfold gp
  rw [Pt.neg_mk]
  have e1 : (ι (lam B * (C β * X)) : K k) = ι (C β) * ι (lam B * (C 1 * X)) := by
    rw [← map_mul, ι_inj, C_1]; ring
  have e2 : (ι (lam B * (C (β ^ 2) * X)) : K k) = ι (C β) ^ 2 * ι (lam B * (C 1 * X)) := by
    rw [← map_pow, ← map_mul, ι_inj, C_1, C_pow]; ring
  simp only [e1, e2]
  exact line hβ' _ _ _

theorem line_rot {x y : k} (h : y ^ 2 = x ^ 3 + B) :
    rot (one_pow 3) h + rot (cube hβ) h = -rot (cube2 hβ) h := by
  have e1 : (1 : k) * x = x := one_mul x
  unfold rot
  rw [Pt.neg_mk]
  simp only [e1]
  exact line hβ _ _ _

theorem sp_lat (a b : ℤ) : Sp (lat B hβ a b) (val hβ a b) (a ^ 2 - a * b + b ^ 2) := by
  have s00 : Sp (lat B hβ 0 0) (val hβ 0 0) 0 := by
    convert sp_zero (B := B) using 1
    · simp [lat]
    · funext x y h; simp [val]
  have s10 : Sp (lat B hβ 1 0) (val hβ 1 0) 1 := by
    convert sp_gp (B := B) (one_pow 3) using 1
    · simp [lat]
    · funext x y h; simp [val]
  have s01 : Sp (lat B hβ 0 1) (val hβ 0 1) 1 := by
    convert sp_gp (B := B) (cube hβ) using 1
    · simp [lat]
    · funext x y h; simp [val]
  have s11 : Sp (lat B hβ 1 1) (val hβ 1 1) 1 := by
    convert (sp_gp (B := B) (cube2 hβ)).neg using 1
    · simp [lat, line_gp hβ]
    · funext x y h; simp [val, line_rot hβ]
  have ha : ∀ b : ℤ, Sp (lat B hβ 0 b) (val hβ 0 b) (0 ^ 2 - 0 * b + b ^ 2) →
      Sp (lat B hβ 1 b) (val hβ 1 b) (1 ^ 2 - 1 * b + b ^ 2) →
      ∀ a, Sp (lat B hβ a b) (val hβ a b) (a ^ 2 - a * b + b ^ 2) := by
    intro b h0 h1
    refine int_two h0 h1 (fun n h h' => ?_) (fun n h h' => ?_)
    · convert step h' h (ζ := 1) (hζ := one_pow 3) (Q1 := lat B hβ (n + 2) b) (ρ1 := val hβ (n + 2) b) (Or.inl ⟨?_, ?_⟩)
        (fun x y h => Or.inl ⟨?_, ?_⟩) using 1
      · ring
      · unfold lat; module
      · unfold lat; module
      · unfold val; module
      · unfold val; module
    · convert step h h' (ζ := 1) (hζ := one_pow 3) (Q1 := lat B hβ (n - 1) b) (ρ1 := val hβ (n - 1) b) (Or.inr ⟨?_, ?_⟩)
        (fun x y h => Or.inr ⟨?_, ?_⟩) using 1
      · ring
      · unfold lat; module
      · unfold lat; module
      · unfold val; module
      · unfold val; module
  have h0 : ∀ a, Sp (lat B hβ a 0) (val hβ a 0) (a ^ 2 - a * 0 + 0 ^ 2) := ha 0 (by simpa using s00) (by simpa using s10)
  have h1 : ∀ a, Sp (lat B hβ a 1) (val hβ a 1) (a ^ 2 - a * 1 + 1 ^ 2) := ha 1 (by simpa using s01) (by simpa using s11)
  revert b
  refine int_two (h0 a) (h1 a) (fun n h h' => ?_) (fun n h h' => ?_)
  · convert step h' h (ζ := β) (hζ := cube hβ) (Q1 := lat B hβ a (n + 2)) (ρ1 := val hβ a (n + 2)) (Or.inl ⟨?_, ?_⟩)
      (fun x y h => Or.inl ⟨?_, ?_⟩) using 1
    · ring
    · unfold lat; module
    · unfold lat; module
    · unfold val; module
    · unfold val; module
  · convert step h h' (ζ := β) (hζ := cube hβ) (Q1 := lat B hβ a (n - 1)) (ρ1 := val hβ a (n - 1)) (Or.inr ⟨?_, ?_⟩)
      (fun x y h => Or.inr ⟨?_, ?_⟩) using 1
    · ring
    · unfold lat; module
    · unfold lat; module
    · unfold val; module
    · unfold val; module

end Lattice

end Generic

end Manin
