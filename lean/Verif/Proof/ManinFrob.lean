import Verif.Proof.Manin
import Mathlib.Algebra.Polynomial.SpecificDegree
import Mathlib.Algebra.Polynomial.Derivative
import Mathlib.Algebra.CharP.Lemmas
/-!
# The endomorphism of norm `p` with derivative 0

For a sum `Q = aZ + bωZ` of the generic point the derivative of the abscissa is `a + bβ` times the ordinate, `β` the root of
unity by which `ω` multiplies abscissas. If `a² - ab + b²` is the characteristic `p` and `a + bβ` is 0 the abscissa is therefore
a polynomial in `X^p`, and the equation of the curve leaves a multiple of `X^p` only.
-/

set_option linter.unusedSectionVars false

namespace Manin

open Spec Polynomial

variable {k : Type} [Field k] [DecidableEq k]

/-- The derivative of a rational function. -/
noncomputable def dd (z : K k) : K k :=
  let f := (IsFractionRing.div_surjective (A := k[X]) z).choose
  let g := (IsFractionRing.div_surjective (A := k[X]) z).choose_spec.choose
  (ι (derivative f) * ι g - ι f * ι (derivative g)) / ι g ^ 2

theorem dd_div {f g : k[X]} (hg : g ≠ 0) :
    dd (ι f / ι g : K k) = (ι (derivative f) * ι g - ι f * ι (derivative g)) / ι g ^ 2 := by
  have hs := (IsFractionRing.div_surjective (A := k[X]) (ι f / ι g : K k)).choose_spec.choose_spec
  unfold dd
  generalize (IsFractionRing.div_surjective (A := k[X]) (ι f / ι g : K k)).choose_spec.choose = G at hs
  generalize (IsFractionRing.div_surjective (A := k[X]) (ι f / ι g : K k)).choose = F at hs
  obtain ⟨hG, hs⟩ := hs
  have hG' : (ι G : K k) ≠ 0 := ι_ne.2 (nonZeroDivisors.ne_zero hG)
  have hg' : (ι g : K k) ≠ 0 := ι_ne.2 hg
  change (ι F / ι G : K k) = _ at hs
  rw [div_eq_div_iff hG' hg', ← map_mul, ← map_mul, ι_inj] at hs
  have hd := congrArg derivative hs
  rw [derivative_mul, derivative_mul] at hd
  have hs := congrArg (ι : k[X] → K k) hs
  have hd := congrArg (ι : k[X] → K k) hd
  simp only [map_mul, map_add] at hs hd
  rw [div_eq_div_iff (pow_ne_zero 2 hG') (pow_ne_zero 2 hg')]
  linear_combination (ι G * ι g) * hd - (ι (derivative G) * ι g + ι (derivative g) * ι G) * hs

theorem exists_frac (z : K k) : ∃ f g : k[X], g ≠ 0 ∧ z = ι f / ι g := by
  obtain ⟨f, g, hg, e⟩ := IsFractionRing.div_surjective (A := k[X]) z
  exact ⟨f, g, nonZeroDivisors.ne_zero hg, e.symm⟩

theorem dd_ι (f : k[X]) : dd (ι f : K k) = ι (derivative f) := by
  have := dd_div (f := f) (g := 1) one_ne_zero
  simpa using this

theorem dd_add (z w : K k) : dd (z + w) = dd z + dd w := by
  obtain ⟨f, g, hg, rfl⟩ := exists_frac z
  obtain ⟨f', g', hg', rfl⟩ := exists_frac w
  have h1 : (ι g : K k) ≠ 0 := ι_ne.2 hg
  have h2 : (ι g' : K k) ≠ 0 := ι_ne.2 hg'
  rw [dd_div hg, dd_div hg', div_add_div _ _ h1 h2, ← map_mul, ← map_mul, ← map_add, ← map_mul, dd_div (mul_ne_zero hg hg')]
  simp only [derivative_mul, map_add, map_mul]
  field_simp
  ring

theorem dd_mul (z w : K k) : dd (z * w) = dd z * w + z * dd w := by
  obtain ⟨f, g, hg, rfl⟩ := exists_frac z
  obtain ⟨f', g', hg', rfl⟩ := exists_frac w
  have h1 : (ι g : K k) ≠ 0 := ι_ne.2 hg
  have h2 : (ι g' : K k) ≠ 0 := ι_ne.2 hg'
  rw [dd_div hg, dd_div hg', div_mul_div_comm, ← map_mul, ← map_mul, dd_div (mul_ne_zero hg hg')]
  simp only [derivative_mul, map_add, map_mul]
  field_simp
  ring

theorem dd_zero : dd (0 : K k) = 0 := by
  have := dd_ι (0 : k[X])
  simpa using this

theorem dd_neg (z : K k) : dd (-z) = -dd z := by
  have := dd_add z (-z)
  rw [add_neg_cancel, dd_zero] at this
  linear_combination -this

theorem dd_sub (z w : K k) : dd (z - w) = dd z - dd w := by rw [sub_eq_add_neg, dd_add, dd_neg, ← sub_eq_add_neg]

theorem dd_C (c : k) : dd (ι (C c) : K k) = 0 := by rw [dd_ι, derivative_C, map_zero]

theorem dd_two : dd (2 : K k) = 0 := by
  have := dd_C (2 : k)
  rwa [C_ofNat, map_ofNat] at this

theorem dd_three : dd (3 : K k) = 0 := by
  have := dd_C (3 : k)
  rwa [C_ofNat, map_ofNat] at this

theorem dd_sq (z : K k) : dd (z ^ 2) = 2 * z * dd z := by rw [pow_two, dd_mul]; ring

theorem dd_cube (z : K k) : dd (z ^ 3) = 3 * z ^ 2 * dd z := by
  rw [show z ^ 3 = z ^ 2 * z by ring, dd_mul, dd_sq]; ring

section

variable {B : k} [good : GoodB B]

/-- The derivative of the abscissa is `η` times the ordinate, both on `lam·y² = x³ + B`. -/
def Eta (P : Pt (bK B)) (η : K k) : Prop :=
  P = 0 ∧ η = 0 ∨ ∃ x y h, P = Pt.mk (ι (lam B) * x) (ι (lam B) ^ 2 * y) h ∧ dd x = η * y

theorem lamK : (ι (lam B) : K k) ≠ 0 := ι_ne.2 (lam_ne B)

/-- The equation of the curve for the coordinates divided by powers of `lam`. -/
theorem on {x y : K k} (h : (ι (lam B) ^ 2 * y) ^ 2 = (ι (lam B) * x) ^ 3 + bK B) :
    ι (lam B) * y ^ 2 = x ^ 3 + ι (C B) := by
  refine mul_left_cancel₀ (pow_ne_zero 3 (lamK (B := B))) ?_
  rw [bK, map_mul, map_pow] at h
  linear_combination h

theorem ne_of_on {x y : K k} (h : (ι (lam B) ^ 2 * y) ^ 2 = (ι (lam B) * x) ^ 3 + bK B) : y ≠ 0 := by
  rintro rfl
  exact Pt.y_ne h (mul_zero _)

theorem exists_mk {P : Pt (bK B)} (hP : P ≠ 0) :
    ∃ x y h, P = Pt.mk (ι (lam B) * x) (ι (lam B) ^ 2 * y) h := by
  rcases Pt.cases P with rfl | ⟨u, v, h, rfl⟩
  · exact absurd rfl hP
  · have hl := lamK (B := B)
    have e1 : ι (lam B) * (u / ι (lam B)) = u := by field_simp
    have e2 : ι (lam B) ^ 2 * (v / ι (lam B) ^ 2) = v := by field_simp
    exact ⟨u / ι (lam B), v / ι (lam B) ^ 2, by rw [e1, e2]; exact h, by rw [Pt.mk_inj]; exact ⟨e1.symm, e2.symm⟩⟩

theorem eta_mk {x y : K k} {h : (ι (lam B) ^ 2 * y) ^ 2 = (ι (lam B) * x) ^ 3 + bK B} {η : K k} :
    Eta (Pt.mk (ι (lam B) * x) (ι (lam B) ^ 2 * y) h) η ↔ dd x = η * y := by
  constructor
  · rintro (⟨e, -⟩ | ⟨x', y', h', e, e'⟩)
    · exact absurd e (Pt.mk_ne _)
    · obtain ⟨e1, e2⟩ := Pt.mk_inj.1 e
      have e1 := mul_left_cancel₀ (lamK (B := B)) e1
      have e2 := mul_left_cancel₀ (pow_ne_zero 2 (lamK (B := B))) e2
      rw [e1, e2, e']
  · exact fun e => Or.inr ⟨x, y, h, rfl, e⟩

theorem eta_zero {η : K k} : Eta (0 : Pt (bK B)) η ↔ η = 0 := by
  constructor
  · rintro (⟨-, e⟩ | ⟨x', y', h', e, e'⟩)
    · exact e
    · exact absurd e.symm (Pt.mk_ne _)
  · exact fun e => Or.inl ⟨rfl, e⟩

/-- The derivative of the ordinate. -/
theorem dd_y {x y η : K k} (h : (ι (lam B) ^ 2 * y) ^ 2 = (ι (lam B) * x) ^ 3 + bK B) (hη : dd x = η * y) :
    2 * ι (lam B) * dd y = 3 * x ^ 2 * η - dd (ι (lam B)) * y := by
  have e := congrArg dd (on h)
  rw [dd_add, dd_C, dd_cube, dd_mul, dd_sq, hη] at e
  refine mul_left_cancel₀ (ne_of_on h) ?_
  linear_combination e

theorem Eta.neg {P : Pt (bK B)} {η : K k} (h : Eta P η) : Eta (-P) (-η) := by
  obtain ⟨rfl, rfl⟩ | ⟨x, y, h, rfl, e⟩ := h
  · rw [neg_zero, neg_zero]
    exact eta_zero.2 rfl
  · rw [Pt.neg_mk]
    refine Or.inr ⟨x, -y, by rw [mul_neg, neg_sq]; exact h, ?_, by rw [e]; ring⟩
    rw [Pt.mk_inj]
    exact ⟨rfl, by ring⟩

theorem eta_dbl {x y η : K k} {h : (ι (lam B) ^ 2 * y) ^ 2 = (ι (lam B) * x) ^ 3 + bK B} (hη : dd x = η * y) :
    Eta (Pt.mk _ _ h + Pt.mk _ _ h) (η + η) := by
  have hl := lamK (B := B)
  have hy := ne_of_on h
  have t2 : (2 : K k) ≠ 0 := GoodB.two (b := bK B)
  have hdy := dd_y h hη
  have hon := on h
  obtain ⟨l, hlam⟩ : ∃ l, 2 * ι (lam B) * l * y = 3 * x ^ 2 := ⟨3 * x ^ 2 / (2 * ι (lam B) * y), by field_simp⟩
  obtain ⟨h3, e3⟩ := Pt.add_self h (l := ι (lam B) * l) (x3 := ι (lam B) * (ι (lam B) * l ^ 2 - 2 * x))
    (y3 := ι (lam B) ^ 2 * (l * (x - (ι (lam B) * l ^ 2 - 2 * x)) - y))
    (by linear_combination ι (lam B) ^ 2 * hlam) (by ring) (by ring)
  rw [e3, eta_mk]
  have hd := congrArg dd hlam
  simp only [dd_mul, dd_sq, dd_two, dd_three, hη] at hd
  simp only [dd_sub, dd_mul, dd_sq, dd_two, hη]
  generalize dd (ι (lam B)) = dl at *
  generalize ι (lam B) = L at *
  refine mul_left_cancel₀ hy ?_
  linear_combination l * hd - l * l * hdy + η * l ^ 2 * hlam

theorem eta_ne {x y η x' y' η' : K k} {h : (ι (lam B) ^ 2 * y) ^ 2 = (ι (lam B) * x) ^ 3 + bK B}
    {h' : (ι (lam B) ^ 2 * y') ^ 2 = (ι (lam B) * x') ^ 3 + bK B} (hη : dd x = η * y) (hη' : dd x' = η' * y') (hx : x ≠ x') :
    Eta (Pt.mk _ _ h + Pt.mk _ _ h') (η + η') := by
  have hl := lamK (B := B)
  have hdy := dd_y h hη
  have hdy' := dd_y h' hη'
  have hon := on h
  have hon' := on h'
  have hx0 : x - x' ≠ 0 := sub_ne_zero.2 hx
  obtain ⟨l, hlam⟩ : ∃ l, l * (x - x') = y - y' := ⟨(y - y') / (x - x'), by field_simp⟩
  obtain ⟨h3, e3⟩ := Pt.add_ne h h' (fun e => hx (mul_left_cancel₀ hl e)) (l := ι (lam B) * l)
    (x3 := ι (lam B) * (ι (lam B) * l ^ 2 - x - x'))
    (y3 := ι (lam B) ^ 2 * (l * (x - (ι (lam B) * l ^ 2 - x - x')) - y))
    (by linear_combination ι (lam B) ^ 2 * hlam) (by ring) (by ring)
  rw [e3, eta_mk]
  have hd := congrArg dd hlam
  simp only [dd_mul, dd_sub, hη, hη'] at hd
  simp only [dd_sub, dd_mul, dd_sq, hη, hη']
  have hE : ι (lam B) * l * (y + y') = x ^ 2 + x * x' + x' ^ 2 := by
    refine mul_left_cancel₀ hx0 ?_
    linear_combination (ι (lam B) * (y + y')) * hlam + hon - hon'
  generalize dd (ι (lam B)) = dl at *
  generalize ι (lam B) = L at *
  obtain rfl : y' = y - l * (x - x') := by linear_combination hlam
  refine mul_left_cancel₀ hx0 ?_
  linear_combination (2 * L * l) * hd + l * hdy - l * hdy' - (η - η') * l * hE

theorem Eta.add {P Q : Pt (bK B)} {η θ : K k} (h : Eta P η) (h' : Eta Q θ) : Eta (P + Q) (η + θ) := by
  obtain ⟨rfl, rfl⟩ | ⟨x, y, h, rfl, e⟩ := h
  · rwa [zero_add, zero_add]
  obtain ⟨rfl, rfl⟩ | ⟨x', y', h', rfl, e'⟩ := h'
  · rw [add_zero, add_zero]
    exact eta_mk.2 e
  by_cases hx : x = x'
  · subst hx
    have hyy : (y - y') * (y + y') = 0 := by
      refine mul_left_cancel₀ (lamK (B := B)) ?_
      linear_combination on h - on h'
    rcases mul_eq_zero.1 hyy with hy | hy
    · obtain rfl : y = y' := by linear_combination hy
      have : η = θ := mul_right_cancel₀ (ne_of_on h) (e.symm.trans e')
      rw [← this]
      exact eta_dbl e
    · obtain rfl : y' = -y := by linear_combination hy
      have : η + θ = 0 := by
        refine mul_right_cancel₀ (ne_of_on h) ?_
        linear_combination e' - e
      rw [this]
      have e1 : Pt.mk (ι (lam B) * x) (ι (lam B) ^ 2 * -y) h' =
          Pt.mk (b := bK B) (ι (lam B) * x) (-(ι (lam B) ^ 2 * y)) (by rw [neg_sq]; exact h) := by
        rw [Pt.mk_inj]
        exact ⟨rfl, by ring⟩
      rw [e1, Pt.add_opp]
      exact eta_zero.2 rfl
  · exact eta_ne e e' hx

theorem Eta.nsmul {P : Pt (bK B)} {η : K k} (h : Eta P η) (n : ℕ) : Eta (n • P) (n * η) := by
  induction n with
  | zero => rw [zero_nsmul, Nat.cast_zero, zero_mul]; exact eta_zero.2 rfl
  | succ n ih =>
    rw [succ_nsmul, Nat.cast_succ, add_mul, one_mul]
    exact ih.add h

theorem Eta.zsmul {P : Pt (bK B)} {η : K k} (h : Eta P η) (n : ℤ) : Eta (n • P) (n * η) := by
  rcases Int.eq_nat_or_neg n with ⟨m, rfl | rfl⟩
  · rw [natCast_zsmul, Int.cast_natCast]
    exact h.nsmul m
  · rw [neg_zsmul, natCast_zsmul, Int.cast_neg, Int.cast_natCast, neg_mul]
    exact (h.nsmul m).neg

theorem eta_gp {ζ : k} (hζ : ζ ^ 3 = 1) : Eta (gp B ζ hζ) (ι (C ζ)) := by
  refine Or.inr ⟨ι (C ζ * X), 1, ?_, ?_, ?_⟩
  · have h : ι (lam B ^ 2) ^ 2 = ι (lam B * (C ζ * X)) ^ 3 + bK B := by
      obtain ⟨x, y, h, e⟩ := exists_mk (Pt.mk_ne (b := bK B) (by
        rw [bK, ← map_pow, ← map_pow, ← map_add, ι_inj]
        have h1 : (C ζ : k[X]) ^ 3 = 1 := by rw [← C_pow, hζ, C_1]
        rw [mul_pow, mul_pow, h1, one_mul, ← pow_mul]
        have h2 : lam B = X ^ 3 + C B := rfl
        linear_combination (lam B ^ 3) * h2 : ι (lam B ^ 2) ^ 2 = ι (lam B * (C ζ * X)) ^ 3 + bK B))
      obtain ⟨e1, e2⟩ := Pt.mk_inj.1 e
      rw [e1, e2]
      exact h
    rw [mul_one, ← map_pow, ← map_mul]
    exact h
  · unfold gp
    rw [Pt.mk_inj]
    exact ⟨map_mul _ _ _, by rw [mul_one, map_pow]⟩
  · rw [dd_ι, derivative_C_mul, derivative_X, mul_one, mul_one]

theorem eta_lat {β : k} (hβ : β ^ 2 + β + 1 = 0) (a b : ℤ) : Eta (lat B hβ a b) (ι (C (a + b * β))) := by
  have := ((eta_gp (B := B) (one_pow 3)).zsmul a).add ((eta_gp (B := B) (cube hβ)).zsmul b)
  unfold lat
  convert this using 1
  simp

theorem lam_irreducible : Irreducible (lam B) := by
  have hd : (lam B).natDegree = 3 := natDegree_X_pow_add_C
  refine irreducible_of_degree_le_three_of_not_isRoot (by rw [hd]; decide) fun x hx => ?_
  rw [IsRoot, lam, eval_add, eval_pow, eval_X, eval_C] at hx
  exact good.nocube x hx

theorem cubic3 (a b c d : k) : coeff (C a * X ^ 3 + C b * X ^ 2 + C c * X + C d) 3 = a := by
  simp [coeff_X, coeff_C]
theorem cubic2 (a b c d : k) : coeff (C a * X ^ 3 + C b * X ^ 2 + C c * X + C d) 2 = b := by
  simp [coeff_X, coeff_C]
theorem cubic0 (a b c d : k) : coeff (C a * X ^ 3 + C b * X ^ 2 + C c * X + C d) 0 = d := by
  simp

/-- The sum of norm `p` and derivative 0 raises the abscissa to the power `p`, up to a constant. -/
theorem frob {p : ℕ} [hp : Fact p.Prime] [CharP k p] (hs : ∀ z : k, ∃ w, w ^ p = z) {β : k} (hβ : β ^ 2 + β + 1 = 0)
    {a b : ℤ} (hn : a ^ 2 - a * b + b ^ 2 = p) (h0 : (a : k) + b * β = 0) :
    ∃ c : k, c ≠ 0 ∧ c ^ 3 * B ^ p = B ∧ ∀ x y h, ∃ y' h', val (B := B) hβ a b x y h = Pt.mk (c * x ^ p) y' h' := by
  obtain ⟨f, g, ⟨hco, hX⟩, hdeg, hlt, hsp⟩ := sp_lat (B := B) hβ a b
  have hp0 : p ≠ 0 := hp.out.ne_zero
  rw [hn] at hdeg
  have hdeg : f.natDegree = p := by exact_mod_cast hdeg
  have hη := eta_lat (B := B) hβ a b
  rw [h0, C_0, map_zero] at hη
  have hg : g ≠ 0 := by
    rintro rfl
    rw [isCoprime_zero_right] at hco
    rw [natDegree_eq_zero_of_isUnit hco] at hdeg
    exact hp0 hdeg.symm
  have hgK : (ι g : K k) ≠ 0 := ι_ne.2 hg
  obtain ⟨x, y, h, e⟩ := exists_mk (P := lat B hβ a b) (by
    intro e
    rw [e, isX_zero] at hX
    exact hgK hX.1)
  rw [e] at hη hX
  rw [eta_mk, zero_mul] at hη
  rw [isX_mk] at hX
  have hx : x = ι f / ι g := by
    have h2 := hX.2
    rw [map_mul] at h2
    rw [eq_div_iff hgK]
    refine mul_left_cancel₀ (lamK (B := B)) ?_
    linear_combination -h2
  rw [hx, dd_div hg, div_eq_zero_iff, or_iff_left (pow_ne_zero 2 hgK), sub_eq_zero, ← map_mul, ← map_mul, ι_inj] at hη
  have hf' : derivative f = 0 := by
    by_contra hne
    have hdvd : f ∣ derivative f := by
      refine hco.dvd_of_dvd_mul_right ?_
      exact ⟨derivative g, hη⟩
    have := natDegree_le_of_dvd hdvd hne
    have := natDegree_derivative_lt (p := f) (by omega)
    omega
  have hf0 : f ≠ 0 := by
    rintro rfl
    rw [natDegree_zero] at hdeg
    omega
  have hg' : derivative g = 0 := by
    rw [hf', zero_mul] at hη
    exact (mul_eq_zero.1 hη.symm).resolve_left hf0
  have ef := expand_contract p hf' hp0
  have eg := expand_contract p hg' hp0
  have hgd : g.natDegree < p := by
    rw [← hdeg]
    exact natDegree_lt_natDegree hg hlt
  have hgc : (contract p g).natDegree = 0 := by
    have := congrArg natDegree eg
    rw [natDegree_expand] at this
    by_contra hne
    have : p ≤ (contract p g).natDegree * p := Nat.le_mul_of_pos_left _ (Nat.pos_of_ne_zero hne)
    omega
  obtain ⟨d, hd⟩ := natDegree_eq_zero.1 hgc
  rw [← hd, expand_C] at eg
  have hd0 : d ≠ 0 := by
    rintro rfl
    exact hg (by rw [← eg, C_0])
  have hfc : (contract p f).natDegree = 1 := by
    have := congrArg natDegree ef
    rw [natDegree_expand, hdeg] at this
    exact Nat.eq_of_mul_eq_mul_right (Nat.pos_of_ne_zero hp0) (by omega)
  obtain ⟨a0, ha0, c0, hac⟩ := natDegree_eq_one.1 hfc
  rw [← hac, map_add, map_mul, expand_C, expand_C, expand_X] at ef
  obtain ⟨a1, ha1⟩ := hs (a0 / d)
  obtain ⟨c1, hc1⟩ := hs (c0 / d)
  obtain ⟨b1, hb1⟩ := hs B
  have ha10 : a1 ≠ 0 := by
    rintro rfl
    rw [zero_pow hp0] at ha1
    exact div_ne_zero ha0 hd0 ha1.symm
  -- the abscissa is the power of a polynomial of degree 1
  have hxp : x = ι ((C a1 * X + C c1) ^ p) := by
    have : ExpChar k[X] p := ExpChar.prime hp.out
    rw [hx, div_eq_iff hgK, ← map_mul, ι_inj, add_pow_expChar, mul_pow, ← C_pow, ← C_pow, ha1, hc1, ← ef, ← eg]
    have h1 : (C (a0 / d) : k[X]) * C d = C a0 := by rw [← C_mul, div_mul_cancel₀ _ hd0]
    have h2 : (C (c0 / d) : k[X]) * C d = C c0 := by rw [← C_mul, div_mul_cancel₀ _ hd0]
    rw [← h1, ← h2]
    ring
  set M : k[X] := (C a1 * X + C c1) ^ 3 + C b1 with hM
  have hMp : x ^ 3 + ι (C B) = ι (M ^ p) := by
    have : ExpChar k[X] p := ExpChar.prime hp.out
    have e1 : M ^ p = ((C a1 * X + C c1) ^ p) ^ 3 + C B := by
      rw [hM, add_pow_expChar, ← C_pow, hb1, ← pow_mul, ← pow_mul, mul_comm 3 p]
    rw [hxp, ← map_pow, ← map_add, ι_inj, e1]
  have hV := h
  have hxy : (ι (lam B) ^ 2 * y) ^ 2 = ι (lam B ^ 3 * M ^ p) := by
    rw [map_mul, map_pow, ← hMp, h, bK, map_mul, map_pow]
    ring
  obtain ⟨v, hv⟩ := IsIntegrallyClosed.exists_algebraMap_eq_of_isIntegral_pow (R := k[X]) (n := 2) (by norm_num)
    (hxy ▸ isIntegral_algebraMap : IsIntegral k[X] ((ι (lam B) ^ 2 * y) ^ 2))
  change ι v = _ at hv
  rw [← hv, ← map_pow, ι_inj] at hxy
  have hpr : Prime (lam B) := lam_irreducible.prime
  have hl0 := lam_ne B
  obtain ⟨v1, rfl⟩ : lam B ∣ v := hpr.dvd_of_dvd_pow (n := 2) ⟨lam B ^ 2 * M ^ p, by rw [hxy]; ring⟩
  have hxy1 : v1 ^ 2 = lam B * M ^ p := by
    refine mul_left_cancel₀ (pow_ne_zero 2 hl0) ?_
    linear_combination hxy
  obtain ⟨v2, rfl⟩ : lam B ∣ v1 := hpr.dvd_of_dvd_pow (n := 2) ⟨M ^ p, hxy1⟩
  have hxy2 : M ^ p = lam B * v2 ^ 2 := by
    refine mul_left_cancel₀ hl0 ?_
    linear_combination -hxy1
  obtain ⟨q, hq⟩ : lam B ∣ M := hpr.dvd_of_dvd_pow ⟨_, hxy2⟩
  have hMe : M = C (a1 ^ 3) * X ^ 3 + C (3 * a1 ^ 2 * c1) * X ^ 2 + C (3 * a1 * c1 ^ 2) * X + C (c1 ^ 3 + b1) := by
    rw [hM]
    simp only [C_mul, C_pow, C_add, C_ofNat]
    ring
  have hMd : M.natDegree = 3 := by
    rw [hMe]
    exact natDegree_cubic (pow_ne_zero 3 ha10)
  have hld : (lam B).natDegree = 3 := natDegree_X_pow_add_C
  have hq0 : q ≠ 0 := by
    rintro rfl
    rw [hq, mul_zero, natDegree_zero] at hMd
    omega
  have hqd : q.natDegree = 0 := by
    have := congrArg natDegree hq
    rw [natDegree_mul hl0 hq0, hMd, hld] at this
    omega
  obtain ⟨e0, rfl⟩ := natDegree_eq_zero.1 hqd
  have hq' : C (a1 ^ 3) * X ^ 3 + C (3 * a1 ^ 2 * c1) * X ^ 2 + C (3 * a1 * c1 ^ 2) * X + C (c1 ^ 3 + b1) =
      C e0 * X ^ 3 + C 0 * X ^ 2 + C 0 * X + C (B * e0) := by
    rw [← hMe, hq, lam, C_0, C_mul]
    ring
  have k3 := congrArg (fun P => coeff P 3) hq'
  have k2 := congrArg (fun P => coeff P 2) hq'
  have k0 := congrArg (fun P => coeff P 0) hq'
  simp only [cubic3, cubic2, cubic0] at k3 k2 k0
  obtain rfl : c1 = 0 := (mul_eq_zero.1 k2).resolve_left (mul_ne_zero good.three (pow_ne_zero 2 ha10))
  rw [zero_pow three_ne_zero, zero_add, ← k3] at k0
  rw [zero_pow hp0] at hc1
  refine ⟨a0 / d, div_ne_zero ha0 hd0, ?_, fun x y h => ?_⟩
  · rw [← ha1]
    nth_rw 2 [← hb1]
    rw [k0]
    ring
  · have hxx := hsp x y h
    have hc00 : c0 = 0 := ((div_eq_zero_iff.1 hc1.symm).resolve_right hd0)
    rw [← ef, ← eg, eval_add, eval_mul, eval_C, eval_C, eval_pow, eval_X, eval_C, hc00, add_zero] at hxx
    rcases Pt.cases (val (B := B) hβ a b x y h) with h1 | ⟨x', y', h', h1⟩
    · rw [h1, isX_zero] at hxx
      exact absurd hxx.1 hd0
    · rw [h1, isX_mk] at hxx
      have : x' = a0 / d * x ^ p := by
        rw [div_mul_eq_mul_div, eq_div_iff hd0, hxx.2, mul_comm]
      subst this
      exact ⟨y', h', h1⟩

/-! ### The automorphism of order 3 -/

section

variable {F : Type} [Field F] [DecidableEq F] {b : F} [good : GoodB b] {β : F} (hβ : β ^ 2 + β + 1 = 0)

theorem om_on (hβ : β ^ 2 + β + 1 = 0) {x y : F} (h : y ^ 2 = x ^ 3 + b) : y ^ 2 = (β * x) ^ 3 + b := by
  rw [mul_pow, cube hβ, one_mul]
  exact h

/-- The automorphism, multiplying abscissas by `β`. -/
def omF (hβ : β ^ 2 + β + 1 = 0) : Pt b → Pt b
  | .zero => 0
  | .some _ _ h => Pt.mk _ _ (om_on hβ (Pt.nonsingular_iff.1 h))

theorem omF_zero : omF hβ (0 : Pt b) = 0 := rfl

theorem omF_mk {x y : F} (h : y ^ 2 = x ^ 3 + b) : omF hβ (Pt.mk x y h) = Pt.mk _ _ (om_on hβ h) := rfl

theorem omF_add (P Q : Pt b) : omF hβ (P + Q) = omF hβ P + omF hβ Q := by
  have h3 := cube hβ
  have hβ0 : β ≠ 0 := by
    rintro rfl
    norm_num at h3
  rcases Pt.cases P with rfl | ⟨x, y, h, rfl⟩
  · rw [zero_add, omF_zero, zero_add]
  rcases Pt.cases Q with rfl | ⟨x', y', h', rfl⟩
  · rw [add_zero, omF_zero, add_zero]
  by_cases hx : x = x'
  · subst hx
    have hyy : (y - y') * (y + y') = 0 := by linear_combination h - h'
    rcases mul_eq_zero.1 hyy with e | e
    · obtain rfl : y = y' := by linear_combination e
      have hy := Pt.y_ne h
      have t2 := good.two
      obtain ⟨h1, e1⟩ := Pt.add_self h (l := 3 * x ^ 2 / (2 * y)) (by field_simp) rfl rfl
      obtain ⟨h2, e2⟩ := Pt.add_self (om_on hβ h) (l := β ^ 2 * (3 * x ^ 2 / (2 * y)))
        (x3 := β * ((3 * x ^ 2 / (2 * y)) ^ 2 - x - x)) (by field_simp)
        (by linear_combination -(β * (3 * x ^ 2 / (2 * y)) ^ 2) * h3) rfl
      rw [e1, omF_mk, omF_mk, e2, Pt.mk_inj]
      exact ⟨rfl, by linear_combination -(3 * x ^ 2 / (2 * y)) * (x - ((3 * x ^ 2 / (2 * y)) ^ 2 - x - x)) * h3⟩
    · obtain rfl : y' = -y := by linear_combination e
      rw [Pt.add_opp, omF_mk, omF_mk, Pt.add_opp, omF_zero]
  · have hd : x - x' ≠ 0 := sub_ne_zero.2 hx
    obtain ⟨h1, e1⟩ := Pt.add_ne h h' hx (l := (y - y') / (x - x')) (by field_simp) rfl rfl
    obtain ⟨h2, e2⟩ := Pt.add_ne (om_on hβ h) (om_on hβ h') (fun e => hx (mul_left_cancel₀ hβ0 e))
      (l := β ^ 2 * ((y - y') / (x - x'))) (x3 := β * (((y - y') / (x - x')) ^ 2 - x - x'))
      (by field_simp; linear_combination (y - y') * h3)
      (by linear_combination -(β * ((y - y') / (x - x')) ^ 2) * h3) rfl
    rw [e1, omF_mk, omF_mk, omF_mk, e2, Pt.mk_inj]
    exact ⟨rfl, by linear_combination -((y - y') / (x - x')) * (x - (((y - y') / (x - x')) ^ 2 - x - x')) * h3⟩

/-- The automorphism as a homomorphism. -/
def om : Pt b →+ Pt b := ⟨⟨omF hβ, omF_zero hβ⟩, omF_add hβ⟩

theorem om_mk {x y : F} (h : y ^ 2 = x ^ 3 + b) : om hβ (Pt.mk x y h) = Pt.mk _ _ (om_on hβ h) := rfl

theorem om_om (P : Pt b) : om hβ (om hβ P) = -P - om hβ P := by
  rcases Pt.cases P with rfl | ⟨x, y, h, rfl⟩
  · simp
  · have h2 : y ^ 2 = (β ^ 2 * x) ^ 3 + b := by rw [mul_pow, cube2 hβ, one_mul]; exact h
    have e := line hβ h (om_on hβ h) (by rw [neg_sq]; exact h2)
    rw [← neg_add', om_mk, e, om_mk, Pt.neg_mk, Pt.mk_inj]
    exact ⟨by ring, (neg_neg _).symm⟩

theorem val_eq (a c : ℤ) {x y : F} (h : y ^ 2 = x ^ 3 + b) :
    val hβ a c x y h = a • Pt.mk x y h + c • om hβ (Pt.mk x y h) := by
  rw [val, om_mk]
  congr 2
  rw [rot, Pt.mk_inj]
  exact ⟨one_mul _, rfl⟩

end

end

end Manin
