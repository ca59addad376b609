import Mathlib.FieldTheory.Finite.Basic
import Mathlib.Algebra.Polynomial.Derivative
import Mathlib.Algebra.Polynomial.FieldDivision
import Mathlib.RingTheory.UniqueFactorizationDomain.Multiplicity
import Mathlib.Tactic.ComputeDegree
import Mathlib.Tactic.LinearCombination
import Mathlib.Tactic.FieldSimp
/-!
# The search loop of the hash ends

On every line `t ↦ t + b·i` of the quadratic extension, some `x = t + b·i` has `x³ + 4(1+i)` of square
norm and with non-zero imaginary part. A counting argument with an auxiliary polynomial in the manner of
Stepanov: if it failed everywhere, `X^q - X` would divide `c (f^n + 1)`, and differentiating three times
forces the sextic `f` to be a constant times a square.
-/

namespace Stepanov

open Polynomial

variable {q : Nat} [hq : Fact q.Prime]

local notation "K" => ZMod q

theorem natDegree_le_of_mul {W g B : K[X]} {m : Nat} (hW : W.natDegree = q) (h : W * g = B)
    (hB : B.natDegree ≤ q + m) : g.natDegree ≤ m := by
  by_cases hg : g = 0
  · simp [hg]
  have hW0 : W ≠ 0 := by
    rintro rfl
    have := hq.out.pos
    simp at hW
    omega
  have := natDegree_mul hW0 hg
  rw [h] at this
  omega

theorem le_natDegree_of_mul {W g B : K[X]} {m : Nat} (hW : W.natDegree = q) (h : W * g = B)
    (hB : q + m ≤ B.natDegree) : m ≤ g.natDegree := by
  have := natDegree_mul_le (p := W) (q := g)
  rw [h] at this
  omega

/-- Two polynomials of small degree with proportional derivatives have the same degree. -/
theorem degree_eq_of_wronskian {P Q : K[X]} (hP : P ≠ 0) (hQ : Q ≠ 0) (dP : P.natDegree < q) (dQ : Q.natDegree < q)
    (h : derivative P * Q = P * derivative Q) : P.natDegree = Q.natDegree := by
  have cX : ∀ (R : K[X]) (m : Nat), (X * derivative R).coeff m = (m : K) * R.coeff m := by
    intro R m
    cases m with
    | zero => simp
    | succ m => rw [coeff_X_mul, coeff_derivative]; push_cast; ring
  have dX : ∀ R : K[X], (X * derivative R).natDegree ≤ R.natDegree := by
    intro R
    refine natDegree_le_iff_coeff_eq_zero.2 fun m hm => ?_
    rw [cX, coeff_eq_zero_of_natDegree_lt hm, mul_zero]
  have key : (X * derivative P * Q).coeff (P.natDegree + Q.natDegree) =
      (P * (X * derivative Q)).coeff (P.natDegree + Q.natDegree) := by
    congr 1
    linear_combination X * h
  rw [coeff_mul_add_eq_of_natDegree_le (dX P) le_rfl, coeff_mul_add_eq_of_natDegree_le le_rfl (dX Q), cX, cX] at key
  have h1 : P.coeff P.natDegree ≠ 0 := by simpa using hP
  have h2 : Q.coeff Q.natDegree ≠ 0 := by simpa using hQ
  have h3 : (P.natDegree : K) = (Q.natDegree : K) := by
    apply mul_right_cancel₀ (mul_ne_zero h1 h2)
    linear_combination key
  rwa [ZMod.natCast_eq_natCast_iff', Nat.mod_eq_of_lt dP, Nat.mod_eq_of_lt dQ] at h3

theorem const_of_wronskian {P Q : K[X]} (hQ : Q ≠ 0) (dP : P.natDegree < q) (dQ : Q.natDegree < q)
    (h : derivative P * Q = P * derivative Q) : ∃ k : K, P = C k * Q := by
  refine ⟨P.coeff Q.natDegree / Q.leadingCoeff, ?_⟩
  by_contra hne
  set k := P.coeff Q.natDegree / Q.leadingCoeff with hk
  have hD : P - C k * Q ≠ 0 := sub_ne_zero.2 hne
  have dD : (P - C k * Q).natDegree < q := by
    refine lt_of_le_of_lt (natDegree_sub_le _ _) (max_lt dP (lt_of_le_of_lt (natDegree_C_mul_le _ _) dQ))
  have e := degree_eq_of_wronskian hD hQ dD dQ (by
    simp only [derivative_sub, derivative_mul, derivative_C, zero_mul, zero_add]
    linear_combination h)
  have : (P - C k * Q).leadingCoeff = 0 := by
    rw [leadingCoeff, e, coeff_sub, coeff_C_mul, coeff_natDegree, hk, div_mul_cancel₀, sub_self]
    exact leadingCoeff_ne_zero.2 hQ
  exact hD (leadingCoeff_eq_zero.1 this)

/-- The operator that kills `c f^n`. -/
noncomputable def L (f c h : K[X]) : K[X] :=
  c * (2 * f * derivative h + derivative f * h) - 2 * f * derivative c * h

theorem L_degree {f c h : K[X]} {m : Nat} (hf : f.natDegree ≤ 6) (hc : c.natDegree ≤ 2) (hh : h.natDegree ≤ m) :
    (L f c h).natDegree ≤ m + 8 := by
  have d1 := natDegree_derivative_le f
  have d2 := natDegree_derivative_le c
  have d3 := natDegree_derivative_le h
  have e1 : (2 * f * derivative h).natDegree ≤ 0 + 6 + m :=
    natDegree_mul_le_of_le (natDegree_mul_le_of_le (natDegree_ofNat 2).le hf) (by omega)
  have e2 : (derivative f * h).natDegree ≤ 6 + m := natDegree_mul_le_of_le (by omega) hh
  have e3 : (2 * f * derivative c * h).natDegree ≤ 0 + 6 + 2 + m :=
    natDegree_mul_le_of_le (natDegree_mul_le_of_le (natDegree_mul_le_of_le (natDegree_ofNat 2).le hf) (by omega)) hh
  have e4 : (c * (2 * f * derivative h + derivative f * h)).natDegree ≤ 2 + (6 + m) :=
    natDegree_mul_le_of_le hc (natDegree_add_le_of_le (by omega) e2 |>.trans (by simp))
  exact (natDegree_sub_le _ _).trans (max_le (by omega) (by omega))

theorem L_mulW {f c g W : K[X]} (hW : derivative W = -1) : L f c (W * g) = W * L f c g - 2 * f * c * g := by
  simp only [L, derivative_mul, hW]
  ring

theorem L_add (f c g h : K[X]) : L f c (g + h) = L f c g + L f c h := by
  simp only [L, derivative_add]
  ring

/-- The auxiliary polynomial argument: if `c (f^n + 1)` vanishes everywhere, then `f` is a square up to a
constant. -/
theorem square_of_vanish {f c : K[X]} {n : Nat} (hn : 2 * n + 1 = q) (hq100 : 100 < q) (hf : f.Monic)
    (df : f.natDegree = 6) (hc : c ≠ 0) (dc : c.natDegree ≤ 2)
    (hv : ∀ t : K, (c * (f ^ n + 1)).eval t = 0) : ∃ (s : K[X]) (k : K), k ≠ 0 ∧ s ^ 2 = C k * f := by
  have h2 : (2 : K) ≠ 0 := by
    intro h
    have := (ZMod.natCast_eq_zero_iff 2 q).1 (by exact_mod_cast h)
    have := Nat.le_of_dvd (by norm_num) this
    omega
  have h3 : (3 : K) ≠ 0 := by
    intro h
    have := (ZMod.natCast_eq_zero_iff 3 q).1 (by exact_mod_cast h)
    have := Nat.le_of_dvd (by norm_num) this
    omega
  have hC2 : (2 : K[X]) = C 2 := (map_ofNat C 2).symm
  have hf0 : f ≠ 0 := hf.ne_zero
  -- `X^q - X`
  obtain ⟨W, hWd⟩ : ∃ W : K[X], W = X ^ q - X := ⟨_, rfl⟩
  have dW : W.natDegree = q := by rw [hWd]; exact FiniteField.X_pow_card_sub_X_natDegree_eq K hq.out.one_lt
  have mW : W.Monic := by
    rw [hWd]
    exact monic_X_pow_sub (by rw [degree_X]; exact_mod_cast hq.out.one_lt)
  have hW' : derivative W = -1 := by
    rw [hWd, derivative_sub, derivative_X_pow, derivative_X]
    simp
  have vW : ∀ t : K, W.eval t = 0 := by
    intro t
    rw [hWd, eval_sub, eval_pow, eval_X, ZMod.pow_card, sub_self]
  -- divide
  obtain ⟨g, hg⟩ : ∃ g, W * g = c * (f ^ n + 1) := by
    have h := modByMonic_add_div (c * (f ^ n + 1)) W
    refine ⟨c * (f ^ n + 1) /ₘ W, ?_⟩
    have hr : c * (f ^ n + 1) %ₘ W = 0 := by
      refine eq_zero_of_natDegree_lt_card_of_eval_eq_zero (f := fun t : K => t) _ Function.injective_id ?_ ?_
      · intro t
        have := congrArg (eval t) h
        rw [eval_add, eval_mul, vW, zero_mul, add_zero, hv] at this
        exact this
      · rw [ZMod.card]
        refine (natDegree_modByMonic_lt _ mW ?_).trans_eq dW
        rintro h
        rw [h, natDegree_one] at dW
        omega
    rw [hr, zero_add] at h
    exact h
  have dfn : (f ^ n + 1).natDegree = 6 * n := by
    rw [natDegree_add_eq_left_of_natDegree_lt, hf.natDegree_pow, df, mul_comm]
    rw [hf.natDegree_pow, df, natDegree_one]
    omega
  have hfn0 : f ^ n + 1 ≠ 0 := by
    intro h
    rw [h, natDegree_zero] at dfn
    omega
  have dH : (c * (f ^ n + 1)).natDegree = c.natDegree + 6 * n := by
    rw [natDegree_mul hc hfn0, dfn]
  have dg : g.natDegree ≤ q + q - 1 := natDegree_le_of_mul dW hg (by omega)
  have dg' : q + q - 3 ≤ g.natDegree := le_natDegree_of_mul dW hg (by omega)
  have hg0 : g ≠ 0 := by
    rintro rfl
    rw [natDegree_zero] at dg'
    omega
  -- first step
  have d1 := natDegree_derivative_le f
  have d2 := natDegree_derivative_le c
  obtain ⟨F, hF⟩ : ∃ F : K[X], F = 2 * f * c := ⟨_, rfl⟩
  have hF0 : F ≠ 0 := by
    rw [hF, hC2]
    exact mul_ne_zero (mul_ne_zero (by simpa using h2) hf0) hc
  have dF : F.natDegree ≤ 8 := by
    rw [hF]
    exact natDegree_mul_le_of_le (natDegree_mul_le_of_le (natDegree_ofNat 2).le df.le) dc
  have dF' : (derivative F).natDegree ≤ 8 := (natDegree_derivative_le F).trans (by omega)
  obtain ⟨A1, hA1⟩ : ∃ A : K[X], A = -(c ^ 2 * derivative f) := ⟨_, rfl⟩
  have dA1 : A1.natDegree ≤ 10 := by
    rw [hA1, natDegree_neg]
    refine natDegree_mul_le_of_le (m := 4) (n := 6) ?_ (by omega)
    exact (natDegree_pow_le_of_le 2 dc)
  have hu : 2 * f * derivative (f ^ n) = -(derivative f * f ^ n) := by
    have hn0 : n ≠ 0 := by omega
    obtain ⟨m, rfl⟩ : ∃ m, n = m + 1 := ⟨n - 1, by omega⟩
    rw [derivative_pow, Nat.add_sub_cancel]
    have : (C ((m + 1 : Nat) : K)) * 2 = -1 := by
      rw [hC2, ← C_mul, ← C_1, ← C_neg]
      congr 1
      have : ((2 * (m + 1) + 1 : Nat) : K) = 0 := by rw [hn]; exact CharP.cast_eq_zero K q
      push_cast at this ⊢
      linear_combination this
    linear_combination (f ^ (m + 1) * derivative f) * this
  have s1 : W * L f c g = F * g - A1 := by
    have h := L_mulW (f := f) (c := c) (g := g) hW'
    rw [hg, ← hF] at h
    have : L f c (c * (f ^ n + 1)) = -A1 := by
      rw [hA1]
      simp only [L, derivative_mul, derivative_add, derivative_one, add_zero]
      linear_combination c ^ 2 * hu
    rw [this] at h
    linear_combination -h
  obtain ⟨g1, hg1⟩ : ∃ g1, g1 = L f c g := ⟨_, rfl⟩
  rw [← hg1] at s1
  have dFg : (F * g).natDegree = F.natDegree + g.natDegree := natDegree_mul hF0 hg0
  have dR1 : (F * g - A1).natDegree = F.natDegree + g.natDegree := by
    rw [natDegree_sub_eq_left_of_natDegree_lt (by omega), dFg]
  have dg1 : g1.natDegree ≤ q + 7 := natDegree_le_of_mul dW s1 (by omega)
  have dg1' : q - 3 ≤ g1.natDegree := le_natDegree_of_mul dW s1 (by omega)
  have hg10 : g1 ≠ 0 := by
    rintro rfl
    rw [natDegree_zero] at dg1'
    omega
  -- second step
  have LF : ∀ h, L f c (F * h) = F * L f c h + F * derivative F * h := by
    intro h
    simp only [L, derivative_mul, hF]
    ring
  obtain ⟨A2, hA2⟩ : ∃ A : K[X], A = L f c A1 - derivative F * A1 := ⟨_, rfl⟩
  have dA2 : A2.natDegree ≤ 18 := by
    rw [hA2]
    refine (natDegree_sub_le _ _).trans (max_le ?_ ?_)
    · exact L_degree df.le dc dA1
    · exact natDegree_mul_le_of_le dF' dA1
  have s2 : W * (L f c g1 - derivative F * g1) = 2 * F * g1 - A2 := by
    have h := L_mulW (f := f) (c := c) (g := g1) hW'
    have e : F * g = A1 + W * g1 := by linear_combination -s1
    have h' := congrArg (L f c) e
    rw [LF, L_add, h, ← hg1, ← hF] at h'
    rw [hA2]
    linear_combination -h' + derivative F * e
  obtain ⟨g2, hg2⟩ : ∃ g2, g2 = L f c g1 - derivative F * g1 := ⟨_, rfl⟩
  rw [← hg2] at s2
  have dFg1 : (2 * F * g1).natDegree = F.natDegree + g1.natDegree := by
    rw [hC2, mul_assoc, natDegree_C_mul h2, natDegree_mul hF0 hg10]
  have dR2 : (2 * F * g1 - A2).natDegree = F.natDegree + g1.natDegree := by
    rw [natDegree_sub_eq_left_of_natDegree_lt (by omega), dFg1]
  have dg2 : g2.natDegree ≤ 15 := natDegree_le_of_mul dW s2 (by omega)
  have hg20 : g2 ≠ 0 := by
    rintro rfl
    rw [mul_zero] at s2
    rw [← s2, natDegree_zero] at dR2
    omega
  -- third step
  obtain ⟨A3, hA3⟩ : ∃ A : K[X], A = L f c A2 - 2 * derivative F * A2 := ⟨_, rfl⟩
  have dA3 : A3.natDegree ≤ 26 := by
    rw [hA3]
    refine (natDegree_sub_le _ _).trans (max_le ?_ ?_)
    · exact L_degree df.le dc dA2
    · exact natDegree_mul_le_of_le (natDegree_mul_le_of_le (natDegree_ofNat 2).le dF') dA2
  have s3 : W * (L f c g2 - 2 * derivative F * g2) = 3 * F * g2 - A3 := by
    have h := L_mulW (f := f) (c := c) (g := g2) hW'
    have e : 2 * (F * g1) = A2 + W * g2 := by linear_combination -s2
    have h' := congrArg (L f c) e
    have e2 : L f c (2 * (F * g1)) = 2 * L f c (F * g1) := by
      rw [two_mul, two_mul, L_add]
    rw [e2, LF, L_add, h, ← hF] at h'
    rw [hA3]
    linear_combination -h' + 2 * derivative F * e - 2 * F * hg2
  have hg3 : L f c g2 - 2 * derivative F * g2 = 0 := by
    by_contra hne
    have := natDegree_mul mW.ne_zero hne
    rw [s3, dW] at this
    have h1 : (3 * F * g2 - A3).natDegree ≤ 26 := by
      refine (natDegree_sub_le _ _).trans (max_le ?_ dA3)
      exact (natDegree_mul_le_of_le (natDegree_mul_le_of_le (natDegree_ofNat 3).le dF) dg2).trans (by norm_num)
    omega
  -- `g2²` is a multiple of `f³c⁶`
  have hw : derivative (g2 ^ 2) * (f ^ 3 * c ^ 6) = g2 ^ 2 * derivative (f ^ 3 * c ^ 6) := by
    have e : c * (2 * f * derivative g2) = 3 * (derivative f * c * g2) + 6 * (f * derivative c * g2) := by
      have := hg3
      simp only [L, hF, derivative_mul, derivative_ofNat, zero_mul, zero_add] at this
      linear_combination this
    simp only [derivative_mul, derivative_pow, Nat.cast_ofNat, C_ofNat]
    linear_combination (g2 * f ^ 2 * c ^ 5) * e
  obtain ⟨k, hk⟩ := const_of_wronskian (P := g2 ^ 2) (Q := f ^ 3 * c ^ 6)
    (mul_ne_zero (pow_ne_zero _ hf0) (pow_ne_zero _ hc))
    (by
      rw [natDegree_pow]
      omega)
    (by
      rw [natDegree_mul (pow_ne_zero _ hf0) (pow_ne_zero _ hc), natDegree_pow, natDegree_pow]
      omega) hw
  have hk0 : k ≠ 0 := by
    rintro rfl
    rw [C_0, zero_mul] at hk
    exact hg20 (pow_eq_zero_iff (by norm_num) |>.1 hk)
  have hdvd : f * c ^ 3 ∣ g2 := by
    rw [← UniqueFactorizationMonoid.pow_dvd_pow_iff_dvd two_ne_zero, hk]
    exact ⟨C k * f, by ring⟩
  obtain ⟨s, hs⟩ := hdvd
  refine ⟨s, k, hk0, ?_⟩
  rw [hs] at hk
  apply mul_left_cancel₀ (pow_ne_zero 2 (mul_ne_zero hf0 (pow_ne_zero 3 hc)))
  linear_combination hk

/-- The sextic of the hash is not a constant times a square. -/
theorem sextic_not_square (h2 : (2 : K) ≠ 0) (h3 : (3 : K) ≠ 0) (b k : K) (hk : k ≠ 0) (s : K[X]) :
    s ^ 2 ≠ C k * ((X ^ 3 - C (3 * b ^ 2) * X + 4) ^ 2 + (C (3 * b) * X ^ 2 + C (4 - b ^ 3)) ^ 2) := by
  intro h
  have hf : ((X ^ 3 - C (3 * b ^ 2) * X + 4) ^ 2 + (C (3 * b) * X ^ 2 + C (4 - b ^ 3)) ^ 2 : K[X]) =
      C 1 * X ^ 6 + C 0 * X ^ 5 + C (3 * b ^ 2) * X ^ 4 + C 8 * X ^ 3 + C (3 * b ^ 4 + 24 * b) * X ^ 2 +
        C (-24 * b ^ 2) * X + C (16 + (4 - b ^ 3) ^ 2) := by
    simp only [C_add, C_sub, C_mul, C_pow, C_neg, C_ofNat, C_1, C_0]
    ring
  rw [hf] at h
  obtain ⟨a4, e4⟩ : ∃ a : K, a = 3 * b ^ 2 := ⟨_, rfl⟩
  obtain ⟨a2, e2⟩ : ∃ a : K, a = 3 * b ^ 4 + 24 * b := ⟨_, rfl⟩
  obtain ⟨a1, e1⟩ : ∃ a : K, a = -24 * b ^ 2 := ⟨_, rfl⟩
  obtain ⟨a0, e0⟩ : ∃ a : K, a = 16 + (4 - b ^ 3) ^ 2 := ⟨_, rfl⟩
  rw [← e4, ← e2, ← e1, ← e0] at h
  have dR : (C k * (C 1 * X ^ 6 + C 0 * X ^ 5 + C a4 * X ^ 4 + C 8 * X ^ 3 +
      C a2 * X ^ 2 + C a1 * X + C a0)).natDegree = 6 := by
    rw [natDegree_C_mul hk]
    compute_degree!
  rw [← h, natDegree_pow] at dR
  have z : ∀ m, 4 ≤ m → s.coeff m = 0 := fun m hm => coeff_eq_zero_of_natDegree_lt (by omega)
  have z4 := z 4 (by norm_num)
  have z5 := z 5 (by norm_num)
  have z6 := z 6 (by norm_num)
  have cs : ∀ m, (s ^ 2).coeff m = _ := fun m => congrArg (coeff · m) h
  have c6 := cs 6
  have c5 := cs 5
  have c4 := cs 4
  have c3 := cs 3
  have c1 := cs 1
  have c0 := cs 0
  rw [pow_two, coeff_mul] at c6 c5 c4 c3 c1 c0
  simp [Finset.Nat.antidiagonal_succ, coeff_X, coeff_C, coeff_X_pow, z4, z5, z6] at c6 c5 c4 c3 c1 c0
  have s3 : s.coeff 3 ≠ 0 := by
    intro h
    rw [h, mul_zero] at c6
    exact hk c6.symm
  have s2 : s.coeff 2 = 0 := by
    have : (2 * s.coeff 3) * s.coeff 2 = 0 := by linear_combination c5
    exact (mul_eq_zero.1 this).resolve_left (mul_ne_zero h2 s3)
  rw [s2] at c4 c3
  rw [← c6] at c4 c3 c1 c0
  have s1 : 2 * s.coeff 1 = a4 * s.coeff 3 := by
    apply mul_left_cancel₀ s3
    linear_combination c4
  have s0 : s.coeff 0 = 4 * s.coeff 3 := by
    apply mul_left_cancel₀ (mul_ne_zero h2 s3)
    linear_combination c3
  have hb : b = 0 := by
    have : (2 * 2 * 3 * 3 : K) * (s.coeff 3) ^ 2 * b ^ 2 = 0 := by
      rw [s0, e1] at c1
      rw [e4] at s1
      linear_combination c1 - 4 * s.coeff 3 * s1
    have h36 : (2 * 2 * 3 * 3 : K) * (s.coeff 3) ^ 2 ≠ 0 :=
      mul_ne_zero (mul_ne_zero (mul_ne_zero (mul_ne_zero h2 h2) h3) h3) (pow_ne_zero 2 s3)
    exact pow_eq_zero_iff (two_ne_zero) |>.1 ((mul_eq_zero.1 this).resolve_left h36)
  have : (2 * 2 * 2 * 2 : K) * (s.coeff 3) ^ 2 = 0 := by
    rw [s0, e0, hb] at c0
    linear_combination -c0
  exact mul_ne_zero (mul_ne_zero (mul_ne_zero (mul_ne_zero h2 h2) h2) h2) (pow_ne_zero 2 s3) this

/-- On every line there is a `t` with non-vanishing second and a norm that is not a non-square. -/
theorem exists_good {n : Nat} (hn : 2 * n + 1 = q) (hq100 : 100 < q) (b : K) : ∃ t : K,
    3 * b * t ^ 2 + (4 - b ^ 3) ≠ 0 ∧
    ((t ^ 3 - 3 * b ^ 2 * t + 4) ^ 2 + (3 * b * t ^ 2 + (4 - b ^ 3)) ^ 2) ^ n ≠ -1 := by
  have hne : ∀ m : Nat, 0 < m → m < 100 → (m : K) ≠ 0 := by
    intro m h0 h1 h
    have := Nat.le_of_dvd h0 ((ZMod.natCast_eq_zero_iff m q).1 h)
    omega
  have h2 : (2 : K) ≠ 0 := by exact_mod_cast hne 2 (by norm_num) (by norm_num)
  have h3 : (3 : K) ≠ 0 := by exact_mod_cast hne 3 (by norm_num) (by norm_num)
  have h4 : (4 : K) ≠ 0 := by exact_mod_cast hne 4 (by norm_num) (by norm_num)
  by_contra hno
  have hc : (C (3 * b) * X ^ 2 + C (4 - b ^ 3) : K[X]) ≠ 0 := by
    intro h
    have e2 := congrArg (coeff · 2) h
    have e0 := congrArg (coeff · 0) h
    simp only [coeff_add, coeff_C_mul, coeff_X_pow, coeff_C, coeff_zero] at e2 e0
    simp [h3] at e2
    rw [e2] at e0
    simp at e0
    exact h4 e0
  have df : ((X ^ 3 - C (3 * b ^ 2) * X + 4) ^ 2 + (C (3 * b) * X ^ 2 + C (4 - b ^ 3)) ^ 2 : K[X]).natDegree = 6 := by
    compute_degree!
  have mf : ((X ^ 3 - C (3 * b ^ 2) * X + 4) ^ 2 + (C (3 * b) * X ^ 2 + C (4 - b ^ 3)) ^ 2 : K[X]).Monic := by
    refine monic_of_natDegree_le_of_coeff_eq_one 6 df.le ?_
    compute_degree!
  obtain ⟨s, k, hk, hs⟩ := square_of_vanish hn hq100 mf df hc (by compute_degree!) (by
    intro t
    by_contra h
    apply hno
    simp only [eval_mul, eval_add, eval_pow, eval_sub, eval_X, eval_C, eval_ofNat, eval_one] at h
    obtain ⟨e1, e2⟩ := mul_ne_zero_iff.1 h
    exact ⟨t, e1, fun h => e2 (by rw [h]; ring)⟩)
  exact sextic_not_square h2 h3 b k hk s hs

end Stepanov
