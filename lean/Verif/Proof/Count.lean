import Mathlib.NumberTheory.LegendreSymbol.QuadraticChar.Basic
import Mathlib.RingTheory.IntegralDomain
import Mathlib.GroupTheory.SpecificGroups.Cyclic
import Mathlib.Tactic.LinearCombination
import Mathlib.Tactic.FieldSimp
import Mathlib.Tactic.Ring
/-!
# The number of points of `y² = x³ + b` over a finite field with a cube root of unity

With `S b = Σ_x χ(x³ + b)` (χ the quadratic character) and a generator `g` of the multiplicative group, the
three sums `S b`, `S (b/g)`, `S (b/g²)` up to sign add up to 0 and their squares add up to `6q`. Hence
`S(b)² + 3f² = 4q` for an integer `f`.
-/

namespace Count

open Finset

variable {F : Type} [Field F] [Fintype F] [DecidableEq F]

local notation "χ" => quadraticChar F

/-- Correlation of two shifts of the quadratic character. -/
theorem sum_shift (hF : ringChar F ≠ 2) {s t : F} (h : s ≠ t) : ∑ b : F, χ (s + b) * χ (t + b) = -1 := by
  have e1 : ∑ b : F, χ (s + b) * χ (t + b) = ∑ c : F, χ (s - t + c) * χ c := by
    refine Fintype.sum_equiv (Equiv.addLeft t) _ _ fun b => ?_
    simp only [Equiv.coe_addLeft]
    congr 2
    ring
  have hd : s - t ≠ 0 := sub_ne_zero.2 h
  have e2 : ∀ c : F, χ (s - t + c) * χ c = if c = 0 then 0 else χ (1 + (s - t) * c⁻¹) := by
    intro c
    split
    · rename_i h0
      rw [h0, MulChar.map_zero, mul_zero]
    · rename_i h0
      have h1 : χ c = χ c⁻¹ := by
        have h3 := quadraticChar_sq_one h0
        have h4 : χ c * χ c⁻¹ = 1 := by rw [← map_mul, mul_inv_cancel₀ h0, map_one]
        linear_combination χ c⁻¹ * h3 - χ c * h4
      rw [h1, ← map_mul]
      congr 1
      field_simp
      ring
  rw [e1, Fintype.sum_congr _ _ e2]
  have e3 : ∑ c : F, (if c = 0 then 0 else χ (1 + (s - t) * c⁻¹)) = ∑ c : F, (if c = 0 then 0 else χ (1 + c)) := by
    refine Fintype.sum_equiv ((Equiv.inv F).trans (Equiv.mulLeft₀ (s - t) hd)) _ _ fun c => ?_
    have : (s - t) * c⁻¹ = 0 ↔ c = 0 := by simp [hd]
    simp only [Equiv.trans_apply, Equiv.inv_apply, Equiv.mulLeft₀_apply, this]
  have e4 : ∑ c : F, χ (1 + c) = 0 := by
    rw [← quadraticChar_sum_zero hF]
    exact Fintype.sum_equiv (Equiv.addLeft 1) _ _ fun _ => rfl
  rw [e3]
  have e5 : ∀ c : F, (if c = 0 then 0 else χ (1 + c)) = χ (1 + c) - if c = 0 then 1 else 0 := by
    intro c
    split
    · rename_i h0; rw [h0, add_zero, map_one]; norm_num
    · ring
  rw [Fintype.sum_congr _ _ e5, sum_sub_distrib, e4]
  simp

/-- The character sum. -/
def S (b : F) : Int := ∑ x : F, χ (x ^ 3 + b)

theorem sum_eq_units (h : F → Int) : ∑ x, h x = h 0 + ∑ u : Fˣ, h u := by
  rw [Fintype.sum_eq_add_sum_subtype_ne h 0]
  congr 1
  exact (Fintype.sum_equiv unitsEquivNeZero _ _ fun _ => rfl).symm

theorem sum_units_range {g : Fˣ} (hg : ∀ x, x ∈ Subgroup.zpowers g) (h : Fˣ → Int) :
    ∑ u : Fˣ, h u = ∑ j ∈ range (orderOf g), h (g ^ j) := by
  rw [← IsCyclic.image_range_orderOf hg, sum_image]
  intro a ha b hb e
  exact pow_injOn_Iio_orderOf (by simpa using ha) (by simpa using hb) e

theorem sum_range_three (f : Nat → Int) (N : Nat) :
    ∑ k ∈ range N, ∑ i ∈ range 3, f (i + 3 * k) = ∑ j ∈ range (3 * N), f j := by
  induction N with
  | zero => simp
  | succ N ih =>
    rw [sum_range_succ, ih, show 3 * (N + 1) = 3 * N + 3 by ring, sum_range_add]
    congr 1
    exact sum_congr rfl fun i _ => by rw [add_comm]

/-- The elements `g^i u³` run three times through the multiplicative group. -/
theorem sum_three {g : Fˣ} (hg : ∀ x, x ∈ Subgroup.zpowers g) (h : Fˣ → Int) :
    ∑ i ∈ range 3, ∑ u : Fˣ, h (g ^ i * u ^ 3) = 3 * ∑ u : Fˣ, h u := by
  have per : ∀ j, h (g ^ (orderOf g + j)) = h (g ^ j) := by
    intro j
    rw [pow_add, pow_orderOf_eq_one, one_mul]
  rw [sum_comm, sum_units_range hg, sum_units_range hg]
  have e := sum_range_three (fun j => h (g ^ j)) (orderOf g)
  have e1 : ∀ k i, g ^ i * (g ^ k) ^ 3 = g ^ (i + 3 * k) := by
    intro k i
    rw [pow_add, mul_comm 3 k, pow_mul]
  simp only [e1]
  rw [e, show 3 * orderOf g = orderOf g + (orderOf g + orderOf g) by ring, sum_range_add, sum_range_add]
  simp only [per]
  ring

/-- The number of pairs with equal cubes. -/
theorem card_cubes (h3 : 3 ∣ Fintype.card Fˣ) :
    ∑ x : F, ∑ y : F, (if x ^ 3 = y ^ 3 then 1 else 0 : Int) = 1 + 3 * (Fintype.card F - 1) := by
  have hk : ∀ u : Fˣ, ∑ v : Fˣ, (if (u : F) ^ 3 = (v : F) ^ 3 then 1 else 0 : Int) = 3 := by
    intro u
    have h := IsCyclic.card_powMonoidHom_ker Fˣ 3
    rw [Nat.card_eq_fintype_card (α := Fˣ), Nat.gcd_eq_right h3] at h
    have e : ∑ v : Fˣ, (if (u : F) ^ 3 = (v : F) ^ 3 then 1 else 0 : Int) = ∑ w : Fˣ, if w ^ 3 = 1 then 1 else 0 := by
      refine Fintype.sum_equiv (Equiv.mulLeft u⁻¹) _ _ fun v => ?_
      have : (u : F) ^ 3 = (v : F) ^ 3 ↔ (u⁻¹ * v) ^ 3 = 1 := by
        rw [← Units.val_pow_eq_pow_val, ← Units.val_pow_eq_pow_val, Units.val_inj, mul_pow, inv_pow, inv_mul_eq_one]
      simp only [Equiv.coe_mulLeft]
      exact if_congr this rfl rfl
    rw [e, sum_boole]
    have : #{w : Fˣ | w ^ 3 = 1} = Nat.card (powMonoidHom 3 : Fˣ →* Fˣ).ker := by
      rw [Nat.card_eq_fintype_card, Fintype.card_subtype]
      congr 1
      ext w
      simp [MonoidHom.mem_ker]
    rw [this, h]
    norm_num
  rw [sum_eq_units]
  have h0 : ∑ y : F, (if (0 : F) ^ 3 = y ^ 3 then 1 else 0 : Int) = 1 := by
    rw [sum_eq_units]
    have : ∀ u : Fˣ, (if (0 : F) ^ 3 = (u : F) ^ 3 then 1 else 0 : Int) = 0 := by
      intro u
      rw [if_neg]
      rw [zero_pow three_ne_zero]
      exact (pow_ne_zero 3 u.ne_zero).symm
    rw [Fintype.sum_congr _ _ this]
    simp
  have hu : ∀ u : Fˣ, ∑ y : F, (if (u : F) ^ 3 = y ^ 3 then 1 else 0 : Int) = 3 := by
    intro u
    rw [sum_eq_units, hk]
    simp
  rw [h0, Fintype.sum_congr _ _ hu]
  have hc : (Fintype.card Fˣ : Int) = Fintype.card F - 1 := by
    rw [Fintype.card_units]
    have := Fintype.card_pos (α := F)
    omega
  simp only [sum_const, card_univ, nsmul_eq_mul]
  rw [hc]
  ring

/-- The second moment. -/
theorem sum_sq (hF : ringChar F ≠ 2) (h3 : 3 ∣ Fintype.card Fˣ) :
    ∑ b : F, S b ^ 2 = 2 * Fintype.card F * (Fintype.card F - 1) := by
  have e1 : ∀ s t : F, ∑ b : F, χ (s + b) * χ (t + b) = (if s = t then (Fintype.card F : Int) else 0) - 1 := by
    intro s t
    split
    · rename_i h
      subst h
      have : ∀ b : F, χ (s + b) * χ (s + b) = 1 - if b = -s then 1 else 0 := by
        intro b
        split
        · rename_i h
          rw [h, add_neg_cancel, MulChar.map_zero]
          norm_num
        · rename_i h
          rw [← pow_two, quadraticChar_sq_one (fun h' => h (by linear_combination h'))]
          norm_num
      rw [Fintype.sum_congr _ _ this, sum_sub_distrib]
      simp
    · rename_i h
      rw [sum_shift hF h]
      norm_num
  have e2 : ∀ b : F, S b ^ 2 = ∑ x : F, ∑ y : F, χ (x ^ 3 + b) * χ (y ^ 3 + b) := by
    intro b
    rw [pow_two, S, sum_mul_sum]
  rw [Fintype.sum_congr _ _ e2, sum_comm]
  have e3 : ∀ x : F, ∑ b : F, ∑ y : F, χ (x ^ 3 + b) * χ (y ^ 3 + b) =
      ∑ y : F, ((Fintype.card F : Int) * (if x ^ 3 = y ^ 3 then 1 else 0) - 1) := by
    intro x
    rw [sum_comm]
    refine Fintype.sum_congr _ _ fun y => ?_
    rw [e1]
    split <;> ring
  rw [Fintype.sum_congr _ _ e3]
  simp only [sum_sub_distrib, ← mul_sum, card_cubes h3]
  simp
  ring

/-- **The character sum is the trace of an element of norm `q`**. -/
theorem S_norm (hF : ringChar F ≠ 2) (h3 : 3 ∣ Fintype.card Fˣ) {b : F} (hb : b ≠ 0) :
    ∃ f : Int, S b ^ 2 + 3 * f ^ 2 = 4 * Fintype.card F := by
  obtain ⟨g, hg⟩ := IsCyclic.exists_generator (α := Fˣ)
  -- the three sums
  let A : Nat → Int := fun i => ∑ x : F, χ ((g : F) ^ i * x ^ 3 + b)
  have hA : ∀ i, A i ^ 2 = S (b * ((g : F) ^ i)⁻¹) ^ 2 := by
    intro i
    have h0 : (g : F) ^ i ≠ 0 := pow_ne_zero _ g.ne_zero
    have : A i = χ ((g : F) ^ i) * S (b * ((g : F) ^ i)⁻¹) := by
      simp only [A, S, mul_sum, ← map_mul]
      refine Fintype.sum_congr _ _ fun x => ?_
      congr 1
      field_simp
    rw [this, mul_pow, quadraticChar_sq_one h0, one_mul]
  have hsum : ∑ i ∈ range 3, A i = 0 := by
    have e : ∀ i, A i = χ b + ∑ u : Fˣ, χ (((g ^ i * u ^ 3 : Fˣ) : F) + b) := by
      intro i
      simp only [A]
      rw [sum_eq_units]
      simp
    simp only [e]
    rw [sum_add_distrib, sum_three hg (fun u => χ ((u : F) + b))]
    have e4 : ∑ c : F, χ (c + b) = 0 := by
      rw [← quadraticChar_sum_zero hF]
      exact Fintype.sum_equiv (Equiv.addRight b) _ _ fun _ => rfl
    rw [sum_eq_units] at e4
    simp only [sum_const, card_range]
    rw [zero_add] at e4
    linear_combination 3 * e4
  have hsq : ∑ i ∈ range 3, A i ^ 2 = 6 * Fintype.card F := by
    have h := sum_sq hF h3
    have hS0 : S (0 : F) = 0 := by
      rw [S, ← quadraticChar_sum_zero hF]
      refine Fintype.sum_congr _ _ fun x => ?_
      rw [add_zero]
      by_cases h0 : x = 0
      · simp [h0]
      · rw [pow_succ, map_mul, quadraticChar_sq_one' h0, one_mul]
    have hscale : ∀ (c : F) (u : Fˣ), S (c * ((u : F) ^ 3)⁻¹) ^ 2 = S c ^ 2 := by
      intro c u
      have hu : (u : F) ≠ 0 := u.ne_zero
      have : S c = χ ((u : F) ^ 3) * S (c * ((u : F) ^ 3)⁻¹) := by
        simp only [S, mul_sum, ← map_mul]
        symm
        refine Fintype.sum_equiv (Equiv.mulLeft₀ (u : F) hu) _ _ fun x => ?_
        simp only [Equiv.mulLeft₀_apply]
        congr 1
        field_simp
      rw [this, mul_pow, quadraticChar_sq_one (pow_ne_zero 3 hu), one_mul]
    have e := sum_three hg (fun v => S (b * (v : F)⁻¹) ^ 2)
    have e1 : ∀ i (u : Fˣ), S (b * ((g ^ i * u ^ 3 : Fˣ) : F)⁻¹) ^ 2 = A i ^ 2 := by
      intro i u
      rw [hA, ← hscale (b * ((g : F) ^ i)⁻¹) u]
      congr 2
      push_cast
      rw [mul_inv]
      ring
    simp only [e1] at e
    have e2 : ∑ v : Fˣ, S (b * (v : F)⁻¹) ^ 2 = ∑ w : Fˣ, S (w : F) ^ 2 := by
      refine Fintype.sum_equiv ((Equiv.inv Fˣ).trans (Equiv.mulLeft (Units.mk0 b hb))) _ _ fun v => ?_
      simp
    have hc : (Fintype.card Fˣ : Int) = Fintype.card F - 1 := by
      rw [Fintype.card_units]
      have := Fintype.card_pos (α := F)
      omega
    rw [sum_eq_units, hS0] at h
    rw [e2] at e
    simp only [sum_const, card_univ, nsmul_eq_mul, hc, ← mul_sum] at e
    have hq : (Fintype.card F : Int) - 1 ≠ 0 := by
      have := Fintype.one_lt_card (α := F)
      omega
    apply mul_left_cancel₀ hq
    linear_combination e + 3 * h
  have hA0 : A 0 = S b := by simp [A, S]
  rw [sum_range_succ, sum_range_succ, sum_range_one] at hsum hsq
  have h12 : (A 0 + 2 * A 1) ^ 2 + 3 * A 0 ^ 2 = 12 * Fintype.card F := by
    have : A 2 = -(A 0 + A 1) := by linear_combination hsum
    rw [this] at hsq
    linear_combination 2 * hsq
  have hd : (3 : Int) ∣ A 0 + 2 * A 1 := by
    refine Int.prime_three.dvd_of_dvd_pow (n := 2) ?_
    exact ⟨4 * Fintype.card F - A 0 ^ 2, by linear_combination h12⟩
  obtain ⟨f, hf⟩ := hd
  refine ⟨f, ?_⟩
  rw [hf] at h12
  rw [← hA0]
  linarith

end Count
