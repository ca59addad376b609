import Verif.Proof.ManinFrob
import Verif.Proof.Psi
/-!
# The characteristic equation of the Frobenius endomorphism of the twist

`ψ` is `a + bω` for the automorphism `ω` of order 3 and integers `a`, `b` with `a² - ab + b² = p` (`Manin.frob`, which leaves a sign
that the generator decides).
-/

set_option exponentiation.threshold 6000

namespace Spec

open Amcl Manin

namespace Frob

/-- A root of unity of order 3 modulo `p`. -/
def beta : Nat := 793479390729215512621379701633421447060886740281060493010456487427281649075476305620758731620350

def β : Fp2 := ⟨(beta : Fp), 0⟩

/-- `ψ = na + nb·ω`. -/
def na : Nat := 1155048275357884106335086113613464118768280431093290937003
@[inherit_doc na]
def nb : Nat := 2310096550715768212670172227226928237551693238409523516757

theorem toF_beta : Eval.fp2.toF (beta, 0) = β := by
  ext <;> simp [Eval.fp2, Eval.fp, β]

theorem hβ : β ^ 2 + β + 1 = 0 := by
  rw [← toF_beta, pow_two, ← Eval.fp2.mul_eq, ← Eval.fp2.add_eq, ← Eval.fp2.one_eq, ← Eval.fp2.add_eq, ← Eval.fp2.isZero_eq]
  decide +kernel

theorem norm_eq : (na : Int) ^ 2 - na * nb + nb ^ 2 = (p : Nat) := by decide +kernel

theorem tangent : (((na : Int) : Fp2)) + ((nb : Int) : Fp2) * β = 0 := by
  have h : ((na + nb * beta : Nat) : Fp2) = 0 := by
    rw [CharP.cast_eq_zero_iff Fp2 p]
    decide +kernel
  have e : β = ((beta : Nat) : Fp2) := by
    ext <;> simp [β]
  rw [e]
  push_cast at h ⊢
  linear_combination h

theorem om_gen2_is : Eval.Is Eval.fp2 ⟨Eval.fp2.mul (beta, 0) (g2xa, g2xb), (g2ya, g2yb), (1, 0)⟩ (om hβ gen2) := by
  rw [gen2, om_mk]
  show Amcl.Proj (Eval.fp2.toF (Eval.fp2.mul (beta, 0) (g2xa, g2xb))) _ (Eval.fp2.toF Eval.fp2.one) _
  rw [Eval.fp2.mul_eq, toF_beta, Eval.fp2.one_eq]
  exact Amcl.Proj.mk _

theorem gen2_eval : ∀ t, t = Eval.add Eval.fp2 (12, 12)
      (Eval.smul Eval.fp2 (12, 12) ⟨(g2xa, g2xb), (g2ya, g2yb), (1, 0)⟩ 192 (na + xAbs))
      (Eval.smul Eval.fp2 (12, 12) ⟨Eval.fp2.mul (beta, 0) (g2xa, g2xb), (g2ya, g2yb), (1, 0)⟩ 192 nb) →
    (Eval.fp2.isZero t.x && Eval.fp2.isZero t.z) = true := by
  rintro _ rfl
  decide +kernel

theorem alpha_gen2 : (na : Int) • gen2 + (nb : Int) • om hβ gen2 = psi gen2 := by
  have h1 := Eval.smul_is b2_is gen2_is 192 (na + xAbs) (by decide +kernel)
  have h2 := Eval.smul_is b2_is om_gen2_is 192 nb (by decide +kernel)
  have h := Eval.add_is b2_is h1 h2
  have he := gen2_eval _ rfl
  rw [Bool.and_eq_true, Eval.fp2.isZero_eq, Eval.fp2.isZero_eq] at he
  have hz := h.inf_iff.1 he
  have hg : psi gen2 = -(xAbs • gen2) := by rw [psi_gen2, neg_neg]
  rw [hg]
  rw [add_smul] at hz
  rw [natCast_zsmul, natCast_zsmul, ← sub_eq_zero, ← hz]
  abel

theorem exists_c : ∃ c : Fp2, ∀ x y h, ∃ y' h', (na : Int) • (Pt.mk x y h : G2) + (nb : Int) • om hβ (Pt.mk x y h) =
    Pt.mk (c * star x) y' h' := by
  have : Fact p.Prime := ⟨prime_p⟩
  obtain ⟨c, -, -, hc⟩ := frob (B := b2) (p := p) (fun z => ⟨star z, by rw [← star_eq, star_star]⟩) hβ norm_eq tangent
  refine ⟨c, fun x y h => ?_⟩
  obtain ⟨y', h', e⟩ := hc x y h
  rw [val_eq] at e
  rw [star_eq]
  exact ⟨y', h', e⟩

theorem alpha_mk {x y : Fp2} (h : y ^ 2 = x ^ 3 + b2) : ∃ y' h',
    (na : Int) • (Pt.mk x y h : G2) + (nb : Int) • om hβ (Pt.mk x y h) = Pt.mk (star x / γ ^ 2) y' h' := by
  obtain ⟨c, hc⟩ := exists_c
  obtain ⟨y', h', e⟩ := hc _ _ g2_on
  have e2 := alpha_gen2
  rw [gen2, e, psi_mk, Pt.mk_inj] at e2
  have hx : star (⟨(g2xa : Fp), (g2xb : Fp)⟩ : Fp2) ≠ 0 := by
    rw [Ne, star_eq_zero]
    intro h
    have h := congrArg QuadraticAlgebra.re h
    change ((g2xa : Nat) : Fp) = 0 at h
    rw [ZMod.natCast_eq_zero_iff] at h
    revert h
    decide +kernel
  have hcv : c = 1 / γ ^ 2 := by
    refine mul_right_cancel₀ hx ?_
    rw [e2.1]
    ring
  obtain ⟨y', h', e⟩ := hc _ _ h
  have hh : c * star x = star x / γ ^ 2 := by rw [hcv]; ring
  rw [hh] at h'
  refine ⟨y', h', ?_⟩
  rw [e, Pt.mk_inj]
  exact ⟨hh, rfl⟩

/-- The endomorphism `na + nb·ω`. -/
def alpha : G2 →+ G2 := (na : Int) • AddMonoidHom.id G2 + (nb : Int) • om hβ

theorem alpha_eq (Q : G2) : alpha Q = (na : Int) • Q + (nb : Int) • om hβ Q := rfl

theorem alpha_or (Q : G2) : alpha Q = psi Q ∨ alpha Q = -psi Q := by
  rcases Pt.cases Q with rfl | ⟨x, y, h, rfl⟩
  · left
    rw [map_zero, psi_zero]
  · obtain ⟨y', h', e⟩ := alpha_mk h
    rw [alpha_eq, e, psi_mk, Pt.neg_mk, Pt.mk_inj, Pt.mk_inj]
    have := psi_on h
    rcases sq_eq_sq_iff_eq_or_eq_neg.1 (h'.trans this.symm) with h1 | h1
    · exact Or.inl ⟨rfl, h1⟩
    · exact Or.inr ⟨rfl, h1⟩

theorem alpha_psi (Q : G2) : psi Q = alpha Q := by
  have hg : alpha gen2 = psi gen2 := alpha_gen2
  have hng : alpha gen2 ≠ -psi gen2 := by
    rw [hg]
    intro h
    have h2 : (2 : Nat) • psi gen2 = 0 := by
      rw [two_nsmul]
      nth_rw 2 [h]
      exact add_neg_cancel _
    have h3 : r • psi gen2 = 0 := by rw [← psi_nsmul, r_gen2, psi_zero]
    have h4 : psi gen2 = 0 := by
      have hr : r = 2 * (r / 2) + 1 := by decide +kernel
      rw [hr, add_smul, mul_comm, mul_smul, h2, smul_zero, zero_add, one_smul] at h3
      exact h3
    rw [gen2, psi_mk] at h4
    exact Pt.mk_ne _ h4
  rcases alpha_or Q with h | h
  · exact h.symm
  · rcases alpha_or (Q + gen2) with h' | h'
    · rw [map_add, psi_add, hg] at h'
      exact (add_right_cancel h').symm
    · rw [map_add, psi_add, h, neg_add] at h'
      exact absurd (add_left_cancel h') hng

/-- The Frobenius endomorphism in the ring of `ω`. -/
theorem psi_eq (Q : G2) : psi Q = (na : Int) • Q + (nb : Int) • om hβ Q := alpha_psi Q

theorem gamma_norm : (star γ * γ) ^ 3 = -1 ∧ 1 = β ^ 2 * (star γ * γ) ^ 2 := by
  have e : star γ * γ = Eval.fp2.toF (Eval.fp2.mul (rom.FRA.val.toNat, p - rom.FRB.val.toNat) (rom.FRA.val.toNat, rom.FRB.val.toNat)) := by
    rw [Eval.fp2.mul_eq, toF_γ, toF_conj (by decide +kernel), ← toF_γ]
    rfl
  generalize hn : Eval.fp2.mul (rom.FRA.val.toNat, p - rom.FRB.val.toNat) (rom.FRA.val.toNat, rom.FRB.val.toNat) = n at e
  have h1 : Eval.fp2.isZero (Eval.fp2.add (Eval.fp2.mul n (Eval.fp2.mul n n)) (1, 0)) = true := by
    rw [← hn]
    decide +kernel
  have h2 : Eval.fp2.isZero (Eval.fp2.sub (1, 0) (Eval.fp2.mul (Eval.fp2.mul (beta, 0) (beta, 0)) (Eval.fp2.mul n n))) = true := by
    rw [← hn]
    decide +kernel
  have h0 : Eval.fp2.toF (1, 0) = 1 := Eval.fp2.one_eq
  rw [Eval.fp2.isZero_eq, Eval.fp2.add_eq, Eval.fp2.mul_eq, Eval.fp2.mul_eq, h0] at h1
  rw [Eval.fp2.isZero_eq, Eval.fp2.sub_eq, Eval.fp2.mul_eq, Eval.fp2.mul_eq, Eval.fp2.mul_eq, h0, toF_beta] at h2
  rw [e]
  constructor
  · linear_combination h1
  · linear_combination h2

theorem psi_psi (Q : G2) : psi (psi Q) = Q + om hβ Q := by
  obtain ⟨g3, g2⟩ := gamma_norm
  have hg := γ_ne
  have hsg : star γ ≠ 0 := star_ne_zero.2 hg
  rcases Pt.cases Q with rfl | ⟨x, y, h, rfl⟩
  · rw [psi_zero, psi_zero, map_zero, add_zero]
  · rw [om_mk, line hβ h _ (by rw [neg_sq, mul_pow, cube2 hβ, one_mul]; exact h), psi_mk, psi_mk, Pt.mk_inj]
    simp only [star_div₀, star_pow, star_star]
    constructor
    · field_simp
      linear_combination x * g2
    · field_simp
      linear_combination y * g3

/-- Multiples, in the ring of `ω`, of an element that kills the point. -/
theorem mult {M : Type} [AddCommGroup M] {P W : M} {d₀ d₁ : Int} (h₁ : d₀ • P + d₁ • W = 0) (h₂ : d₀ • W + d₁ • (-P - W) = 0)
    {t₀ t₁ : Int} (κ₀ κ₁ : Int) (e₀ : t₀ = κ₀ * d₀ - κ₁ * d₁) (e₁ : t₁ = κ₀ * d₁ + κ₁ * d₀ - κ₁ * d₁) : t₀ • P + t₁ • W = 0 := by
  have : t₀ • P + t₁ • W = κ₀ • (d₀ • P + d₁ • W) + κ₁ • (d₀ • W + d₁ • (-P - W)) := by
    subst e₀ e₁
    module
  rw [this, h₁, h₂, smul_zero, smul_zero, add_zero]

theorem comb {M : Type} [AddCommGroup M] (P W : M) (a b : Int) :
    a • (a • P + b • W) + b • (a • W + b • (-P - W)) = (a ^ 2 - b ^ 2) • P + (2 * a * b - b ^ 2) • W := by module

theorem psi_psi_eq (Q : G2) : psi (psi Q) = ((na : Int) ^ 2 - nb ^ 2) • Q + (2 * na * nb - nb ^ 2 : Int) • om hβ Q := by
  rw [psi_eq (psi Q), psi_eq Q, map_add, map_zsmul, map_zsmul, om_om, comb]

theorem kill (Q : G2) : ((na : Int) ^ 2 - nb ^ 2 - 1) • Q + (2 * na * nb - nb ^ 2 - 1 : Int) • om hβ Q = 0 := by
  have h := psi_psi Q
  rw [psi_psi_eq, ← sub_eq_zero] at h
  rw [← h]
  module

/-- The characteristic equation of the Frobenius endomorphism. -/
theorem char_eq (Q : G2) : psi (psi Q) + p • Q = (1 - (xAbs : Int)) • psi Q := by
  rw [psi_psi_eq, psi_eq, ← natCast_zsmul]
  have h1 : ((na : Int) ^ 2 - nb ^ 2) + (p : Nat) = (1 - (xAbs : Int)) * na := by decide +kernel
  have h2 : (2 * na * nb - nb ^ 2 : Int) = (1 - (xAbs : Int)) * nb := by decide +kernel
  rw [h2, smul_add, ← mul_smul, ← mul_smul, ← h1]
  module

end Frob

end Spec
