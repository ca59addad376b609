import Verif.Spec.B383.Tower
import Verif.Proof.B383.CurveEval
import Verif.Proof.Big
import Verif.Model.B383.Rom
/-!
# The Frobenius maps of the tower
-/

set_option exponentiation.threshold 2000

namespace Amcl.B383.Eval

open Spec Spec.B383

variable {C F : Type} [Field F]

/-- `a ^ e` for `e < 2 ^ fuel`. -/
def pow (A : Alg C F) (a : C) : Nat → Nat → C
  | 0, _ => A.one
  | f + 1, e =>
    match e % 2 with
    | 0 => (fun h => A.mul h h) (pow A a f (e / 2))
    | _ => (fun h => A.mul (A.mul h h) a) (pow A a f (e / 2))

theorem pow_eq (A : Alg C F) (a : C) (f : Nat) : ∀ e, e < 2 ^ f → A.toF (pow A a f e) = A.toF a ^ e := by
  induction f with
  | zero => intro e h; simp at h; subst h; rw [pow, A.one_eq, pow_zero]
  | succ f ih =>
    intro e h
    have h2 : e / 2 < 2 ^ f := by rw [pow_succ] at h; omega
    have hd := Nat.div_add_mod e 2
    unfold pow
    rcases Nat.mod_two_eq_zero_or_one e with he | he
    · rw [he]; simp only [A.mul_eq, ih _ h2]
      conv_rhs => rw [← hd, he, add_zero, two_mul, pow_add]
    · rw [he]; simp only [A.mul_eq, ih _ h2]
      conv_rhs => rw [← hd, he, two_mul, pow_add, pow_add, pow_one]

end Amcl.B383.Eval

namespace Spec.B383

open QuadraticAlgebra Amcl.B383

instance : CharP Fp2 p := charP_of_injective_ringHom (algebraMap Fp Fp2).injective p

theorem i_pow_p : i ^ p = -i := by
  have h4 : i ^ 4 = 1 := by rw [show i ^ 4 = (i ^ 2) ^ 2 by ring, i_sq]; ring
  have hp : p = 4 * (p / 4) + 3 := by norm_num [p]
  have h : ∀ n m : Nat, n = 4 * m + 3 → i ^ n = -i := by
    rintro _ m rfl
    rw [pow_add, pow_mul, h4, one_pow, one_mul, show i ^ 3 = i ^ 2 * i by ring, i_sq]; ring
  exact h _ _ hp

theorem mk_eq (a b : Fp) : (⟨a, b⟩ : Fp2) = algebraMap Fp Fp2 a + algebraMap Fp Fp2 b * i := by
  ext <;> simp [i]

/-- Conjugation is the Frobenius map of the quadratic extension. -/
theorem star_eq (z : Fp2) : star z = z ^ p := by
  obtain ⟨a, b⟩ := z
  have h := frobenius_def (R := Fp2) p ⟨a, b⟩
  rw [← h, mk_eq, map_add, map_mul, frobenius_def, frobenius_def, frobenius_def, ← map_pow, ← map_pow,
    ZMod.pow_card, ZMod.pow_card, i_pow_p]
  ext <;> simp [i]

/-- `W^(p-1)`. -/
def γ : Fp2 := ⟨(rom.FRA.val : Fp), (rom.FRB.val : Fp)⟩

theorem γ_eval : Eval.pow Eval.fp2 (1, 1) 400 ((p - 1) / 6) = (rom.FRA.val.toNat, rom.FRB.val.toNat) := by
  decide +kernel

theorem γ_eq : γ = (1 + i) ^ ((p - 1) / 6) := by
  have e1 : (1 + i : Fp2) = Eval.fp2.toF (1, 1) := by
    ext <;> simp [i, Eval.fp2, Eval.fp, re_one, im_one]
  have e2 : γ = Eval.fp2.toF (rom.FRA.val.toNat, rom.FRB.val.toNat) := by
    have h : ∀ z : Int, 0 ≤ z → (z : Fp) = ((z.toNat : Nat) : Fp) := by
      intro z hz
      conv_lhs => rw [← Int.toNat_of_nonneg hz]
      rw [Int.cast_natCast]
    ext
    · exact h _ (by decide +kernel)
    · exact h _ (by decide +kernel)
  rw [e1, ← Eval.pow_eq Eval.fp2 (1, 1) 400 _ (by norm_num [p]), e2, γ_eval]

theorem W_pow_p : W ^ p = ι2 γ * W := by
  have h : p = 6 * ((p - 1) / 6) + 1 := by norm_num [p]
  rw [γ_eq, map_pow, ← W_six, ← pow_mul, ← pow_succ, ← h]

theorem ι2_pow_p (z : Fp2) : ι2 z ^ p = ι2 (star z) := by rw [star_eq, map_pow]

/-- Real elements of `Fp2` are fixed. -/
theorem ι1_pow_p (z : Fp) : ι1 z ^ p = ι1 z := by rw [← map_pow, ZMod.pow_card]

/-- The Frobenius map of the largest field. -/
noncomputable def φ : Fp12 →+* Fp12 := frobenius Fp12 p

theorem φ_eq (z : Fp12) : φ z = z ^ p := rfl

theorem φ_W : φ W = ι2 γ * W := W_pow_p

theorem φ_ι2 (z : Fp2) : φ (ι2 z) = ι2 (star z) := ι2_pow_p z

theorem φ_ι1 (z : Fp) : φ (ι1 z) = ι1 z := ι1_pow_p z

/-- `W^(p²-1)`, a primitive sixth root of unity in the base field. -/
def ζ : Fp := QuadraticAlgebra.norm γ

theorem ζ_eq : algebraMap Fp Fp2 ζ = star γ * γ := by
  rw [ζ, algebraMap_norm_eq_mul_star, mul_comm]

theorem ζ_pow : ζ = 2 ^ ((p - 1) / 6) := by
  rw [ζ, γ_eq, map_pow, norm_one_add_i]

theorem ζ_eval : Eval.fp.mul (Eval.pow Eval.fp 2 400 ((p - 1) / 6)) (Eval.pow Eval.fp 2 400 ((p - 1) / 6)) =
    Eval.fp.sub (Eval.pow Eval.fp 2 400 ((p - 1) / 6)) Eval.fp.one := by
  decide +kernel

theorem ζ_sq : ζ ^ 2 = ζ - 1 := by
  have e : (2 : Fp) = Eval.fp.toF 2 := by simp [Eval.fp]
  rw [ζ_pow, e, ← Eval.pow_eq Eval.fp 2 400 _ (by norm_num [p]), ← Eval.fp.one_eq, ← Eval.fp.sub_eq, sq,
    ← Eval.fp.mul_eq, ζ_eval]

theorem ζ_cube : ζ ^ 3 = -1 := by
  have := ζ_sq
  linear_combination (ζ + 1) * this

theorem ι2_algebraMap (z : Fp) : ι2 (algebraMap Fp Fp2 z) = ι1 z := rfl

theorem φφ_W : φ (φ W) = ι1 ζ * W := by
  rw [φ_W, map_mul, φ_W, φ_ι2, ← ι2_algebraMap, ζ_eq, map_mul]; ring

theorem φφ_ι2 (z : Fp2) : φ (φ (ι2 z)) = ι2 z := by rw [φ_ι2, φ_ι2, star_star]

/-- The Frobenius map of `Fp2`, six times on `Fp12`: `W ↦ -W`. -/
noncomputable def τ : Fp12 →+* Fp12 := (φ.comp φ).comp ((φ.comp φ).comp (φ.comp φ))

theorem τ_eq (z : Fp12) : τ z = z ^ (p ^ 6) := by
  simp only [τ, RingHom.comp_apply, φ_eq, ← pow_mul]
  congr 1

theorem τ_ι2 (z : Fp2) : τ (ι2 z) = ι2 z := by
  simp only [τ, RingHom.comp_apply, φφ_ι2]

theorem τ_W : τ W = -W := by
  simp only [τ, RingHom.comp_apply, φφ_W, map_mul, φ_ι1]
  have : ι1 ζ ^ 3 = -1 := by rw [← map_pow, ζ_cube, map_neg, map_one]
  linear_combination W * this

theorem τ_ι4 (a : Fp4) : τ (ι4 a) = ι4 (star a) := by
  obtain ⟨a, b⟩ := a
  rw [show star (⟨a, b⟩ : Fp4) = ⟨a, -b⟩ by ext1 <;> simp, ι4_mk, ι4_mk, map_add, map_mul, map_pow, τ_ι2,
    τ_ι2, τ_W, map_neg]
  ring

/-- `τ` is an involution. -/
theorem ττ (z : Fp12) : τ (τ z) = z := by
  obtain ⟨a, b, c, rfl⟩ := Fp12_exists z
  simp only [map_add, map_mul, map_pow, τ_ι4, τ_W, map_neg, star_star]
  ring

theorem φ_ι4 (a : Fp4) : φ (ι4 a) = ι4 ⟨star a.re, star a.im * γ ^ 3⟩ := by
  obtain ⟨a, b⟩ := a
  rw [ι4_mk, ι4_mk, map_add, map_mul, map_pow, φ_ι2, φ_ι2, φ_W, map_mul, map_pow]
  ring

theorem φφ_ι4 (a : Fp4) : φ (φ (ι4 a)) = ι4 (star a) := by
  obtain ⟨a, b⟩ := a
  have h3 : ι1 ζ ^ 3 = -1 := by rw [← map_pow, ζ_cube, map_neg, map_one]
  rw [show star (⟨a, b⟩ : Fp4) = ⟨a, -b⟩ by ext1 <;> simp, ι4_mk, ι4_mk, map_add, map_add, map_mul, map_mul,
    map_pow, map_pow, φφ_ι2, φφ_ι2, φφ_W, map_neg, mul_pow, h3]
  ring

end Spec.B383
