import Verif.Proof.B383.Eval12
import Verif.Proof.B383.SignedMiller
/-!
# The pairing of the generators is not 1

The Miller function of the generators and its power are computed by the kernel.
-/

set_option exponentiation.threshold 6000

namespace Spec.B383

open Amcl.B383 Amcl.B383.Eval

/-- The tangent line at `t`, evaluated at `(x, y)`. -/
def tangentE (x y : Nat) (t : Tri (Nat × Nat)) : E12 :=
  E12.line (fp2.mul (fp2.mul (fp2.sub (0, 0) (fp2.mul (4, 0) (fp2.mul t.y t.z))) (y, 0)) (1, 1))
    (fp2.sub (fp2.mul (90, 90) (fp2.mul t.z t.z)) (fp2.mul (2, 0) (fp2.mul t.y t.y)))
    (fp2.mul (fp2.mul (6, 0) (fp2.mul t.x t.x)) (x, 0))

/-- The chord through `t` and the affine point `(bx, b)`, evaluated at `(x, y)`. -/
def chordE (x y : Nat) (t s : Tri (Nat × Nat)) : E12 :=
  let u := fp2.sub t.x (fp2.mul t.z s.x)
  let v := fp2.sub t.y (fp2.mul t.z s.y)
  E12.line (fp2.mul (fp2.mul u (y, 0)) (1, 1)) (fp2.sub (fp2.mul v s.x) (fp2.mul u s.y))
    (fp2.sub (0, 0) (fp2.mul v (x, 0)))

/-- `signedLoop` on coefficients. -/
def loopE (x y n : Nat) (s ns : Tri (Nat × Nat)) : Nat → E12 → Tri (Nat × Nat) → E12
  | 0, f, _ => f
  | i + 1, f, t =>
    let f := E12.mul (E12.mul f f) (tangentE x y t)
    let t := dbl fp2 (45, 45) t
    if digit n (i + 1) = 1 then loopE x y n s ns i (E12.mul f (chordE x y t s)) (Eval.add fp2 (45, 45) t s)
    else if digit n (i + 1) = -1 then loopE x y n s ns i (E12.mul f (chordE x y t ns)) (Eval.add fp2 (45, 45) t ns)
    else loopE x y n s ns i f t

theorem toF_real (x : Nat) : fp2.toF (x, 0) = algebraMap Fp Fp2 (x : Fp) := by
  apply QuadraticAlgebra.ext
  · simp [fp2, fp]
  · simp [fp2, fp]

theorem toF_lit (k : Nat) : fp2.toF (k, 0) = (k : Fp2) := by rw [toF_real, map_natCast]

theorem toF_xi (k : Nat) : fp2.toF (k, k) = (k : Fp2) * (1 + i) := by
  have : (k : Fp2) = algebraMap Fp Fp2 (k : Fp) := by rw [map_natCast]
  rw [this]
  apply QuadraticAlgebra.ext
  · simp [fp2, fp, i, QuadraticAlgebra.re_one, QuadraticAlgebra.im_one]
  · simp [fp2, fp, i, QuadraticAlgebra.re_one, QuadraticAlgebra.im_one]

theorem tangentE_same {t : Tri (Nat × Nat)} {A : G2} (h : Is fp2 t A) (x y : Nat) :
    Same (tangentE x y t).toF (lineAt x y A A) := by
  have e := tangent_same h (x : Fp) (y : Fp)
  have h1 : fp2.toF (fp2.mul (fp2.mul (fp2.sub (0, 0) (fp2.mul (4, 0) (fp2.mul t.y t.z))) (y, 0)) (1, 1)) =
      -(4 * fp2.toF t.y * fp2.toF t.z) * algebraMap Fp Fp2 y * (1 + i) := by
    simp only [fp2.mul_eq, fp2.sub_eq, toF_lit 4, toF_lit 0, toF_real y, toF_xi]
    push_cast
    ring
  have h2 : fp2.toF (fp2.sub (fp2.mul (90, 90) (fp2.mul t.z t.z)) (fp2.mul (2, 0) (fp2.mul t.y t.y))) =
      90 * fp2.toF t.z ^ 2 * (1 + i) - 2 * fp2.toF t.y ^ 2 := by
    simp only [fp2.mul_eq, fp2.sub_eq, toF_lit 2, toF_xi]
    push_cast
    ring
  have h3 : fp2.toF (fp2.mul (fp2.mul (6, 0) (fp2.mul t.x t.x)) (x, 0)) = 6 * fp2.toF t.x ^ 2 * algebraMap Fp Fp2 x := by
    simp only [fp2.mul_eq, toF_lit 6, toF_real x]
    push_cast
    ring
  rw [tangentE, E12.line_toF, h1, h2, h3]
  exact e

theorem chordE_same {t s : Tri (Nat × Nat)} {A B : G2} (h : Is fp2 t A) (h' : Is fp2 s B) (hB : B ≠ 0)
    (hz : s.z = (1, 0)) (x y : Nat) : Same (chordE x y t s).toF (chordAt x y A B) := by
  have h1 : fp2.toF s.z = 1 := by rw [hz]; exact fp2.one_eq
  have e := chord_same h h' (fun _ => h1) (fun e => absurd e hB) (x : Fp) (y : Fp)
  have h2 : fp2.toF (1, 1) = 1 + i := by rw [toF_xi 1, Nat.cast_one, one_mul]
  have h3 : fp2.toF (0, 0) = 0 := fp2.zero_eq
  simp only [chordE, E12.line_toF, fp2.mul_eq, fp2.sub_eq, toF_real x, toF_real y, h2, h3, zero_sub]
  exact e

theorem loopE_same {x y n : Nat} {s ns : Tri (Nat × Nat)} {Q : G2} (hs : Is fp2 s Q) (hns : Is fp2 ns (-Q)) (hQ : Q ≠ 0)
    (hz : s.z = (1, 0)) (hz' : ns.z = (1, 0)) : ∀ (i : Nat) (f : E12) (t : Tri (Nat × Nat)) (v : Fp12) (A : G2),
      Same f.toF v → Is fp2 t A → Same (loopE x y n s ns i f t).toF (signedLoop x y n Q i v A) := by
  intro i
  induction i with
  | zero => intro f t v A hf _; exact hf
  | succ i ih =>
    intro f t v A hf ht
    rw [loopE, signedLoop]
    have hf' := hf.sq.mul (tangentE_same ht x y)
    rw [pow_two, ← E12.mul_toF, ← E12.mul_toF] at hf'
    have ht' := dbl_is b2_is ht
    split
    · have h := hf'.mul (chordE_same ht' hs hQ hz x y)
      rw [← E12.mul_toF] at h
      exact ih _ _ _ _ h (add_is b2_is ht' hs)
    · split
      · have h := hf'.mul (chordE_same ht' hns (neg_ne_zero.2 hQ) hz' x y)
        rw [← E12.mul_toF] at h
        exact ih _ _ _ _ h (add_is b2_is ht' hns)
      · exact ih _ _ _ _ hf' ht'

/-- The Miller function of the generators. -/
def millE : E12 :=
  loopE g1x g1y xPar ⟨(g2xa, g2xb), (g2ya, g2yb), (1, 0)⟩ ⟨(g2xa, g2xb), (p - g2ya, p - g2yb), (1, 0)⟩
    ((3 * xPar).size - 2) E12.one ⟨(g2xa, g2xb), (g2ya, g2yb), (1, 0)⟩

/-- A coefficient of a power of the Miller function. -/
theorem nondeg_eval : (E12.pow millE 2050 ((p ^ 2 + 1) * hardExp)).c7 % p ≠ 0 := by
  decide +kernel

theorem ngen2_is : Is fp2 ⟨(g2xa, g2xb), (p - g2ya, p - g2yb), (1, 0)⟩ (-gen2) := by
  have h := Amcl.Proj.neg gen2_is
  have e : fp2.toF (p - g2ya, p - g2yb) = -fp2.toF (g2ya, g2yb) := by
    have h1 : g2ya ≤ p := by decide +kernel
    have h2 : g2yb ≤ p := by decide +kernel
    apply QuadraticAlgebra.ext
    · simp [fp2, fp, Nat.cast_sub h1]
    · simp [fp2, fp, Nat.cast_sub h2]
  rw [← e] at h
  exact h

/-- Elements fixed by `τ` have no odd coefficients. -/
theorem τ_fixed {a : E12} (h : τ a.toF = a.toF) : ((a.c7 : Nat) : Fp) = 0 := by
  have h2 : (2 : Fp12) ≠ 0 := by
    have := (map_ne_zero ι2).2 fp2_two_ne
    rwa [map_ofNat] at this
  have hW := W_ne
  simp only [E12.toF, map_add, map_mul, map_natCast, map_pow, τ_W] at h
  have e : ι4 ⟨(a.c1 : Fp2) + (a.c7 : Fp2) * (1 + i), 0⟩ + ι4 ⟨0, (a.c5 : Fp2) + (a.c11 : Fp2) * (1 + i)⟩ * W +
      ι4 ⟨(a.c3 : Fp2) + (a.c9 : Fp2) * (1 + i), 0⟩ * W ^ 2 = ι4 0 + ι4 0 * W + ι4 0 * W ^ 2 := by
    rw [map_zero, ι4_mk, ι4_mk, ι4_mk, map_zero]
    simp only [map_add, map_mul, map_natCast]
    rw [← map_add, ← W_six]
    apply mul_left_cancel₀ (mul_ne_zero h2 hW)
    linear_combination -h
  have h3 := congrArg QuadraticAlgebra.im (congrArg QuadraticAlgebra.re (Fp12_ext_iff.1 e).1)
  rw [← map_natCast (algebraMap Fp Fp2), ← map_natCast (algebraMap Fp Fp2)] at h3
  simpa [i, QuadraticAlgebra.re_one, QuadraticAlgebra.im_one] using h3

/-- The pairing of the generators is not 1. -/
theorem pairing_gen : pairing gen2 gen1 ≠ 1 := by
  intro h
  have hs : Same millE.toF (signedMiller g1x g1y gen2) :=
    loopE_same gen2_is ngen2_is gen2_ne rfl rfl _ _ _ _ _ (by rw [E12.one_toF]; exact Same.refl 1) gen2_is
  have h1 : pairing gen2 gen1 = signedMiller g1x g1y gen2 ^ finalExp := (signedMiller_eq g1_on r_gen2 gen2_ne).symm
  rw [h, ← hs.pow_eq, eq_comm] at h1
  have hG := E12.pow_toF millE 2050 ((p ^ 2 + 1) * hardExp) (by decide +kernel)
  have hn := nondeg_eval
  generalize E12.pow millE 2050 ((p ^ 2 + 1) * hardExp) = G at hG hn
  apply hn
  have hG1 : G.toF ^ (p ^ 6 - 1) = 1 := by
    rw [hG, ← pow_mul, mul_comm, ← mul_assoc, ← finalExp_eq]
    exact h1
  have hτ : τ G.toF = G.toF := by
    rw [τ_eq, show p ^ 6 = (p ^ 6 - 1) + 1 by decide +kernel, pow_succ, hG1, one_mul]
  have := τ_fixed hτ
  rwa [ZMod.natCast_eq_zero_iff, Nat.dvd_iff_mod_eq_zero] at this

end Spec.B383
