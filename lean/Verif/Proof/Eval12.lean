import Verif.Proof.Tower
import Verif.Proof.CurveEval
/-!
# Evaluating in `Fp12` by the kernel

Elements are given by the 12 coefficients of `1, W, …, W¹¹` over `Fp`, where `W¹² = 2 W⁶ - 2`.
-/

set_option exponentiation.threshold 6000

namespace Amcl

open Spec

namespace Eval

/-- Twelve coefficients. -/
structure E12 where
  c0 : Nat
  c1 : Nat
  c2 : Nat
  c3 : Nat
  c4 : Nat
  c5 : Nat
  c6 : Nat
  c7 : Nat
  c8 : Nat
  c9 : Nat
  c10 : Nat
  c11 : Nat

namespace E12

/-- The element with the given coefficients. -/
noncomputable def toF (a : E12) : Fp12 :=
  (a.c0 : Fp12) * W ^ 0 + (a.c1 : Fp12) * W ^ 1 + (a.c2 : Fp12) * W ^ 2 + (a.c3 : Fp12) * W ^ 3 + (a.c4 : Fp12) * W ^ 4 + (a.c5 : Fp12) * W ^ 5 + (a.c6 : Fp12) * W ^ 6 + (a.c7 : Fp12) * W ^ 7 + (a.c8 : Fp12) * W ^ 8 + (a.c9 : Fp12) * W ^ 9 + (a.c10 : Fp12) * W ^ 10 + (a.c11 : Fp12) * W ^ 11

/-- Reduction of a polynomial of degree at most 22. -/
def red (d0 d1 d2 d3 d4 d5 d6 d7 d8 d9 d10 d11 d12 d13 d14 d15 d16 d17 d18 d19 d20 d21 d22 : Nat) : E12 :=
  ⟨Nat.mod (Nat.add (Nat.add d0 (Nat.mul (Nat.sub p 2) d12)) (Nat.mul (Nat.sub p 4) d18)) p,
   Nat.mod (Nat.add (Nat.add d1 (Nat.mul (Nat.sub p 2) d13)) (Nat.mul (Nat.sub p 4) d19)) p,
   Nat.mod (Nat.add (Nat.add d2 (Nat.mul (Nat.sub p 2) d14)) (Nat.mul (Nat.sub p 4) d20)) p,
   Nat.mod (Nat.add (Nat.add d3 (Nat.mul (Nat.sub p 2) d15)) (Nat.mul (Nat.sub p 4) d21)) p,
   Nat.mod (Nat.add (Nat.add d4 (Nat.mul (Nat.sub p 2) d16)) (Nat.mul (Nat.sub p 4) d22)) p,
   Nat.mod (Nat.add d5 (Nat.mul (Nat.sub p 2) d17)) p,
   Nat.mod (Nat.add (Nat.add d6 (Nat.mul 2 d12)) (Nat.mul 2 d18)) p,
   Nat.mod (Nat.add (Nat.add d7 (Nat.mul 2 d13)) (Nat.mul 2 d19)) p,
   Nat.mod (Nat.add (Nat.add d8 (Nat.mul 2 d14)) (Nat.mul 2 d20)) p,
   Nat.mod (Nat.add (Nat.add d9 (Nat.mul 2 d15)) (Nat.mul 2 d21)) p,
   Nat.mod (Nat.add (Nat.add d10 (Nat.mul 2 d16)) (Nat.mul 2 d22)) p,
   Nat.mod (Nat.add d11 (Nat.mul 2 d17)) p⟩

/-- The product. -/
def mul (a b : E12) : E12 := red
  (Nat.mul a.c0 b.c0)
  (Nat.add (Nat.mul a.c0 b.c1) (Nat.mul a.c1 b.c0))
  (Nat.add (Nat.add (Nat.mul a.c0 b.c2) (Nat.mul a.c1 b.c1)) (Nat.mul a.c2 b.c0))
  (Nat.add (Nat.add (Nat.add (Nat.mul a.c0 b.c3) (Nat.mul a.c1 b.c2)) (Nat.mul a.c2 b.c1)) (Nat.mul a.c3 b.c0))
  (Nat.add (Nat.add (Nat.add (Nat.add (Nat.mul a.c0 b.c4) (Nat.mul a.c1 b.c3)) (Nat.mul a.c2 b.c2)) (Nat.mul a.c3 b.c1)) (Nat.mul a.c4 b.c0))
  (Nat.add (Nat.add (Nat.add (Nat.add (Nat.add (Nat.mul a.c0 b.c5) (Nat.mul a.c1 b.c4)) (Nat.mul a.c2 b.c3)) (Nat.mul a.c3 b.c2)) (Nat.mul a.c4 b.c1)) (Nat.mul a.c5 b.c0))
  (Nat.add (Nat.add (Nat.add (Nat.add (Nat.add (Nat.add (Nat.mul a.c0 b.c6) (Nat.mul a.c1 b.c5)) (Nat.mul a.c2 b.c4)) (Nat.mul a.c3 b.c3)) (Nat.mul a.c4 b.c2)) (Nat.mul a.c5 b.c1)) (Nat.mul a.c6 b.c0))
  (Nat.add (Nat.add (Nat.add (Nat.add (Nat.add (Nat.add (Nat.add (Nat.mul a.c0 b.c7) (Nat.mul a.c1 b.c6)) (Nat.mul a.c2 b.c5)) (Nat.mul a.c3 b.c4)) (Nat.mul a.c4 b.c3)) (Nat.mul a.c5 b.c2)) (Nat.mul a.c6 b.c1)) (Nat.mul a.c7 b.c0))
  (Nat.add (Nat.add (Nat.add (Nat.add (Nat.add (Nat.add (Nat.add (Nat.add (Nat.mul a.c0 b.c8) (Nat.mul a.c1 b.c7)) (Nat.mul a.c2 b.c6)) (Nat.mul a.c3 b.c5)) (Nat.mul a.c4 b.c4)) (Nat.mul a.c5 b.c3)) (Nat.mul a.c6 b.c2)) (Nat.mul a.c7 b.c1)) (Nat.mul a.c8 b.c0))
  (Nat.add (Nat.add (Nat.add (Nat.add (Nat.add (Nat.add (Nat.add (Nat.add (Nat.add (Nat.mul a.c0 b.c9) (Nat.mul a.c1 b.c8)) (Nat.mul a.c2 b.c7)) (Nat.mul a.c3 b.c6)) (Nat.mul a.c4 b.c5)) (Nat.mul a.c5 b.c4)) (Nat.mul a.c6 b.c3)) (Nat.mul a.c7 b.c2)) (Nat.mul a.c8 b.c1)) (Nat.mul a.c9 b.c0))
  (Nat.add (Nat.add (Nat.add (Nat.add (Nat.add (Nat.add (Nat.add (Nat.add (Nat.add (Nat.add (Nat.mul a.c0 b.c10) (Nat.mul a.c1 b.c9)) (Nat.mul a.c2 b.c8)) (Nat.mul a.c3 b.c7)) (Nat.mul a.c4 b.c6)) (Nat.mul a.c5 b.c5)) (Nat.mul a.c6 b.c4)) (Nat.mul a.c7 b.c3)) (Nat.mul a.c8 b.c2)) (Nat.mul a.c9 b.c1)) (Nat.mul a.c10 b.c0))
  (Nat.add (Nat.add (Nat.add (Nat.add (Nat.add (Nat.add (Nat.add (Nat.add (Nat.add (Nat.add (Nat.add (Nat.mul a.c0 b.c11) (Nat.mul a.c1 b.c10)) (Nat.mul a.c2 b.c9)) (Nat.mul a.c3 b.c8)) (Nat.mul a.c4 b.c7)) (Nat.mul a.c5 b.c6)) (Nat.mul a.c6 b.c5)) (Nat.mul a.c7 b.c4)) (Nat.mul a.c8 b.c3)) (Nat.mul a.c9 b.c2)) (Nat.mul a.c10 b.c1)) (Nat.mul a.c11 b.c0))
  (Nat.add (Nat.add (Nat.add (Nat.add (Nat.add (Nat.add (Nat.add (Nat.add (Nat.add (Nat.add (Nat.mul a.c1 b.c11) (Nat.mul a.c2 b.c10)) (Nat.mul a.c3 b.c9)) (Nat.mul a.c4 b.c8)) (Nat.mul a.c5 b.c7)) (Nat.mul a.c6 b.c6)) (Nat.mul a.c7 b.c5)) (Nat.mul a.c8 b.c4)) (Nat.mul a.c9 b.c3)) (Nat.mul a.c10 b.c2)) (Nat.mul a.c11 b.c1))
  (Nat.add (Nat.add (Nat.add (Nat.add (Nat.add (Nat.add (Nat.add (Nat.add (Nat.add (Nat.mul a.c2 b.c11) (Nat.mul a.c3 b.c10)) (Nat.mul a.c4 b.c9)) (Nat.mul a.c5 b.c8)) (Nat.mul a.c6 b.c7)) (Nat.mul a.c7 b.c6)) (Nat.mul a.c8 b.c5)) (Nat.mul a.c9 b.c4)) (Nat.mul a.c10 b.c3)) (Nat.mul a.c11 b.c2))
  (Nat.add (Nat.add (Nat.add (Nat.add (Nat.add (Nat.add (Nat.add (Nat.add (Nat.mul a.c3 b.c11) (Nat.mul a.c4 b.c10)) (Nat.mul a.c5 b.c9)) (Nat.mul a.c6 b.c8)) (Nat.mul a.c7 b.c7)) (Nat.mul a.c8 b.c6)) (Nat.mul a.c9 b.c5)) (Nat.mul a.c10 b.c4)) (Nat.mul a.c11 b.c3))
  (Nat.add (Nat.add (Nat.add (Nat.add (Nat.add (Nat.add (Nat.add (Nat.mul a.c4 b.c11) (Nat.mul a.c5 b.c10)) (Nat.mul a.c6 b.c9)) (Nat.mul a.c7 b.c8)) (Nat.mul a.c8 b.c7)) (Nat.mul a.c9 b.c6)) (Nat.mul a.c10 b.c5)) (Nat.mul a.c11 b.c4))
  (Nat.add (Nat.add (Nat.add (Nat.add (Nat.add (Nat.add (Nat.mul a.c5 b.c11) (Nat.mul a.c6 b.c10)) (Nat.mul a.c7 b.c9)) (Nat.mul a.c8 b.c8)) (Nat.mul a.c9 b.c7)) (Nat.mul a.c10 b.c6)) (Nat.mul a.c11 b.c5))
  (Nat.add (Nat.add (Nat.add (Nat.add (Nat.add (Nat.mul a.c6 b.c11) (Nat.mul a.c7 b.c10)) (Nat.mul a.c8 b.c9)) (Nat.mul a.c9 b.c8)) (Nat.mul a.c10 b.c7)) (Nat.mul a.c11 b.c6))
  (Nat.add (Nat.add (Nat.add (Nat.add (Nat.mul a.c7 b.c11) (Nat.mul a.c8 b.c10)) (Nat.mul a.c9 b.c9)) (Nat.mul a.c10 b.c8)) (Nat.mul a.c11 b.c7))
  (Nat.add (Nat.add (Nat.add (Nat.mul a.c8 b.c11) (Nat.mul a.c9 b.c10)) (Nat.mul a.c10 b.c9)) (Nat.mul a.c11 b.c8))
  (Nat.add (Nat.add (Nat.mul a.c9 b.c11) (Nat.mul a.c10 b.c10)) (Nat.mul a.c11 b.c9))
  (Nat.add (Nat.mul a.c10 b.c11) (Nat.mul a.c11 b.c10))
  (Nat.mul a.c11 b.c11)


theorem W_twelve : W ^ 12 = 2 * W ^ 6 - 2 := by
  have h : (1 + i) ^ 2 = 2 * (1 + i) - 2 := by
    linear_combination i_sq
  rw [show W ^ 12 = (W ^ 6) ^ 2 by ring, W_six, ← map_pow, h]
  simp only [map_sub, map_mul, map_ofNat]

theorem cast_mod (n : Nat) : ((Nat.mod n p : Nat) : Fp12) = n := CharP.cast_eq_mod Fp12 p n |>.symm

theorem cast_sub {k : Nat} (h : k ≤ p) : ((Nat.sub p k : Nat) : Fp12) = -k := by
  rw [show Nat.sub p k = p - k from rfl, Nat.cast_sub h, CharP.cast_eq_zero, zero_sub]

theorem red_eq (d0 d1 d2 d3 d4 d5 d6 d7 d8 d9 d10 d11 d12 d13 d14 d15 d16 d17 d18 d19 d20 d21 d22 : Nat) : (red d0 d1 d2 d3 d4 d5 d6 d7 d8 d9 d10 d11 d12 d13 d14 d15 d16 d17 d18 d19 d20 d21 d22).toF =
    (d0 : Fp12) * W ^ 0 + (d1 : Fp12) * W ^ 1 + (d2 : Fp12) * W ^ 2 + (d3 : Fp12) * W ^ 3 + (d4 : Fp12) * W ^ 4 + (d5 : Fp12) * W ^ 5 + (d6 : Fp12) * W ^ 6 + (d7 : Fp12) * W ^ 7 + (d8 : Fp12) * W ^ 8 + (d9 : Fp12) * W ^ 9 + (d10 : Fp12) * W ^ 10 + (d11 : Fp12) * W ^ 11 + (d12 : Fp12) * W ^ 12 + (d13 : Fp12) * W ^ 13 + (d14 : Fp12) * W ^ 14 + (d15 : Fp12) * W ^ 15 + (d16 : Fp12) * W ^ 16 + (d17 : Fp12) * W ^ 17 + (d18 : Fp12) * W ^ 18 + (d19 : Fp12) * W ^ 19 + (d20 : Fp12) * W ^ 20 + (d21 : Fp12) * W ^ 21 + (d22 : Fp12) * W ^ 22 := by
  have h := W_twelve
  have h2 : ((Nat.sub p 2 : Nat) : Fp12) = -2 := by rw [cast_sub (by decide +kernel)]; norm_num
  have h4 : ((Nat.sub p 4 : Nat) : Fp12) = -4 := by rw [cast_sub (by decide +kernel)]; norm_num
  simp only [red, toF, cast_mod]
  simp only [Nat.add_eq, Nat.mul_eq, Nat.cast_add, Nat.cast_mul, h2, h4, Nat.cast_ofNat]
  linear_combination -((d12 : Fp12) * W ^ 0 + (d13 : Fp12) * W ^ 1 + (d14 : Fp12) * W ^ 2 + (d15 : Fp12) * W ^ 3 + (d16 : Fp12) * W ^ 4 + (d17 : Fp12) * W ^ 5 + (d18 : Fp12) * W ^ 6 + 2 * (d18 : Fp12) * W ^ 0 + (d19 : Fp12) * W ^ 7 + 2 * (d19 : Fp12) * W ^ 1 + (d20 : Fp12) * W ^ 8 + 2 * (d20 : Fp12) * W ^ 2 + (d21 : Fp12) * W ^ 9 + 2 * (d21 : Fp12) * W ^ 3 + (d22 : Fp12) * W ^ 10 + 2 * (d22 : Fp12) * W ^ 4) * h

theorem mul_toF (a b : E12) : (mul a b).toF = a.toF * b.toF := by
  rw [mul, red_eq]
  simp only [Nat.add_eq, Nat.mul_eq, Nat.cast_add, Nat.cast_mul, toF]
  ring

/-- One. -/
def one : E12 := ⟨1, 0, 0, 0, 0, 0, 0, 0, 0, 0, 0, 0⟩

/-- `a ^ n` for `n < 2 ^ fuel`. -/
def pow (a : E12) : Nat → Nat → E12
  | 0, _ => one
  | f + 1, n =>
    match n % 2 with
    | 0 => let s := pow a f (n / 2); mul s s
    | _ => let s := pow a f (n / 2); mul (mul s s) a

theorem one_toF : one.toF = 1 := by simp [one, toF]

theorem pow_toF (a : E12) (f : Nat) : ∀ n, n < 2 ^ f → (pow a f n).toF = a.toF ^ n := by
  induction f with
  | zero =>
    intro n hn
    have : n = 0 := by simpa using hn
    subst this
    rw [pow_zero]; exact one_toF
  | succ f ih =>
    intro n hn
    have h2 := ih (n / 2) (by rw [pow_succ] at hn; omega)
    unfold pow
    rcases Nat.mod_two_eq_zero_or_one n with he | he
    · rw [he]
      change (mul (pow a f (n / 2)) (pow a f (n / 2))).toF = _
      rw [mul_toF, h2, ← pow_add]
      congr 1
      omega
    · rw [he]
      change (mul (mul (pow a f (n / 2)) (pow a f (n / 2))) a).toF = _
      rw [mul_toF, mul_toF, h2, ← pow_add, ← pow_succ]
      congr 1
      omega

/-- The value `u + v W³ + w W⁵` of a line. -/
def line (u v w : Nat × Nat) : E12 :=
  ⟨fp.sub u.1 u.2, 0, 0, fp.sub v.1 v.2, 0, fp.sub w.1 w.2, u.2, 0, 0, v.2, 0, w.2⟩

theorem ι2_eq (u : Nat × Nat) : ι2 (fp2.toF u) = (fp.sub u.1 u.2 : Nat) + (u.2 : Nat) * W ^ 6 := by
  have h : fp2.toF u = algebraMap Fp Fp2 (fp.sub u.1 u.2 : Nat) + algebraMap Fp Fp2 (u.2 : Nat) * (1 + i) := by
    have := fp.sub_eq u.1 u.2
    change ((fp.sub u.1 u.2 : Nat) : Fp) = (u.1 : Fp) - (u.2 : Fp) at this
    rw [this]
    apply QuadraticAlgebra.ext
    · simp [fp2, fp, i, QuadraticAlgebra.re_one, QuadraticAlgebra.im_one]
    · simp [fp2, fp, i, QuadraticAlgebra.re_one, QuadraticAlgebra.im_one]
  rw [h, W_six]
  simp only [map_add, map_mul, map_natCast]

theorem line_toF (u v w : Nat × Nat) :
    (line u v w).toF = ι2 (fp2.toF u) + ι2 (fp2.toF v) * W ^ 3 + ι2 (fp2.toF w) * W ^ 5 := by
  rw [ι2_eq, ι2_eq, ι2_eq]
  simp only [line, toF, Nat.cast_zero]
  ring

end E12

end Eval

end Amcl
