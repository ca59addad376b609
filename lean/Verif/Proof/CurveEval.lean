import Verif.Proof.Rcb
import Verif.Spec.Groups
/-!
# Evaluating scalar multiples of concrete points in the kernel

Coordinates are natural numbers modulo `p` (pairs of them over `Fp2`). A verified double-and-add gives
projective coordinates of `n • P`; closed instances are evaluated by the kernel.
-/

set_option exponentiation.threshold 2000

namespace Amcl

open Spec

namespace Eval

/-- A computable copy `C` of (part of) a ring `F`. -/
structure Alg (C F : Type) [Field F] where
  toF : C → F
  add : C → C → C
  sub : C → C → C
  mul : C → C → C
  zero : C
  one : C
  isZero : C → Bool
  add_eq : ∀ a b, toF (add a b) = toF a + toF b
  sub_eq : ∀ a b, toF (sub a b) = toF a - toF b
  mul_eq : ∀ a b, toF (mul a b) = toF a * toF b
  zero_eq : toF zero = 0
  one_eq : toF one = 1
  isZero_eq : ∀ a, isZero a = true ↔ toF a = 0

variable {C F : Type} [Field F] [DecidableEq F]

/-- Projective coordinates. -/
structure Tri (C : Type) where
  x : C
  y : C
  z : C

/-- Doubling; `b3` is `3b`. -/
def dbl (A : Alg C F) (b3 : C) (t : Tri C) : Tri C :=
  let yy := A.mul t.y t.y
  let zz := A.mul b3 (A.mul t.z t.z)
  let z3 := A.add zz (A.add zz zz)
  let d := A.sub yy z3
  let xy := A.mul t.x t.y
  let y8 := A.add yy yy
  let y8 := A.add y8 y8
  let y8 := A.add y8 y8
  ⟨A.mul (A.add d d) xy, A.add (A.mul (A.add yy zz) d) (A.mul y8 zz), A.mul y8 (A.mul t.y t.z)⟩

/-- Addition; `b3` is `3b`. -/
def add (A : Alg C F) (b3 : C) (s t : Tri C) : Tri C :=
  let yy := A.mul s.y t.y
  let zz := A.mul b3 (A.mul s.z t.z)
  let xx := A.mul s.x t.x
  let xx3 := A.add xx (A.add xx xx)
  let xy := A.add (A.mul s.x t.y) (A.mul t.x s.y)
  let yz := A.add (A.mul s.y t.z) (A.mul t.y s.z)
  let xz := A.mul b3 (A.add (A.mul s.x t.z) (A.mul t.x s.z))
  let u := A.sub yy zz
  let v := A.add yy zz
  ⟨A.sub (A.mul xy u) (A.mul yz xz), A.add (A.mul v u) (A.mul xx3 xz), A.add (A.mul yz v) (A.mul xx3 xy)⟩

/-- `n • P` for `n < 2 ^ fuel`. -/
def smul (A : Alg C F) (b3 : C) (P : Tri C) : Nat → Nat → Tri C
  | 0, _ => ⟨A.zero, A.one, A.zero⟩
  | f + 1, n =>
    match n % 2 with
    | 0 => dbl A b3 (smul A b3 P f (n / 2))
    | _ => add A b3 (dbl A b3 (smul A b3 P f (n / 2))) P

/-- `t` are projective coordinates of `P`. -/
def Is {b : F} [GoodB b] (A : Alg C F) (t : Tri C) (P : Pt b) : Prop := Proj (A.toF t.x) (A.toF t.y) (A.toF t.z) P

variable {b : F} [g : GoodB b] {A : Alg C F} {b3 : C}

theorem dbl_is (hb : A.toF b3 = 3 * b) {t : Tri C} {P : Pt b} (h : Is A t P) : Is A (dbl A b3 t) (P + P) := by
  refine Proj.congr (Proj.dbl h) ?_ ?_ ?_ rfl <;>
  simp only [dbl, A.add_eq, A.sub_eq, A.mul_eq, hb] <;> ring

theorem add_is (hb : A.toF b3 = 3 * b) {s t : Tri C} {P Q : Pt b} (h : Is A s P) (h' : Is A t Q) :
    Is A (add A b3 s t) (P + Q) := by
  refine Proj.congr (Proj.add h h') ?_ ?_ ?_ rfl <;>
  simp only [add, A.add_eq, A.sub_eq, A.mul_eq, hb] <;> ring

theorem smul_is (hb : A.toF b3 = 3 * b) {t : Tri C} {P : Pt b} (h : Is A t P) (f : Nat) :
    ∀ n, n < 2 ^ f → Is A (smul A b3 t f n) (n • P) := by
  induction f with
  | zero =>
    intro n hn
    have : n = 0 := by simpa using hn
    subst this
    rw [zero_smul]
    show Proj (A.toF A.zero) (A.toF A.one) (A.toF A.zero) _
    rw [A.zero_eq, A.one_eq]
    exact Proj.zero one_ne_zero
  | succ f ih =>
    intro n hn
    have h2 := ih (n / 2) (by rw [pow_succ] at hn; omega)
    have hd := dbl_is hb h2
    rw [← two_nsmul, ← mul_smul] at hd
    unfold smul
    rcases Nat.mod_two_eq_zero_or_one n with he | he
    · rw [he]
      rw [show 2 * (n / 2) = n by omega] at hd
      exact hd
    · rw [he]
      have := add_is hb hd h
      rw [← succ_nsmul, show 2 * (n / 2) + 1 = n by omega] at this
      exact this

theorem smul_zero_iff (hb : A.toF b3 = 3 * b) {t : Tri C} {P : Pt b} (h : Is A t P) {f n : Nat}
    (hn : n < 2 ^ f) :
    (A.isZero (smul A b3 t f n).x && A.isZero (smul A b3 t f n).z) = true ↔ n • P = 0 := by
  rw [Bool.and_eq_true, A.isZero_eq, A.isZero_eq, ← (smul_is hb h f n hn).inf_iff]

/-- Numbers modulo `p`. -/
def fp : Alg Nat Fp where
  toF n := (n : Fp)
  add a b := (a + b) % p
  sub a b := (a + (p - b % p)) % p
  mul a b := a * b % p
  zero := 0
  one := 1
  isZero a := a % p == 0
  add_eq a b := by simp
  sub_eq a b := by
    have hb : b % p ≤ p := (Nat.mod_lt _ prime_p.pos).le
    simp [Nat.cast_sub hb, sub_eq_add_neg]
  mul_eq a b := by simp
  zero_eq := by simp
  one_eq := by simp
  isZero_eq a := by rw [beq_iff_eq, ZMod.natCast_eq_zero_iff, Nat.dvd_iff_mod_eq_zero]

/-- Pairs of numbers modulo `p`. -/
def fp2 : Alg (Nat × Nat) Fp2 where
  toF a := ⟨fp.toF a.1, fp.toF a.2⟩
  add a b := (fp.add a.1 b.1, fp.add a.2 b.2)
  sub a b := (fp.sub a.1 b.1, fp.sub a.2 b.2)
  mul a b := (fp.sub (fp.mul a.1 b.1) (fp.mul a.2 b.2), fp.add (fp.mul a.1 b.2) (fp.mul a.2 b.1))
  zero := (0, 0)
  one := (1, 0)
  isZero a := fp.isZero a.1 && fp.isZero a.2
  add_eq a b := by ext <;> simp [fp.add_eq]
  sub_eq a b := by ext <;> simp [fp.sub_eq]
  mul_eq a b := by ext <;> simp [fp.add_eq, fp.sub_eq, fp.mul_eq]; ring
  zero_eq := by ext <;> simp [fp]
  one_eq := by ext <;> simp [fp, QuadraticAlgebra.re_one, QuadraticAlgebra.im_one]
  isZero_eq a := by
    rw [Bool.and_eq_true, fp.isZero_eq, fp.isZero_eq, QuadraticAlgebra.ext_iff]
    rfl

end Eval

end Amcl
