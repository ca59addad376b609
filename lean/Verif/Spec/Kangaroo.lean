import Verif.Spec.Octets12
/-!
# Specification: the search for a small discrete logarithm by two kangaroos

A kangaroo stands at an element `x` of the extension of degree 12 and has travelled a distance `d`. It jumps by
`2^i`, where `i < 10` depends on `x` only: it goes to `x f^(2^i)`.
-/

namespace Spec

/-- `i` is an index of the jump at `x`: the last 20 bits of the first coordinate, modulo 10. A first coordinate 0 can
also be read as `p`. -/
def JumpAt (x : Fp12) (i : Nat) : Prop :=
  ∃ a b c : Fp4, x = ι4 a + ι4 b * W + ι4 c * W ^ 2 ∧
    (i = a.re.re.val % 2 ^ 20 % 10 ∨ (a.re.re = 0 ∧ i = p % 2 ^ 20 % 10))

/-- A jump. -/
def Jump (f : Fp12) (s s' : Fp12 × Nat) : Prop := ∃ i, JumpAt s.1 i ∧ s' = (s.1 * f ^ (2 ^ i), s.2 + 2 ^ i)

/-- `w` is a path of `n` jumps that starts at `x`. -/
def Path (f x : Fp12) (n : Nat) (w : Nat → Fp12 × Nat) : Prop := w 0 = (x, 0) ∧ ∀ k < n, Jump f (w k) (w (k + 1))

/-- The wild kangaroo, starting from `x`, meets the tame one or its inverse after `k` jumps, and not before. The trap
is `t`. -/
def Meets (t : Fp12) (w : Nat → Fp12 × Nat) (k : Nat) : Prop :=
  1 ≤ k ∧ ((w k).1 = t ∨ (w k).1 = t⁻¹) ∧ ∀ j, 1 ≤ j → j < k → (w j).1 ≠ t ∧ (w j).1 ≠ t⁻¹

/-- The outcome `n` of the search: the tame kangaroo starts from 1 and sets the trap after 200 jumps, at distance
`D`. The wild kangaroo starts from `x` and has 800 jumps. -/
def Kangaroo (x f : Fp12) (n : Int) : Prop :=
  ∃ tame wild : Nat → Fp12 × Nat, Path f 1 200 tame ∧ Path f x 800 wild ∧
    ((∃ k ≤ 800, Meets (tame 200).1 wild k ∧ ((wild k).2 : Int) - (tame 200).2 < 10000 ∧
        n = if (wild k).1 = (tame 200).1 then ((wild k).2 : Int) - (tame 200).2 else ((tame 200).2 : Int) - (wild k).2) ∨
     ((¬ ∃ k ≤ 800, Meets (tame 200).1 wild k ∧ ((wild k).2 : Int) - (tame 200).2 < 10000) ∧ n = 0))

end Spec
