import Mathlib.Algebra.Group.Hom.Basic
import Mathlib.Algebra.Group.Nat.Hom
import Mathlib.Tactic.Abel
import Mathlib.Tactic.Group
/-!
# Symmetric cocycles and their Miller products

For a symmetric 2-cocycle `u` with values in a commutative group, `mill u Q n` is the product of
`u (k • Q) Q` for `k < n`: the second component of the `n`-th power of `(Q, 1)` in the extension
defined by `u`.
-/

namespace Spec

variable {G M : Type} [AddCommGroup G] [CommGroup M]

/-- A normalised symmetric 2-cocycle that is trivial on opposite points. -/
structure Cocycle (u : G → G → M) : Prop where
  comm : ∀ A B, u A B = u B A
  coc : ∀ A B C, u A B * u (A + B) C = u B C * u A (B + C)
  zero : ∀ A, u 0 A = 1
  neg : ∀ A, u A (-A) = 1

/-- The Miller product. -/
def mill (u : G → G → M) (Q : G) : Nat → M
  | 0 => 1
  | n + 1 => mill u Q n * u (n • Q) Q

namespace Cocycle

variable {u : G → G → M} (h : Cocycle u)

include h

theorem mill_one (Q : G) : mill u Q 1 = 1 := by simp [mill, h.zero]

theorem mill_add (Q : G) (m n : Nat) :
    mill u Q (m + n) = mill u Q m * mill u Q n * u (m • Q) (n • Q) := by
  induction n with
  | zero => simp [mill, h.comm _ 0, h.zero]
  | succ n ih =>
    rw [← add_assoc, mill, ih, mill]
    have := h.coc (m • Q) (n • Q) Q
    rw [← add_nsmul, ← succ_nsmul] at this
    rw [mul_assoc (_ * _), this]
    simp only [mul_assoc]

theorem mill_dbl (Q : G) (n : Nat) : mill u Q (2 * n) = mill u Q n ^ 2 * u (n • Q) (n • Q) := by
  rw [two_mul, h.mill_add, sq]

theorem mill_pred (Q : G) (n : Nat) : mill u Q n = mill u Q (n + 1) * u ((n + 1) • Q) (-Q) := by
  have := h.coc ((n + 1) • Q) (-Q) Q
  rw [succ_nsmul, add_neg_cancel_right, neg_add_cancel, h.comm _ 0, h.zero, h.comm (-Q), h.neg, mul_one] at this
  rw [mill, succ_nsmul, mul_assoc, mul_comm (u (n • Q) Q), this, mul_one]

theorem four (a b c d : G) : u a b * u c d * u (a + b) (c + d) = u a c * u b d * u (a + c) (b + d) := by
  have h1 := h.coc (a + b) c d
  have h2 := h.coc a b c
  have h3 := h.coc (a + c) b d
  have h4 := h.coc a c b
  have h5 := h.comm b c
  have e1 : a + b + c = a + c + b := by abel
  rw [add_comm c b] at h4
  calc u a b * u c d * u (a + b) (c + d) = u a b * (u c d * u (a + b) (c + d)) := by rw [mul_assoc]
    _ = u a b * u (a + b) c * u (a + c + b) d := by rw [← h1, e1, mul_assoc]
    _ = u a c * u (a + c) b * u (a + c + b) d := by rw [h2, h4, h5]
    _ = u a c * (u b d * u (a + c) (b + d)) := by rw [mul_assoc, h3]
    _ = _ := by rw [mul_assoc]

theorem neg_neg (A B : G) : u (-A) (-B) = (u A B)⁻¹ := by
  have := h.four A B (-A) (-B)
  rw [add_neg_cancel, add_neg_cancel, ← neg_add, h.neg, h.neg, h.neg, h.zero, mul_one, mul_one, mul_one] at this
  exact eq_inv_of_mul_eq_one_right this

theorem mill_sum (P Q : G) (n : Nat) :
    mill u (P + Q) n * u P Q ^ n = mill u P n * mill u Q n * u (n • P) (n • Q) := by
  induction n with
  | zero => simp [mill, h.zero]
  | succ n ih =>
    have := h.four (n • P) (n • Q) P Q
    rw [mill, mill, mill, pow_succ, nsmul_add, succ_nsmul, succ_nsmul]
    calc mill u (P + Q) n * u (n • P + n • Q) (P + Q) * (u P Q ^ n * u P Q)
        = (mill u (P + Q) n * u P Q ^ n) * (u P Q * u (n • P + n • Q) (P + Q)) := by
          simp only [mul_assoc, mul_left_comm, mul_comm]
      _ = mill u P n * mill u Q n * (u (n • P) (n • Q) * u P Q * u (n • P + n • Q) (P + Q)) := by
          rw [ih]; simp only [mul_assoc]
      _ = _ := by rw [this]; simp only [mul_assoc, mul_left_comm, mul_comm]

/-- Miller products are additive in the point when multiplication by `n` is minus a map `π` with
`u (π A) (π B) = u A B ^ p` and `n + p` kills the values. -/
theorem mill_bilinear {π : G → G} {n p : Nat} {P Q : G} (hP : n • P = -π P) (hQ : n • Q = -π Q)
    (hπ : u (π P) (π Q) = u P Q ^ p) (hk : u P Q ^ (n + p) = 1) :
    mill u (P + Q) n = mill u P n * mill u Q n := by
  have := h.mill_sum P Q n
  rw [hP, hQ, h.neg_neg, hπ, eq_mul_inv_iff_mul_eq, mul_assoc, ← pow_add, hk, mul_one] at this
  exact this

end Cocycle

end Spec
