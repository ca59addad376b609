import Verif.Spec.B383.Groups
/-!
# Specification: mapping a field element to the first curve by trial and increment
-/

namespace Spec.B383

/-- The abscissae that are used for the cofactor `c`: those of a point that the cofactor does not take to
infinity. -/
def Usable1 (c : Nat) (x : Fp) : Prop := ∃ (y : Fp) (h : y ^ 2 = x ^ 3 + b1), c • Pt.mk x y h ≠ 0

/-- `g` is the image of `x`: the point over the first usable abscissa among `x, x+1, x+2, …`, with the even
ordinate, multiplied by the cofactor. -/
def MapsTo1 (c : Nat) (x : Fp) (g : G1) : Prop :=
  ∃ (k : Nat) (y : Fp) (h : y ^ 2 = (x + k) ^ 3 + b1),
    (∀ j < k, ¬ Usable1 c (x + j)) ∧ y.val % 2 = 0 ∧ g = c • Pt.mk _ _ h ∧ g ≠ 0

end Spec.B383
