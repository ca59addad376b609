import Verif.Spec.Secp.Groups
/-!
# Specification: mapping a field element to the curve of secp256k1 by trial and increment
-/

namespace Spec.Secp

/-- `g` is the image of `x`: the point over the first abscissa among `x, x+1, x+2, …` that is one of a point of the curve, with
the even ordinate. -/
def MapsTo (x : Fp) (g : G1) : Prop :=
  ∃ (k : Nat) (y : Fp) (h : y ^ 2 = (x + k) ^ 3 + b1),
    (∀ j < k, ¬ IsSquare ((x + j) ^ 3 + b1)) ∧ y.val % 2 = 0 ∧ g = Spec.Pt.mk _ _ h

end Spec.Secp
