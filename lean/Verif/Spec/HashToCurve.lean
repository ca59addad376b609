import Verif.Spec.Groups
import Verif.Spec.Bytes
/-!
# Specification: mapping a field element to the twist by trial and increment

The published cofactor of the second group, the abscissae the library can use, the chosen ordinate and
the resulting point. Nothing here mentions the model.
-/

set_option exponentiation.threshold 2000

namespace Spec

/-- The published cofactor of the second group. -/
def h2 : Nat :=
  0x5d543a95414e7f1091d50792876a202cd91de4547085abaa68a205b2e5a7ddfa628f1cb4d9e82ef21537e293a6691ae1616ec6e786f0c70cf1c38e31c7238e5

/-- The abscissae that are used: those for which `x³ + 4(1+i)` has a square root that is not purely
imaginary. -/
def Usable (x : Fp2) : Prop := ∃ y : Fp2, y ^ 2 = x ^ 3 + b2 ∧ y.re ≠ 0

/-- The ordinate that is chosen among `y` and `-y`: the one with the larger imaginary part; if the
imaginary part is 0, the one that is not a square in the base field. -/
def Larger (y : Fp2) : Prop :=
  (y.im ≠ 0 ∧ (-y.im).val < y.im.val) ∨ (y.im = 0 ∧ ¬ IsSquare y.re)

/-- `g` is the image of `x`: the point over the first usable abscissa among `x, x+1, x+2, …`, with the
larger ordinate, multiplied by the cofactor. -/
def MapsTo (x : Fp2) (g : G2) : Prop :=
  ∃ (k : Nat) (y : Fp2) (h : y ^ 2 = (x + k) ^ 3 + b2),
    (∀ j < k, ¬ Usable (x + j)) ∧ Usable (x + k) ∧ Larger y ∧ g = h2 • Pt.mk _ _ h

/-- The bytes that are hashed: message, domain as 8 big-endian bytes, one byte for the part. -/
def hashInput (msg : List UInt8) (d : Nat) (part : UInt8) : List UInt8 := msg ++ toBE 8 d ++ [part]

/-- The abscissa at which the search for the message point starts: the two hashes as big-endian numbers. -/
def hashX (H : List UInt8 → List UInt8) (msg : List UInt8) (d : Nat) : Fp2 :=
  ⟨(beNat (H (hashInput msg d 1)) : Fp), (beNat (H (hashInput msg d 2)) : Fp)⟩

end Spec
