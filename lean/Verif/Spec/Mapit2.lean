import Verif.Spec.HashToCurve
/-!
# Specification: the uncompressed string of a point of the twist, and AMCL's map from strings to the twist
-/

set_option exponentiation.threshold 2000

namespace Spec

/-- The four coordinates, big-endian on 48 bytes each. -/
def octets2 (x y : Fp2) : List UInt8 := toBE 48 x.re.val ++ toBE 48 x.im.val ++ toBE 48 y.re.val ++ toBE 48 y.im.val

/-- The element of the quadratic extension that two successive blocks of 48 bytes stand for, modulo `p`. -/
def block2 (b : List UInt8) (k : Nat) : Fp2 :=
  ⟨(beNat ((b.drop k).take 48) : Fp), (beNat ((b.drop (k + 48)).take 48) : Fp)⟩

/-- `g'` is the image of `g` under the Frobenius map of the untwisted curve: conjugate the coordinates, divide by
the square and the cube of `(1+i)^((p-1)/6)`. -/
def TwistFrob (g g' : G2) : Prop :=
  (g = 0 ∧ g' = 0) ∨ ∃ x y h h', g = Pt.mk x y h ∧
    g' = Pt.mk (star x / ((1 + i) ^ ((p - 1) / 6)) ^ 2) (star y / ((1 + i) ^ ((p - 1) / 6)) ^ 3) h'

/-- `g` is the image of `x` under AMCL's map: the point over the first usable abscissa among `1 + xi`,
`1 + (x+1)i`, …, whose ordinate has a square as real part, multiplied by `(u²-u-1) + (u-1)ψ + 2ψ²` where `u` is
the (negative) parameter of the curve and `ψ` the map `TwistFrob`. -/
def MapsTo2 (u : Int) (x : Fp) (g : G2) : Prop :=
  ∃ (k : Nat) (y : Fp2) (h : y ^ 2 = (⟨1, x + k⟩ : Fp2) ^ 3 + b2) (g₁ g₂ g₃ : G2),
    (∀ j < k, ¬ Usable ⟨1, x + (j : Nat)⟩) ∧ y.re ≠ 0 ∧ IsSquare y.re ∧
    TwistFrob ((u - 1) • Pt.mk _ _ h) g₁ ∧ TwistFrob ((2 : Int) • Pt.mk _ _ h) g₂ ∧ TwistFrob g₂ g₃ ∧
    g = (u ^ 2 - u - 1) • Pt.mk _ _ h + g₁ + g₃

end Spec
