import Verif.Spec.Pairing
/-!
# Specification: Miller's algorithm with signed digits

The pairing is defined in `Verif.Spec.Pairing` by the linear recursion. Here is the double-and-add
algorithm, for any point of the twist and any pair `(x, y)` of field elements, whether or not it is
a point. It uses the chord formula for additions, so it fails where an addition meets a tangent.
-/

namespace Spec

/-- The value at `(x, y)` of the chord through `A` and `B`. The chord formula gives the function 0
when `A = B`. At infinity it gives `x`, up to a constant factor. -/
noncomputable def chordAt (x y : Fp) (A B : G2) : Fp12 :=
  if A = B then (if A = 0 then ι1 x else 0) else lineAt x y A B

/-- The digit of `n` at position `j - 1` in the recoding `(3n - n) / 2`; it is -1, 0 or 1. -/
def digit (n j : Nat) : Int := (3 * n / 2 ^ j % 2 : Nat) - (n / 2 ^ j % 2 : Nat)

/-- The digits at positions `i, …, 1` of Miller's algorithm. -/
noncomputable def signedLoop (x y : Fp) (n : Nat) (Q : G2) : Nat → Fp12 → G2 → Fp12
  | 0, f, _ => f
  | i + 1, f, A =>
    let f := f ^ 2 * lineAt x y A A
    let A := A + A
    if digit n (i + 1) = 1 then signedLoop x y n Q i (f * chordAt x y A Q) (A + Q)
    else if digit n (i + 1) = -1 then signedLoop x y n Q i (f * chordAt x y A (-Q)) (A + -Q)
    else signedLoop x y n Q i f A

/-- Miller's algorithm with signed digits, for the absolute value of the curve parameter. -/
noncomputable def signedMiller (x y : Fp) (Q : G2) : Fp12 :=
  signedLoop x y xAbs Q ((3 * xAbs).size - 2) 1 Q

end Spec
