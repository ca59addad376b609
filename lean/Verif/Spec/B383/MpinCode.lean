import Verif.Spec.B383.Mpin
import Verif.Spec.Rng
/-!
# Specification: pairs of numbers that stand for a point

A number `u` with a bit `s` stands for the point with the first abscissa at or after `u` that is on the curve, and with
the ordinate of parity `s`. A string of 97 bytes carries two such numbers and stands for the sum of the two points.
-/

namespace Spec.B383

/-- `g` has the first abscissa among `x, x + 1, …` that is on the curve, and an ordinate of parity `s`. -/
def Lifts (x : Fp) (s : Nat) (g : G1) : Prop :=
  ∃ (k : Nat) (y : Fp) (h : y ^ 2 = (x + k) ^ 3 + b1), (∀ j < k, ¬ IsSquare ((x + (j : Nat)) ^ 3 + b1)) ∧
    y.val % 2 = s ∧ g = Pt.mk (x + k) y h

/-- The string `d` stands for `g`: the two lowest bits of the first byte are the parities, the next bit is 0. -/
def Encodes (d : List UInt8) (g : G1) : Prop :=
  ∃ (d0 : UInt8) (a b : List UInt8) (W V : G1), d = d0 :: (a ++ b) ∧ a.length = 48 ∧ b.length = 48 ∧
    d0.toNat / 4 % 2 = 0 ∧ Lifts (beNat a : Fp) (d0.toNat % 2) W ∧ Lifts (beNat b : Fp) (d0.toNat / 2 % 2) V ∧ g = V + W

/-- `n` is the distance from `x` down to the next lower abscissa that is on the curve. -/
def Gap (x n : Nat) : Prop :=
  0 < n ∧ n ≤ x ∧ IsSquare ((((x - n : Nat) : Fp)) ^ 3 + b1) ∧
    ∀ j, 0 < j → j < n → ¬ IsSquare ((((x - j : Nat) : Fp)) ^ 3 + b1)

/-- `d` is the string for `g` made from the bytes of the generator from byte `i` on: 96 bytes for the first number, one
for its parity, one to choose the second number among those that give the same point. -/
def EncodedFrom (e : List UInt8) (i : Nat) (g : G1) (d : List UInt8) : Prop :=
  ∃ (u su n : Nat) (W : G1) (x y : Fp) (h : y ^ 2 = x ^ 3 + b1), u = Rng.numberAt e i 766 % p ∧
    su = (Rng.byte e (i + 96)).toNat % 2 ∧ Lifts (u : Fp) su W ∧ g - W = Pt.mk x y h ∧ Gap x.val n ∧
    d = UInt8.ofNat (su + 2 * (y.val % 2)) ::
      (toBE 48 u ++ toBE 48 (x.val - n + (Rng.byte e (i + 97)).toNat % n + 1))

end Spec.B383
