import Verif.Spec.SignBit
/-!
# Specification: flag bits on top of a big-endian field element
-/

set_option exponentiation.threshold 2000

namespace Spec

/-- 48 bytes of a compressed finite public key: bit 383 set, bit 381 the sign, then `x`. -/
def enc1 (x s : Nat) : List UInt8 := toBE 48 (2 ^ 383 + s * 2 ^ 381 + x)

/-- The encoding of infinity on `n` bytes. -/
def encInf (n : Nat) : List UInt8 := 192 :: List.replicate (n - 1) 0

/-- 96 bytes of a compressed finite signature: bit 767 set, bit 765 the sign, then the imaginary and
the real part of `x`, 384 bits each. -/
def enc2 (re im s : Nat) : List UInt8 := enc1 im s ++ toBE 48 re

theorem toBE_congr (n : Nat) {v w : Nat} (h : v % 256 ^ n = w % 256 ^ n) : toBE n v = toBE n w := by
  apply beNat_inj (by rw [length_toBE, length_toBE])
  rw [beNat_toBE, beNat_toBE, h]

theorem length_enc1 (x s : Nat) : (enc1 x s).length = 48 := length_toBE _ _

theorem length_enc2 (x y s : Nat) : (enc2 x y s).length = 96 := by
  rw [enc2, List.length_append, length_enc1, length_toBE]

theorem beNat_enc1 {x s : Nat} (hx : x < 2 ^ 381) (hs : s < 2) :
    beNat (enc1 x s) = 2 ^ 383 + s * 2 ^ 381 + x := by
  rw [enc1, beNat_toBE, Nat.mod_eq_of_lt]
  have : (2 : Nat) ^ 383 + 2 ^ 381 + 2 ^ 381 < 256 ^ 48 := by norm_num
  have : s * 2 ^ 381 ≤ 1 * 2 ^ 381 := Nat.mul_le_mul_right _ (by omega)
  omega

theorem enc1_inj {x s x' s' : Nat} (hx : x < 2 ^ 381) (hs : s < 2) (hx' : x' < 2 ^ 381) (hs' : s' < 2)
    (h : enc1 x s = enc1 x' s') : x = x' ∧ s = s' := by
  have := congrArg beNat h
  rw [beNat_enc1 hx hs, beNat_enc1 hx' hs'] at this
  omega

end Spec
