import Verif.Spec.Secp.Octets
import Verif.Spec.Secp.Generators
import Verif.Spec.Ecdh
import Verif.Spec.Rng
/-!
# Specification: public keys, Diffie-Hellman and ECDSA on secp256k1 (SEC 1, sections 2.3, 3.3.1 and 4.1)
-/

namespace Spec.Secp

/-- `Q` is a finite point with the abscissa `x`. -/
def HasX (Q : G1) (x : Fp) : Prop := ∃ (y : Fp) (h : y ^ 2 = x ^ 3 + b1), Q = Pt.mk x y h

/-- The string `b` begins with one of the two strings of the finite point `Q`. -/
def Begins (b : List UInt8) (Q : G1) : Prop :=
  ∃ (x y : Fp) (h : y ^ 2 = x ^ 3 + b1), Q = Pt.mk x y h ∧ (octets x y <+: b ∨ octetsC x y <+: b)

/-- `l` is the string for the public key `d • gen`. For `d = 0` there is no such string in SEC 1; the coordinates are 0 and 1. -/
def KeyString (d : Nat) (l : List UInt8) : Prop :=
  (d = 0 → l = 4 :: (toBE 32 0 ++ toBE 32 1)) ∧ ∀ x y h, d • gen = Pt.mk x y h → l = octets x y

/-- The number to be signed: the leftmost 256 bits of the hash value with `sha` bytes. -/
noncomputable def hashNum (sha : Nat) (m : List UInt8) : Nat := beNat ((Kdf.H sha m).take 32)

/-- `(r, s)` is the signature of the number `e` with the secret key `d` and the one-time secret `u`. -/
def IsSignature (d e u r s : Nat) : Prop :=
  ∃ x, HasX (u • gen) x ∧ r = x.val % n ∧ r ≠ 0 ∧ s < n ∧ s ≠ 0 ∧ (s : ZMod n) = (u : ZMod n)⁻¹ * (e + r * d)

/-- `(r, s)` is accepted as a signature of the number `e` with the public key `Q`. -/
def Accepts (Q : G1) (e r s : Nat) : Prop :=
  0 < r ∧ r < n ∧ 0 < s ∧ s < n ∧
    ∃ x, HasX ((e * (s : ZMod n)⁻¹ : ZMod n).val • gen + (r * (s : ZMod n)⁻¹ : ZMod n).val • Q) x ∧ x.val % n = r

/-! Signing with the numbers of the generator with the seed `seed`: a pass takes 64 bytes for the one-time secret and 64 bytes
for the number that hides it in the inversion. -/

/-- The one-time secret of the pass from byte `i`. -/
noncomputable def oneTime (seed : List UInt8) (i : Nat) : Nat := Rng.numberAt seed i 512 % n

/-- The number that hides it. -/
noncomputable def mask (seed : List UInt8) (i : Nat) : Nat := Rng.numberAt seed (i + 64) 512 % n

/-- The mask of the pass from byte `i` is 0, and the pass uses it: `r` is not 0. -/
def Stuck (seed : List UInt8) (i : Nat) : Prop := mask seed i = 0 ∧ ∃ x, HasX (oneTime seed i • gen) x ∧ x.val % n ≠ 0

/-- The pass from byte `i` gives no signature and has to be repeated. -/
def Retry (d e : Nat) (seed : List UInt8) (i : Nat) : Prop := ¬ Stuck seed i ∧ ∀ r s, ¬ IsSignature d e (oneTime seed i) r s

end Spec.Secp
