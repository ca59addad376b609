import Verif.Spec.B383.MapToCurve1
import Verif.Spec.B383.Octets
import Verif.Spec.B383.Octets12
import Verif.Spec.Sha256
import Verif.Spec.Sha512
/-!
# Specification: strings and hashes of the M-Pin protocol
-/

namespace Spec.B383

/-- `b` is the uncompressed string of the finite point `g`. -/
def Str1 (b : List UInt8) (g : G1) : Prop := ∃ x y h, g = Pt.mk x y h ∧ b = octets x y

/-- `b` is a string of four coordinates, perhaps not reduced, of the finite point `Q` of the twist. -/
def Str2 (b : List UInt8) (Q : G2) : Prop := ∃ x y h, Q = Pt.mk x y h ∧ b.length = 192 ∧ block2 b 0 = x ∧ block2 b 96 = y

/-- The digest with the hash function named by the length of its values. -/
noncomputable def mpinDigest (sha : Nat) (m : List UInt8) : Option (List UInt8) :=
  if sha = 32 then some (sha256 m) else if sha = 48 then some (sha384 m) else if sha = 64 then some (sha512 m) else none

/-- The 48 bytes that stand for an identity: the digest of the identity, with the four bytes of the number `n` in
front of it unless `n = 0`; padded with zeros in front or cut at the end. All zeros if `sha` is no hash function. -/
noncomputable def mpinHash (sha n : Nat) (id : List UInt8) : List UInt8 :=
  match mpinDigest sha (if n = 0 then id else toBE 4 n ++ id) with
  | none => List.replicate 48 0
  | some d => List.replicate (48 - sha) 0 ++ d.take 48

/-- `g` is the point for 48 bytes; `c` is the cofactor. -/
def BytesPt (c : Nat) (b : List UInt8) (g : G1) : Prop := MapsTo1 c (beNat b : Fp) g

end Spec.B383
