import Verif.Model.Api
/-!
# Model of the printed forms: `tostring` and `fmt::Debug`

A Rust `String` is a list of characters. `write!(f, "{}", s)` writes `s` unchanged. Of the derived
`fmt::Debug` implementations the one-line form `{:?}` is modelled, `Name { field: value, field: value }`;
the indented form `{:#?}` is not. `copy` before printing is the identity. All of this is compiled with the feature `std` only.
-/

namespace Amcl
namespace BIG

/-- Limb `i`; 0 past the end (only read where a shift writes zeros). -/
def limb (a : BIG) : Nat → Int
  | 0 => a.w0
  | 1 => a.w1
  | 2 => a.w2
  | 3 => a.w3
  | 4 => a.w4
  | 5 => a.w5
  | 6 => a.w6
  | _ => 0

/-- `big.rs` 232-237, limb `i` of the result: below `NLEN-m-1`, at it, above it. -/
def shrAnyW (a : BIG) (m n i : Nat) : Int :=
  if i + m < 6 then fshrW n (a.limb (m + i)) (a.limb (m + i + 1))
  else if i + m = 6 then sar a.w6 n
  else 0

/-- `big.rs` 229-238 `shr` for every `k`; `none` where `NLEN-m-1` underflows. -/
def shrAny (a : BIG) (k : Nat) : Option BIG :=
  let n := k % 58
  let m := k / 58
  if m > 6 then none
  else some ⟨shrAnyW a m n 0, shrAnyW a m n 1, shrAnyW a m n 2, shrAnyW a m n 3, shrAnyW a m n 4,
    shrAnyW a m n 5, shrAnyW a m n 6⟩

/-- Rust `format!("{:X}", d)` of a number from 0 to 15. -/
def upperHex (d : Int) : Char :=
  if d < 10 then Char.ofNat (48 + d.toNat) else Char.ofNat (55 + d.toNat)

/-- `big.rs` 293-297: `i` digits still to come. -/
def tostringLoop (a : BIG) : Nat → List Char → Option (List Char)
  | 0, s => some s
  | i + 1, s => do
    let b ← shrAny a (i * 4)
    tostringLoop a i (s ++ [upperHex (and64 b.w0 15)])

/-- `big.rs` 280-299 `tostring`. -/
def tostring (a : BIG) : Option (List Char) := do
  let len ← a.nbits
  let len := if len % 4 = 0 then len / 4 else len / 4 + 1
  let len := if len < 96 then 96 else len
  tostringLoop a len []

end BIG

/-- `fp.rs` 181-184 `tostring`. -/
def FP.tostring (f : FP) : Option (List Char) := do (← f.redc).tostring

/-- `fp2.rs` 284-286 `tostring`. -/
def FP2.tostring (f : FP2) : Option (List Char) := do
  return '[' :: (← f.a.tostring) ++ ',' :: (← f.b.tostring) ++ [']']

/-- `fp4.rs` 283-285 `tostring`. -/
def FP4.tostring (f : FP4) : Option (List Char) := do
  return '[' :: (← f.a.tostring) ++ ',' :: (← f.b.tostring) ++ [']']

/-- `fp12.rs` 552-554 `tostring`. -/
def FP12.tostring (f : FP12) : Option (List Char) := do
  return '[' :: (← f.a.tostring) ++ ',' :: (← f.b.tostring) ++ ',' :: (← f.c.tostring) ++ [']']

/-- `ecp.rs` 397-403 `tostring` (the curve is not Montgomery). -/
def ECP.tostring (P : ECP) : Option (List Char) := do
  if ← P.is_infinity then return "infinity".toList
  let P ← P.affine
  return '(' :: (← (← P.x.redc).tostring) ++ ',' :: (← (← P.y.redc).tostring) ++ [')']

/-- `ecp2.rs` 243-247 `tostring`. -/
def ECP2.tostring (P : ECP2) : Option (List Char) := do
  if ← P.is_infinity then return "infinity".toList
  let P ← P.affine
  return '(' :: (← P.x.tostring) ++ ',' :: (← P.y.tostring) ++ [')']

/-- `keys.rs` 46-52: `Debug` of a secret key. -/
def SecretKey.debug (sk : SecretKey) : Option (List Char) := sk.x.tostring

/-- `keys.rs` 64 derived, with `g1.rs` 62-68. -/
def PublicKey.debug (pk : PublicKey) : Option (List Char) := do
  return "PublicKey { point: ".toList ++ (← pk.point.tostring) ++ " }".toList

/-- `keys.rs` 151 derived. -/
def Keypair.debug (k : Keypair) : Option (List Char) := do
  return "Keypair { sk: ".toList ++ (← k.sk.debug) ++ ", pk: ".toList ++ (← k.pk.debug) ++ " }".toList

/-- `signature.rs` 9 derived, with `g2.rs` 54-60. -/
def Signature.debug (s : Signature) : Option (List Char) := do
  return "Signature { point: ".toList ++ (← s.point.tostring) ++ " }".toList

/-- `aggregates.rs` 14 derived, with `g1.rs` 62-68. -/
def AggregatePublicKey.debug (a : AggregatePublicKey) : Option (List Char) := do
  return "AggregatePublicKey { point: ".toList ++ (← a.point.tostring) ++ " }".toList

/-- `aggregates.rs` 76 derived, with `g2.rs` 54-60. -/
def AggregateSignature.debug (a : AggregateSignature) : Option (List Char) := do
  return "AggregateSignature { point: ".toList ++ (← a.point.tostring) ++ " }".toList

end Amcl
