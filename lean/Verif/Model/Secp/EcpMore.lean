import Verif.Model.Secp.Ecp
/-!
# The octet encoding of points of `amcl/src/secp256k1/ecp.rs`

Only the branches selected by `CURVETYPE = WEIERSTRASS` are modelled.
-/

namespace Amcl.Secp

namespace ECP

/-- `ecp.rs` 103: the root or, if its parity is not `s`, its negative (which is not normalised). -/
def withParity (ny : FP) (s : Int) : Option FP := do
  let r ← ny.redc
  if r.parity ≠ s then ny.neg else return ny

/-- `ecp.rs` 94-108 `new_bigint`. -/
def new_bigint (ix : BIG) (s : Int) : Option ECP := do
  let x ← FP.nres ix
  let z ← FP.one
  let (rhs, x) ← rhs x
  if (← rhs.jacobi) = 1 then
    let (ny, _) ← rhs.sqrt
    let y ← withParity ny s
    return ⟨x, y, z⟩
  else inf

/-- `ecp.rs` 317-321 `gets`: value and the new `self`; the second `affine` is the one inside `gety`. -/
def gets (P : ECP) : Option (Int × ECP) := do
  let P ← affine P
  let (y, P) ← gety P
  return (y.parity, P)

/-- `ecp.rs` 341-364 `tobytes` with `compress = true`: the 33 bytes written and the new `self`. -/
def tobytesC (P : ECP) : Option (List UInt8 × ECP) := do
  let P ← affine P
  let bx ← (← P.x.redc).tobytes
  let y ← P.y.redc
  return ((if y.parity = 1 then 0x03 else 0x02) :: bx, P)

/-- `ecp.rs` 380-385: the second coordinate; `none` for an index out of bounds. -/
def fromCoords (px : BIG) (b : List UInt8) : Option ECP := do
  if b.length < 65 then none
  let py ← BIG.frombytes ((b.drop 33).take 32)
  if BIG.comp py rom.MODULUS ≥ 0 then new else new_bigs px py

/-- `ecp.rs` 372-393: dispatch on the first byte. -/
def fromHead (px : BIG) (b0 : UInt8) (b : List UInt8) : Option ECP :=
  if BIG.comp px rom.MODULUS ≥ 0 then new
  else if b0 = 0x04 then fromCoords px b
  else if b0 = 0x02 ∨ b0 = 0x03 then new_bigint px ((b0 &&& 1).toNat : Int)
  else new

/-- `ecp.rs` 367-392 `frombytes`; `none` for an index out of bounds. -/
def frombytes (b : List UInt8) : Option ECP := do
  if b.length < 33 then none
  let px ← BIG.frombytes ((b.drop 1).take 32)
  let b0 ← b[0]?
  fromHead px b0 b

end ECP

end Amcl.Secp
