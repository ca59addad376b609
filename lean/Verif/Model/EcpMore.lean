import Verif.Model.Ecp
import Verif.Model.BigArith
/-!
# Model of the functions of `amcl/src/bls381/ecp.rs` that the crate does not call

The octet encoding of AMCL itself, mapping a string to a point, and the ladder. Only the branches selected
by `CURVETYPE = WEIERSTRASS` are modelled.
-/

namespace Amcl

namespace FP

/-- `fp.rs` 227-234 `cswap`: the new `self` and the new `b`; the mask `!(d-1)` is `-d`. -/
def cswap (a b : FP) (d : Int) : FP × FP :=
  let t := and32 (-d) (xor32 a.xes b.xes)
  (⟨(a.x.cswap b.x d).1, xor32 a.xes t⟩, ⟨(a.x.cswap b.x d).2, xor32 b.xes t⟩)

end FP

namespace ECP

/-- `ecp.rs` 197-207 `cswap`: the new `self` and the new `Q`. -/
def cswap (P Q : ECP) (d : Int) : ECP × ECP :=
  (⟨(P.x.cswap Q.x d).1, (P.y.cswap Q.y d).1, (P.z.cswap Q.z d).1⟩,
   ⟨(P.x.cswap Q.x d).2, (P.y.cswap Q.y d).2, (P.z.cswap Q.z d).2⟩)

/-- `ecp.rs` 104: the root or, if its parity is not `s`, its negative (which is not normalised). -/
def withParity (ny : FP) (s : Int) : Option FP := do
  let r ← ny.redc
  if r.parity ≠ s then ny.neg else return ny

/-- `ecp.rs` 95-109 `new_bigint`. -/
def new_bigint (ix : BIG) (s : Int) : Option ECP := do
  let x ← FP.nres ix
  let z ← FP.one
  let (rhs, x) ← rhs x
  if (← rhs.jacobi) = 1 then
    let (ny, _) ← rhs.sqrt
    let y ← withParity ny s
    return ⟨x, y, z⟩
  else inf

/-- `ecp.rs` 318-322 `gets`: value and the new `self`; the second `affine` is the one inside `gety`. -/
def gets (P : ECP) : Option (Int × ECP) := do
  let P ← affine P
  let (y, P) ← gety P
  return (y.parity, P)

/-- `ecp.rs` 342-365 `tobytes` with `compress = true`: the 49 bytes written and the new `self`. -/
def tobytesC (P : ECP) : Option (List UInt8 × ECP) := do
  let P ← affine P
  let bx ← (← P.x.redc).tobytes
  let y ← P.y.redc
  return ((if y.parity = 1 then 0x03 else 0x02) :: bx, P)

/-- `ecp.rs` 381-386: the second coordinate; `none` for an index out of bounds. -/
def fromCoords (px : BIG) (b : List UInt8) : Option ECP := do
  if b.length < 97 then none
  let py ← BIG.frombytes ((b.drop 49).take 48)
  if BIG.comp py rom.MODULUS ≥ 0 then new else new_bigs px py

/-- `ecp.rs` 373-394: dispatch on the first byte. -/
def fromHead (px : BIG) (b0 : UInt8) (b : List UInt8) : Option ECP :=
  if BIG.comp px rom.MODULUS ≥ 0 then new
  else if b0 = 0x04 then fromCoords px b
  else if b0 = 0x02 ∨ b0 = 0x03 then new_bigint px ((b0 &&& 1).toNat : Int)
  else new

/-- `ecp.rs` 368-393 `frombytes`; `none` for an index out of bounds. -/
def frombytes (b : List UInt8) : Option ECP := do
  if b.length < 49 then none
  let px ← BIG.frombytes ((b.drop 1).take 48)
  let b0 ← b[0]?
  fromHead px b0 b

/-- `ecp.rs` 969-985 `cfp`; `CURVE_COF_I` is 0, so that none of the three short cuts applies. -/
def cfp (P : ECP) : Option ECP := mul P rom.CURVE_COF

/-- `ecp.rs` 994-1006: the two nested loops of `mapit`, as one loop. `none` if it does not end. -/
def mapitLoop (x : BIG) : Option ECP := do
  let P ← new_bigint x 0
  let x ← x.inc 1
  let x ← x.norm
  if ← is_infinity P then mapitLoop x
  else
    let P ← cfp P
    if ← is_infinity P then mapitLoop x
    else return P
partial_fixpoint

/-- `ecp.rs` 989-1010 `mapit`. -/
def mapit (h : List UInt8) : Option ECP := do
  let x ← BIG.frombytes h
  let x ← x.rmod rom.MODULUS
  mapitLoop x

/-- `ecp.rs` 798-804: one round of the ladder for the bit `b`, on `(R0, R1)`. -/
def ladderStep (R0 R1 : ECP) (b : Int) : Option (ECP × ECP) := do
  let P ← add R1 R0
  let R0 := (cswap R0 R1 b).1
  let R0 ← dbl R0
  return cswap R0 P b

/-- `ecp.rs` 797-805: the rounds for the bits `n-1, …, 0`; `none` for a shift by 32 or more. -/
def ladder (e : Int) : Nat → ECP × ECP → Option (ECP × ECP)
  | 0, R => some R
  | n + 1, R => do
    if n ≥ 32 then none
    let R ← ladderStep R.1 R.2 (and32 (sar e n) 1)
    ladder e n R

/-- `ecp.rs` 789-810 `pinmul`. -/
def pinmul (self : ECP) (e bts : Int) : Option ECP := do
  let R0 ← new
  let (R0, _) ← ladder e bts.toNat (R0, self)
  affine R0

end ECP

end Amcl
