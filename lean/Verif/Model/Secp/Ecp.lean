import Verif.Model.Secp.Window
/-!
# Model of `amcl/src/secp256k1/ecp.rs`

Only the branches selected by `CURVETYPE = WEIERSTRASS` and `CURVE_A = 0` are modelled.
-/

namespace Amcl.Secp

/-- `ecp.rs` 25-30: projective point. -/
@[ext] structure ECP where
  x : FP
  y : FP
  z : FP
deriving DecidableEq, Repr

namespace ECP

/-- `ecp.rs` 53-70 `new` (and `pnew`): the point at infinity. -/
def new : Option ECP := do return ⟨FP.new, ← FP.new_int 1, FP.new⟩

/-- `ecp.rs` 125-134 `inf`. -/
def inf : Option ECP := do return ⟨FP.new, ← FP.one, FP.new⟩

/-- `ecp.rs` 137-174 `rhs`: the value and the normalised `x`. -/
def rhs (x : FP) : Option (FP × FP) := do
  let x ← x.norm
  let r ← x.sqr
  let b ← FP.new_big rom.CURVE_B
  let r ← r.mul x
  let r ← r.add b
  return (← r.reduce, x)

/-- `ecp.rs` 73-91 `new_bigs`. -/
def new_bigs (ix iy : BIG) : Option ECP := do
  let x ← FP.nres ix
  let y ← FP.nres iy
  let z ← FP.one
  let (rhs, x) ← rhs x
  let y2 ← y.sqr
  let (e, _, _) ← y2.equals rhs
  if e then return ⟨x, y, z⟩ else inf

/-- `ecp.rs` 112-122 `new_big`. -/
def new_big (ix : BIG) : Option ECP := do
  let x ← FP.nres ix
  let z ← FP.one
  let (rhs, x) ← rhs x
  if (← rhs.jacobi) = 1 then
    let (y, _) ← rhs.sqrt
    return ⟨x, y, z⟩
  else inf

/-- `ecp.rs` 177-193 `is_infinity` with short-circuit `&&`. -/
def is_infinity (P : ECP) : Option Bool := do
  let (zx, _) ← P.x.iszilch
  if zx then
    let (zz, _) ← P.z.iszilch
    return zz
  else return false

/-- `ecp.rs` 209-217 `cmove`. -/
def cmove (P Q : ECP) (d : Int) : ECP := ⟨P.x.cmove Q.x d, P.y.cmove Q.y d, P.z.cmove Q.z d⟩

/-- `ecp.rs` 235-244 `neg`. -/
def neg (P : ECP) : Option ECP := do
  let y ← P.y.neg
  let y ← y.norm
  return ⟨P.x, y, P.z⟩

/-- `ecp.rs` 273-288 `equals`. -/
def equals (P Q : ECP) : Option Bool := do
  let a ← P.x.mul Q.z
  let b ← Q.x.mul P.z
  let (e, _, _) ← a.equals b
  if e then
    let a ← P.y.mul Q.z
    let b ← Q.y.mul P.z
    let (e, _, _) ← a.equals b
    return e
  else return false

/-- `ecp.rs` 291-302 `affine`. `z.equals(one)` reduces `z` and `one` in place. -/
def affine (P : ECP) : Option ECP := do
  if ← is_infinity P then return P
  let one ← FP.new_int 1
  let (e, z, one) ← P.z.equals one
  if e then return ⟨P.x, P.y, z⟩
  let z ← z.inverse
  let x ← P.x.mul z
  let x ← x.reduce
  let y ← P.y.mul z
  let y ← y.reduce
  return ⟨x, y, one⟩

/-- `ecp.rs` 305-308 `getx`: value and the new `self`. -/
def getx (P : ECP) : Option (BIG × ECP) := do
  let P ← affine P
  return (← P.x.redc, P)

/-- `ecp.rs` 311-314 `gety`: value and the new `self`. -/
def gety (P : ECP) : Option (BIG × ECP) := do
  let P ← affine P
  return (← P.y.redc, P)

/-- `ecp.rs` 341-364 `tobytes` with `compress = false`: the 65 bytes written and the new `self`. -/
def tobytes (P : ECP) : Option (List UInt8 × ECP) := do
  let P ← affine P
  let bx ← (← P.x.redc).tobytes
  let cy ← (← P.y.redc).tobytes
  return (0x04 :: (bx ++ cy), P)

/-- `ecp.rs` 405-435 `dbl` (the `CURVE_A = 0` branch). -/
def dbl (P : ECP) : Option ECP := do
  let t0 ← P.y.sqr
  let t1 ← P.y.mul P.z
  let t2 ← P.z.sqr
  let z ← t0.add t0
  let z ← z.norm
  let z ← z.dbl
  let z ← z.dbl
  let z ← z.norm
  let t2 ← t2.imul (3 * rom.CURVE_B_I)
  let x3 ← t2.mul z
  let y3 ← t0.add t2
  let y3 ← y3.norm
  let z ← z.mul t1
  let t1 ← t2.add t2
  let t2 ← t2.add t1
  let t0 ← t0.sub t2
  let t0 ← t0.norm
  let y3 ← y3.mul t0
  let y3 ← y3.add x3
  let t1 ← P.x.mul P.y
  let x ← t0.norm
  let x ← x.mul t1
  let x ← x.dbl
  let x ← x.norm
  let y ← y3.norm
  return ⟨x, y, z⟩

/-- `ecp.rs` 560-617 `add` (the `CURVE_A = 0` branch). -/
def add (P Q : ECP) : Option ECP := do
  let b := 3 * rom.CURVE_B_I
  let t0 ← P.x.mul Q.x
  let t1 ← P.y.mul Q.y
  let t2 ← P.z.mul Q.z
  let t3 ← P.x.add P.y
  let t3 ← t3.norm
  let t4 ← Q.x.add Q.y
  let t4 ← t4.norm
  let t3 ← t3.mul t4
  let t4 ← t0.add t1
  let t3 ← t3.sub t4
  let t3 ← t3.norm
  let t4 ← P.y.add P.z
  let t4 ← t4.norm
  let x3 ← Q.y.add Q.z
  let x3 ← x3.norm
  let t4 ← t4.mul x3
  let x3 ← t1.add t2
  let t4 ← t4.sub x3
  let t4 ← t4.norm
  let x3 ← P.x.add P.z
  let x3 ← x3.norm
  let y3 ← Q.x.add Q.z
  let y3 ← y3.norm
  let x3 ← x3.mul y3
  let y3 ← t0.add t2
  let y3 ← y3.rsub x3
  let y3 ← y3.norm
  let x3 ← t0.add t0
  let t0 ← t0.add x3
  let t0 ← t0.norm
  let t2 ← t2.imul b
  let z3 ← t1.add t2
  let z3 ← z3.norm
  let t1 ← t1.sub t2
  let t1 ← t1.norm
  let y3 ← y3.imul b
  let x3 ← y3.mul t4
  let t2 ← t3.mul t1
  let x3 ← x3.rsub t2
  let y3 ← y3.mul t0
  let t1 ← t1.mul z3
  let y3 ← y3.add t1
  let t0 ← t0.mul t3
  let z3 ← z3.mul t4
  let z3 ← z3.add t0
  let x ← x3.norm
  let y ← y3.norm
  let z ← z3.norm
  return ⟨x, y, z⟩

/-- `ecp.rs` 781-785 `sub`. -/
def sub (P Q : ECP) : Option ECP := do
  let NQ ← neg Q
  add P NQ

/-- The operations handed to the window multiplication. -/
def ops : PointOps ECP := ⟨add, dbl, neg, cmove, affine⟩

/-- `ecp.rs` 813-891 `mul`. -/
def mul (P : ECP) (e : BIG) : Option ECP := do
  if e.iszilch then new
  else if ← is_infinity P then new
  else Window.mul ops P e

/-- `ecp.rs` 1011-1023 `generator`. -/
def generator : Option ECP := new_bigs rom.CURVE_GX rom.CURVE_GY

end ECP

end Amcl.Secp
