import Verif.Model.B383.Fp2
import Verif.Model.Window
/-!
# Model of `amcl/src/bls383/ecp2.rs`

Only the branches selected by `SEXTIC_TWIST = M_TYPE` are modelled. The return codes of `dbl`, `add`
and `sub` are constants nobody reads and are dropped.
-/

namespace Amcl.B383

/-- `ecp2.rs` 25-30: projective point of the twist. -/
@[ext] structure ECP2 where
  x : FP2
  y : FP2
  z : FP2
deriving DecidableEq, Repr

namespace ECP2

/-- `ecp2.rs` 36-43 `new`. -/
def new : Option ECP2 := do return ⟨FP2.new, ← FP2.new_int 1, FP2.new⟩

/-- `ecp2.rs` 93-98 `inf`. -/
def inf : Option ECP2 := do return ⟨FP2.new, ← FP2.one, FP2.new⟩

/-- `ecp2.rs` 249-268 `rhs`: the value and the normalised `x`. -/
def rhs (x : FP2) : Option (FP2 × FP2) := do
  let x ← x.norm
  let r ← x.sqr
  let b ← FP2.new_big rom.CURVE_B
  let b ← b.norm
  let b ← b.mul_ip
  let b ← b.norm
  let r ← r.mul x
  let r ← r.add b
  return (← r.reduce, x)

/-- `ecp2.rs` 46-59 `new_fp2s`. -/
def new_fp2s (ix iy : FP2) : Option ECP2 := do
  let z ← FP2.one
  let (rhs, x) ← rhs ix
  let y2 ← iy.sqr
  let (e, _, _) ← y2.equals rhs
  if e then return ⟨x, iy, z⟩ else inf

/-- `ecp2.rs` 62-74 `new_fp2`. -/
def new_fp2 (ix : FP2) : Option ECP2 := do
  let z ← FP2.one
  let (rhs, x) ← rhs ix
  let (q, y) ← rhs.sqrt
  if q then return ⟨x, y, z⟩ else inf

/-- `ecp2.rs` 77-82 `is_infinity` with short-circuit `&&`. -/
def is_infinity (P : ECP2) : Option Bool := do
  let (zx, _) ← P.x.iszilch
  if zx then
    let (zz, _) ← P.z.iszilch
    return zz
  else return false

/-- `ecp2.rs` 101-104 `neg`. -/
def neg (P : ECP2) : Option ECP2 := do
  let y ← P.y.norm
  let y ← y.neg
  let y ← y.norm
  return ⟨P.x, y, P.z⟩

/-- `ecp2.rs` 107-117 `cmove`. -/
def cmove (P Q : ECP2) (d : Int) : ECP2 := ⟨P.x.cmove Q.x d, P.y.cmove Q.y d, P.z.cmove Q.z d⟩

/-- `ecp2.rs` 149-164 `equals`. -/
def equals (P Q : ECP2) : Option Bool := do
  let a ← P.x.mul Q.z
  let b ← Q.x.mul P.z
  let (e, _, _) ← a.equals b
  if e then
    let a ← P.y.mul Q.z
    let b ← Q.y.mul P.z
    let (e, _, _) ← a.equals b
    return e
  else return false

/-- `ecp2.rs` 167-176 `affine`. `z.equals(one)` reduces `z` and `one` in place. -/
def affine (P : ECP2) : Option ECP2 := do
  if ← is_infinity P then return P
  let one ← FP2.new_int 1
  let (e, z, one) ← P.z.equals one
  if e then return ⟨P.x, P.y, z⟩
  let z ← z.inverse
  let x ← P.x.mul z
  let x ← x.reduce
  let y ← P.y.mul z
  let y ← y.reduce
  return ⟨x, y, one⟩

/-- `ecp2.rs` 179-182 `getx`: value and the new `self`. -/
def getx (P : ECP2) : Option (FP2 × ECP2) := do
  let P ← affine P
  return (P.x, P)

/-- `ecp2.rs` 185-188 `gety`: value and the new `self`. -/
def gety (P : ECP2) : Option (FP2 × ECP2) := do
  let P ← affine P
  return (P.y, P)

/-- `ecp2.rs` 204-218 `tobytes`: the 192 bytes written. The side effect on `self` is dropped: the only
caller discards it. -/
def tobytes (P : ECP2) : Option (List UInt8) := do
  let P ← affine P
  let xa ← (← P.x.geta).tobytes
  let xb ← (← P.x.getb).tobytes
  let ya ← (← P.y.geta).tobytes
  let yb ← (← P.y.getb).tobytes
  return xa ++ xb ++ ya ++ yb

/-- `ecp2.rs` 271-318 `dbl` (the `M_TYPE` branch). -/
def dbl (P : ECP2) : Option ECP2 := do
  let iy := P.y
  let t0 ← P.y.sqr
  let t1 ← iy.mul P.z
  let t2 ← P.z.sqr
  let z ← t0.add t0
  let z ← z.norm
  let z ← z.dbl
  let z ← z.dbl
  let z ← z.norm
  let t2 ← t2.imul (3 * rom.CURVE_B_I)
  let t2 ← t2.mul_ip
  let t2 ← t2.norm
  let x3 ← t2.mul z
  let y3 ← t0.add t2
  let y3 ← y3.norm
  let z ← z.mul t1
  let t1 ← t2.add t2
  let t2 ← t2.add t1
  let t2 ← t2.norm
  let t0 ← t0.sub t2
  let t0 ← t0.norm
  let y3 ← y3.mul t0
  let y3 ← y3.add x3
  let t1 ← P.x.mul iy
  let x ← t0.norm
  let x ← x.mul t1
  let x ← x.dbl
  let x ← x.norm
  let y ← y3.norm
  return ⟨x, y, z⟩

/-- `ecp2.rs` 321-395 `add` (the `M_TYPE` branch). -/
def add (P Q : ECP2) : Option ECP2 := do
  let b := 3 * rom.CURVE_B_I
  let t0 ← P.x.mul Q.x
  let t1 ← P.y.mul Q.y
  let t2 ← P.z.mul Q.z
  let t3 ← P.x.add P.y
  let t3 ← t3.norm
  let t4 ← Q.x.add Q.y
  let t4 ← t4.norm
  let t3 ← t3.mul t4
  let t4 ← t0.add t1
  let t3 ← t3.sub t4
  let t3 ← t3.norm
  let t4 ← P.y.add P.z
  let t4 ← t4.norm
  let x3 ← Q.y.add Q.z
  let x3 ← x3.norm
  let t4 ← t4.mul x3
  let x3 ← t1.add t2
  let t4 ← t4.sub x3
  let t4 ← t4.norm
  let x3 ← P.x.add P.z
  let x3 ← x3.norm
  let y3 ← Q.x.add Q.z
  let y3 ← y3.norm
  let x3 ← x3.mul y3
  let y3 ← t0.add t2
  let y3 ← y3.rsub x3
  let y3 ← y3.norm
  let x3 ← t0.add t0
  let t0 ← t0.add x3
  let t0 ← t0.norm
  let t2 ← t2.imul b
  let t2 ← t2.mul_ip
  let z3 ← t1.add t2
  let z3 ← z3.norm
  let t1 ← t1.sub t2
  let t1 ← t1.norm
  let y3 ← y3.imul b
  let y3 ← y3.mul_ip
  let y3 ← y3.norm
  let x3 ← y3.mul t4
  let t2 ← t3.mul t1
  let x3 ← x3.rsub t2
  let y3 ← y3.mul t0
  let t1 ← t1.mul z3
  let y3 ← y3.add t1
  let t0 ← t0.mul t3
  let z3 ← z3.mul t4
  let z3 ← z3.add t0
  let x ← x3.norm
  let y ← y3.norm
  let z ← z3.norm
  return ⟨x, y, z⟩

/-- `ecp2.rs` 398-403 `sub`. -/
def sub (P Q : ECP2) : Option ECP2 := do
  let NQ ← neg Q
  add P NQ

/-- The operations handed to the window multiplication. -/
def ops : PointOps ECP2 := ⟨add, dbl, neg, cmove, affine⟩

/-- `ecp2.rs` 420-479 `mul`. -/
def mul (P : ECP2) (e : BIG) : Option ECP2 := do
  if ← is_infinity P then new
  else Window.mul ops P e

/-- `ecp2.rs` 632-634 `generator`. -/
def generator : Option ECP2 := do
  let x ← FP2.new_bigs rom.CURVE_PXA rom.CURVE_PXB
  let y ← FP2.new_bigs rom.CURVE_PYA rom.CURVE_PYB
  new_fp2s x y

end ECP2

end Amcl.B383
