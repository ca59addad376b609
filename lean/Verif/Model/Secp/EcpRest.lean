import Verif.Model.Secp.EcpMore
/-!
# Model of the functions of `amcl/src/secp256k1/ecp.rs` that `ecdh.rs` does not call

Mapping a string to a point, the ladder, and the differential addition. Only the branches selected by
`CURVETYPE = WEIERSTRASS` are modelled.
-/

namespace Amcl.Secp

namespace BIG

/-- `big.rs` 200-208 `cswap`, one limb: `t = c & (x ^ y)` with `c = !(d-1)`, which is `-d`. -/
def cswapW (x y d : Int) : Int × Int :=
  let t := and64 (-d) (xor64 x y)
  (xor64 x t, xor64 y t)

/-- `big.rs` 200-208 `cswap`; `d` is 0 or 1 at every call. -/
def cswap (a b : BIG) (d : Int) : BIG × BIG :=
  (⟨(cswapW a.w0 b.w0 d).1, (cswapW a.w1 b.w1 d).1, (cswapW a.w2 b.w2 d).1, (cswapW a.w3 b.w3 d).1,
    (cswapW a.w4 b.w4 d).1⟩,
   ⟨(cswapW a.w0 b.w0 d).2, (cswapW a.w1 b.w1 d).2, (cswapW a.w2 b.w2 d).2, (cswapW a.w3 b.w3 d).2,
    (cswapW a.w4 b.w4 d).2⟩)

end BIG

namespace FP

/-- `fp.rs` 227-234 `cswap`: the new `self` and the new `b`; the mask `!(d-1)` is `-d`. -/
def cswap (a b : FP) (d : Int) : FP × FP :=
  let t := and32 (-d) (xor32 a.xes b.xes)
  (⟨(a.x.cswap b.x d).1, xor32 a.xes t⟩, ⟨(a.x.cswap b.x d).2, xor32 b.xes t⟩)

end FP

namespace ECP

/-- `ecp.rs` 196-206 `cswap`: the new `self` and the new `Q`. -/
def cswap (P Q : ECP) (d : Int) : ECP × ECP :=
  (⟨(P.x.cswap Q.x d).1, (P.y.cswap Q.y d).1, (P.z.cswap Q.z d).1⟩,
   ⟨(P.x.cswap Q.x d).2, (P.y.cswap Q.y d).2, (P.z.cswap Q.z d).2⟩)

/-- `ecp.rs` 245-247 `mulx`. -/
def mulx (P : ECP) (c : FP) : Option ECP := do return ⟨← P.x.mul c, P.y, P.z⟩

/-- `ecp.rs` 968-984 `cfp`; `CURVE_COF_I` is 1 (`rom.rs` 33), so that line 970 returns. -/
def cfp (P : ECP) : Option ECP := some P

/-- `ecp.rs` 993-1005: the two nested loops of `mapit`, as one loop. `none` if it does not end. -/
def mapitLoop (x : BIG) : Option ECP := do
  let P ← new_bigint x 0
  let x ← x.inc 1
  let x ← x.norm
  if ← is_infinity P then mapitLoop x
  else
    let P ← cfp P
    if ← is_infinity P then mapitLoop x
    else return P
partial_fixpoint

/-- `ecp.rs` 988-1009 `mapit`. -/
def mapit (h : List UInt8) : Option ECP := do
  let x ← BIG.frombytes h
  let x ← x.rmod rom.MODULUS
  mapitLoop x

/-- `ecp.rs` 797-803: one round of the ladder for the bit `b`, on `(R0, R1)`. -/
def ladderStep (R0 R1 : ECP) (b : Int) : Option (ECP × ECP) := do
  let P ← add R1 R0
  let R0 := (cswap R0 R1 b).1
  let R0 ← dbl R0
  return cswap R0 P b

/-- `ecp.rs` 796-804: the rounds for the bits `n-1, …, 0`; `none` for a shift by 32 or more. -/
def ladder (e : Int) : Nat → ECP × ECP → Option (ECP × ECP)
  | 0, R => some R
  | n + 1, R => do
    if n ≥ 32 then none
    let R ← ladderStep R.1 R.2 (and32 (sar e n) 1)
    ladder e n R

/-- `ecp.rs` 788-809 `pinmul`. -/
def pinmul (self : ECP) (e bts : Int) : Option ECP := do
  let R0 ← new
  let (R0, _) ← ladder e bts.toNat (R0, self)
  affine R0

/-- `ecp.rs` 751-778 `dadd`. The function is compiled for every curve; `mul` calls it for `CURVETYPE = MONTGOMERY`. `y` is left as
it is. -/
def dadd (P Q W : ECP) : Option ECP := do
  let a ← P.x.add P.z
  let b ← P.x.sub P.z
  let c ← Q.x.add Q.z
  let d ← Q.x.sub Q.z
  let a ← a.norm
  let d ← d.norm
  let da ← d.mul a
  let c ← c.norm
  let b ← b.norm
  let cb ← c.mul b
  let a ← da.add cb
  let a ← a.norm
  let a ← a.sqr
  let b ← da.sub cb
  let b ← b.norm
  let b ← b.sqr
  let z ← W.x.mul b
  return ⟨a, P.y, z⟩

end ECP

end Amcl.Secp
