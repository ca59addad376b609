import Verif.Model.Ecp
import Verif.Model.Ecp2
import Verif.Model.Fp12
/-!
# Model of `amcl/src/bls381/pair.rs`

Only the branches for `CURVE_PAIRING_TYPE = BLS`, `SEXTIC_TWIST = M_TYPE` and
`SIGN_OF_X = NEGATIVEX` are modelled.
-/

namespace Amcl

namespace pair

/-- `pair.rs` 33-81 `linedbl`: the line and the doubled point. -/
def linedbl (A : ECP2) (qx qy : FP) : Option (FP12 × ECP2) := do
  let xx := A.x
  let yy := A.y
  let zz := A.z
  let yz := yy
  let yz ← yz.mul zz
  let xx ← xx.sqr
  let yy ← yy.sqr
  let zz ← zz.sqr
  let yz ← yz.imul 4
  let yz ← yz.neg
  let yz ← yz.norm
  let yz ← yz.pmul qy
  let xx ← xx.imul 6
  let xx ← xx.pmul qx
  let sb := 3 * rom.CURVE_B_I
  let zz ← zz.imul sb
  let zz ← zz.mul_ip
  let zz ← zz.dbl
  let yz ← yz.mul_ip
  let yz ← yz.norm
  let zz ← zz.norm
  let yy ← yy.dbl
  let zz ← zz.sub yy
  let zz ← zz.norm
  let c := FP4.new_fp2 xx
  let c ← c.times_i
  let A ← A.dbl
  return (⟨⟨yz, zz⟩, FP4.new, c⟩, A)

/-- `pair.rs` 84-126 `lineadd`: the line and the sum. -/
def lineadd (A B : ECP2) (qx qy : FP) : Option (FP12 × ECP2) := do
  let x1 := A.x
  let y1 := A.y
  let t1 := A.z
  let t2 := A.z
  let t1 ← t1.mul B.y
  let t2 ← t2.mul B.x
  let x1 ← x1.sub t2
  let x1 ← x1.norm
  let y1 ← y1.sub t1
  let y1 ← y1.norm
  let t1 := x1
  let x1 ← x1.pmul qy
  let x1 ← x1.mul_ip
  let x1 ← x1.norm
  let t1 ← t1.mul B.y
  let t2 := y1
  let t2 ← t2.mul B.x
  let t2 ← t2.sub t1
  let t2 ← t2.norm
  let y1 ← y1.pmul qx
  let y1 ← y1.neg
  let y1 ← y1.norm
  let c := FP4.new_fp2 y1
  let c ← c.times_i
  let A ← A.add B
  return (⟨⟨x1, t2⟩, FP4.new, c⟩, A)

/-- `pair.rs` 165-182: the Miller loop for the bits `i, …, 1`. -/
def ateLoop (n3 n : BIG) (P NP : ECP2) (qx qy : FP) : Nat → FP12 → ECP2 → Option FP12
  | 0, r, _ => some r
  | i + 1, r, A => do
    let r ← r.sqr
    let (lv, A) ← linedbl A qx qy
    let r ← r.smul lv
    let b3 ← n3.bit (i + 1)
    let b1 ← n.bit (i + 1)
    if b3 - b1 = 1 then
      let (lv, A) ← lineadd A P qx qy
      let r ← r.smul lv
      ateLoop n3 n P NP qx qy i r A
    else if b3 - b1 = -1 then
      let (lv, A) ← lineadd A NP qx qy
      let r ← r.smul lv
      ateLoop n3 n P NP qx qy i r A
    else ateLoop n3 n P NP qx qy i r A

/-- `pair.rs` 130-210 `ate`; `none` when `nb-1` underflows. -/
def ate (P : ECP2) (Q : ECP) : Option FP12 := do
  let n ← rom.CURVE_BNX.norm
  let n3 ← n.pmul 3
  let n3 ← n3.norm
  let qx := Q.x
  let qy := Q.y
  let r ← FP12.new_int 1
  let NP ← P.neg
  let nb ← n3.nbits
  if nb = 0 then none
  let r ← ateLoop n3 n P NP qx qy (nb - 2) r P
  r.conj

/-- `pair.rs` 320-483 `fexp` (the `BLS` branch). -/
def fexp (m : FP12) : Option FP12 := do
  let f ← FP2.new_bigs rom.FRA rom.FRB
  let x := rom.CURVE_BNX
  let r := m
  let lv ← r.inverse
  let r ← r.conj
  let r ← r.mul lv
  let lv := r
  let r ← r.frob f
  let r ← r.frob f
  let r ← r.mul lv
  let y0 ← r.usqr
  let y1 ← y0.pow x
  let y1 ← y1.conj
  let x ← x.fshr 1
  let y2 ← y1.pow x
  let y2 ← y2.conj
  let x ← x.fshl 1
  let y3 ← r.conj
  let y1 ← y1.mul y3
  let y1 ← y1.conj
  let y1 ← y1.mul y2
  let y2 ← y1.pow x
  let y2 ← y2.conj
  let y3 ← y2.pow x
  let y3 ← y3.conj
  let y1 ← y1.conj
  let y3 ← y3.mul y1
  let y1 ← y1.conj
  let y1 ← y1.frob f
  let y1 ← y1.frob f
  let y1 ← y1.frob f
  let y2 ← y2.frob f
  let y2 ← y2.frob f
  let y1 ← y1.mul y2
  let y2 ← y3.pow x
  let y2 ← y2.conj
  let y2 ← y2.mul y0
  let y2 ← y2.mul r
  let y1 ← y1.mul y2
  let y2 := y3
  let y2 ← y2.frob f
  let y1 ← y1.mul y2
  y1.reduce

end pair

end Amcl
