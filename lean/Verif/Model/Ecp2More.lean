import Verif.Model.Endo
/-!
# Model of the functions of `amcl/src/bls381/ecp2.rs` that the crate does not call

Decoding of AMCL's own strings and mapping a string to a point of the twist. Only the branches selected by
`SEXTIC_TWIST = M_TYPE`, `CURVE_PAIRING_TYPE = BLS` and `SIGN_OF_X = NEGATIVEX` are modelled.
-/

namespace Amcl

namespace ECP2

/-- `ecp2.rs` 222-239 `frombytes`; `none` for an index out of bounds. -/
def frombytes (b : List UInt8) : Option ECP2 := do
  if b.length < 192 then none
  let ra ← BIG.frombytes (b.take 48)
  let rb ← BIG.frombytes ((b.drop 48).take 48)
  let rx ← FP2.new_bigs ra rb
  let ra ← BIG.frombytes ((b.drop 96).take 48)
  let rb ← BIG.frombytes ((b.drop 144).take 48)
  let ry ← FP2.new_bigs ra rb
  new_fp2s rx ry

/-- `ecp2.rs` 579-584: the search loop of `mapit`. `none` if it does not end. -/
def mapitLoop (x : BIG) : Option ECP2 := do
  let X ← FP2.new_bigs (BIG.new_int 1) x
  let Q ← new_fp2 X
  if ← is_infinity Q then
    let x ← x.inc 1
    let x ← x.norm
    mapitLoop x
  else return Q
partial_fixpoint

/-- `ecp2.rs` 608-625: the multiplication that is meant to clear the cofactor. -/
def clear (Q : ECP2) (X : FP2) : Option ECP2 := do
  let xQ ← Q.mul rom.CURVE_BNX
  let x2Q ← xQ.mul rom.CURVE_BNX
  let xQ ← xQ.neg
  let x2Q ← x2Q.sub xQ
  let x2Q ← x2Q.sub Q
  let xQ ← xQ.sub Q
  let xQ ← xQ.frob X
  let Q ← Q.dbl
  let Q ← Q.frob X
  let Q ← Q.frob X
  let Q ← Q.add x2Q
  Q.add xQ

/-- `ecp2.rs` 572-631 `mapit`. -/
def mapit (h : List UInt8) : Option ECP2 := do
  let x ← BIG.frombytes h
  let x ← x.rmod rom.MODULUS
  let Q ← mapitLoop x
  let X ← FP2.new_bigs rom.FRA rom.FRB
  let X ← X.inverse
  let X ← X.norm
  let Q ← Q.clear X
  Q.affine

end ECP2

end Amcl
