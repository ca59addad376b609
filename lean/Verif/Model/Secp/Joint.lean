import Verif.Model.Secp.Ecp
import Verif.Model.Joint
/-!
# `ECP::mul2` of `amcl/src/secp256k1/ecp.rs`: two scalars at once

As for `mul`, the parts that do not involve `BIG` are the definitions of `Verif.Model.Joint`.
-/

namespace Amcl.Secp

namespace Joint

/-- `ecp.rs` 946-948 (and 949-951): one signed digit of a scalar, and the rest of the scalar. -/
def digit (t : BIG) : Option (Int × BIG) := do
  let (l, t) ← BIG.lastbits t 3
  let a ← i64 (l - 4)
  let t ← BIG.dec t a
  let t ← BIG.norm t
  let t ← BIG.fshr t 2
  return (a, t)

/-- `ecp.rs` 945-954: the joint digits, least significant first, and the last digit `w[nb]`. -/
def digits : Nat → BIG → BIG → Option (List Int × Int)
  | 0, te, tf => do
    let (a, _) ← BIG.lastbits te 3
    let (b, _) ← BIG.lastbits tf 3
    let a4 ← i64 (4 * a)
    let w ← i64 (a4 + b)
    return ([], as8 w)
  | n + 1, te, tf => do
    let (a, te) ← digit te
    let (b, tf) ← digit tf
    let a4 ← i64 (4 * a)
    let w ← i64 (a4 + b)
    let (ws, top) ← digits n te tf
    return (as8 w :: ws, top)

/-- `ecp.rs` 895-966 `mul2`. `none` when the digit array (141 entries) is too small or when the `usize`
subtraction in the first table index underflows. -/
def mul2 {P : Type} (o : PointOps P) (self : P) (e : BIG) (Q : P) (f : BIG) : Option P := do
  let S ← o.dbl Q
  let T ← o.dbl self
  let W ← Amcl.Joint.table o self Q S T
  let (te, ns) ← Window.oddExp e
  let T := o.cmove T self ns
  let (tf, ns) ← Window.oddExp f
  let S := o.cmove S Q ns
  let C ← o.add T S
  let mt ← BIG.add te tf
  let mt ← BIG.norm mt
  let nb := 1 + ((← BIG.nbits mt) + 1) / 2
  if nb + 1 > 141 then none
  let (ws, top) ← digits nb te tf
  if top < 1 then none
  let S ← W[((top - 1) / 2).toNat]?
  let (S, _) ← ws.reverse.foldlM (Amcl.Joint.step o W) (S, T)
  let NC ← o.neg C
  let S ← o.add S NC
  o.affine S

end Joint

/-- `ecp.rs` 895-966 `mul2`. -/
def ECP.mul2 (P : ECP) (e : BIG) (Q : ECP) (f : BIG) : Option ECP := Joint.mul2 ECP.ops P e Q f

end Amcl.Secp
