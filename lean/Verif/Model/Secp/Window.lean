import Verif.Model.Window
import Verif.Model.Secp.Fp
/-!
# The fixed-window scalar multiplication of `amcl/src/secp256k1/ecp.rs`

The text is the one of the directory `bls381`, one line earlier. The parts that do not involve `BIG` (`selector`, `teq`,
the table, a round of the main loop) are the definitions of `Verif.Model.Window`.
-/

namespace Amcl.Secp

namespace Window

/-- `ecp.rs` 861-864: the odd exponent (`e+1` or `e+2`) and the flag `ns`
(1 if `e+1` was odd). -/
def oddExp (e : BIG) : Option (BIG × Int) := do
  let s := e.parity
  let t ← BIG.inc e 1
  let t ← BIG.norm t
  let ns := t.parity
  let mt ← BIG.inc t 1
  let mt ← BIG.norm mt
  return (t.cmove mt s, ns)

/-- `ecp.rs` 871-876: the signed digits, least significant first, and the last
digit `w[nb]`. -/
def digits : Nat → BIG → Option (List Int × Int)
  | 0, t => do
    let (l, _) ← BIG.lastbits t 5
    return ([], as8 l)
  | n + 1, t => do
    let (l, t) ← BIG.lastbits t 5
    let l ← i64 (l - 16)
    let w := as8 l
    let t ← BIG.dec t w
    let t ← BIG.norm t
    let t ← BIG.fshr t 4
    let (ws, top) ← digits n t
    return (w :: ws, top)

/-- `ecp.rs` 837-889. `none` when the digit array (71 entries) is too small or
when the `usize` subtraction in the first table index underflows. -/
def mul {P : Type} (o : PointOps P) (self : P) (e : BIG) : Option P := do
  let Q ← o.dbl self
  let W := self :: (← Amcl.Window.table o Q 7 self)
  let (t, ns) ← oddExp e
  let Q := o.cmove Q self ns
  let C := Q
  let nb := 1 + ((← BIG.nbits t) + 3) / 4
  if nb + 1 > 71 then none
  let (ws, top) ← digits nb t
  if top < 1 then none
  let P0 ← W[((top - 1) / 2).toNat]?
  let (P1, _) ← ws.reverse.foldlM (Amcl.Window.step o W) (P0, Q)
  let NC ← o.neg C
  let P2 ← o.add P1 NC
  o.affine P2

end Window

end Amcl.Secp
