import Verif.Model.Big
/-!
# The fixed-window scalar multiplication shared by `ECP::mul` and `ECP2::mul`

`ecp.rs` 837-890 and `ecp2.rs` 421-480 contain the same text over two point types, as do the two
`selector` and `teq` functions. They are modelled once, over the operations of the point type.
-/

namespace Amcl

/-- The point operations used by `selector` and the window loop. -/
structure PointOps (P : Type) where
  add : P → P → Option P
  dbl : P → Option P
  neg : P → Option P
  cmove : P → P → Int → P
  affine : P → Option P

namespace Window

/-- `ecp.rs` 221-225, `ecp2.rs` 121-125 `teq`. -/
def teq (b c : Int) : Option Int := do
  let x ← i32 (xor32 b c - 1)
  return and32 (sar x 31) 1

/-- `ecp.rs` 259-266, `ecp2.rs` 135-142: the eight conditional moves, over the table `W` from entry
`k` on. -/
def select {P : Type} (o : PointOps P) (babs : Int) : Int → List P → P → Option P
  | _, [], q => some q
  | k, w :: ws, q => do
    let d ← teq babs k
    select o babs (k + 1) ws (o.cmove q w d)

/-- `ecp.rs` 252-271, `ecp2.rs` 128-147 `selector`. -/
def selector {P : Type} (o : PointOps P) (W : List P) (q : P) (b : Int) : Option P := do
  let m := sar b 31
  let babs ← i32 (xor32 b m - m)
  let babs ← i32 (babs - 1)
  let babs := Int.tdiv babs 2
  let q ← select o babs 0 W q
  let mp ← o.neg q
  return o.cmove q mp (and32 m 1)

/-- `ecp.rs` 855-859, `ecp2.rs` 444-448: `n` further table entries, each the previous one plus `Q`. -/
def table {P : Type} (o : PointOps P) (Q : P) : Nat → P → Option (List P)
  | 0, _ => some []
  | n + 1, c => do
    let c' ← o.add c Q
    return c' :: (← table o Q n c')

/-- `ecp.rs` 862-865, `ecp2.rs` 451-454: the odd exponent (`e+1` or `e+2`) and the flag `ns`
(1 if `e+1` was odd). -/
def oddExp (e : BIG) : Option (BIG × Int) := do
  let s := e.parity
  let t ← BIG.inc e 1
  let t ← BIG.norm t
  let ns := t.parity
  let mt ← BIG.inc t 1
  let mt ← BIG.norm mt
  return (t.cmove mt s, ns)

/-- `ecp.rs` 872-877, `ecp2.rs` 461-466: the signed digits, least significant first, and the last
digit `w[nb]`. -/
def digits : Nat → BIG → Option (List Int × Int)
  | 0, t => do
    let (l, _) ← BIG.lastbits t 5
    return ([], as8 l)
  | n + 1, t => do
    let (l, t) ← BIG.lastbits t 5
    let l ← i64 (l - 16)
    let w := as8 l
    let t ← BIG.dec t w
    let t ← BIG.norm t
    let t ← BIG.fshr t 4
    let (ws, top) ← digits n t
    return (w :: ws, top)

/-- `ecp.rs` 881-886, `ecp2.rs` 470-475: one round of the main loop on `(P, Q)`. -/
def step {P : Type} (o : PointOps P) (W : List P) (pq : P × P) (w : Int) : Option (P × P) := do
  let q ← selector o W pq.2 w
  let p ← o.dbl pq.1
  let p ← o.dbl p
  let p ← o.dbl p
  let p ← o.dbl p
  let p ← o.add p q
  return (p, q)

/-- `ecp.rs` 837-890, `ecp2.rs` 431-478. `none` when the digit array (103 entries) is too small or
when the `usize` subtraction in the first table index underflows. -/
def mul {P : Type} (o : PointOps P) (self : P) (e : BIG) : Option P := do
  let Q ← o.dbl self
  let W := self :: (← table o Q 7 self)
  let (t, ns) ← oddExp e
  let Q := o.cmove Q self ns
  let C := Q
  let nb := 1 + ((← BIG.nbits t) + 3) / 4
  if nb + 1 > 103 then none
  let (ws, top) ← digits nb t
  if top < 1 then none
  let P0 ← W[((top - 1) / 2).toNat]?
  let (P1, _) ← ws.reverse.foldlM (step o W) (P0, Q)
  let NC ← o.neg C
  let P2 ← o.add P1 NC
  o.affine P2

end Window

end Amcl
