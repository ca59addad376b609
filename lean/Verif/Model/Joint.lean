import Verif.Model.Ecp
import Verif.Model.Ecp2
import Verif.Model.Fp12
/-!
# Multiplication by several scalars at once

`ECP::mul2` (two scalars, signed windows) and the method of `ECP2::mul4` and `FP12::pow4` (four
scalars, sign-aligned recoding). The last two contain the same text over two types, with `add`, `dbl`,
`neg` in one and `mul`, `usqr`, `conj` in the other; they are modelled once, over the operations.
-/

namespace Amcl

/-- Result of an `i8` operation, `none` on overflow. -/
def i8 (x : Int) : Option Int := if -2 ^ 7 ≤ x ∧ x < 2 ^ 7 then some x else none

/-- `big.rs` 307-311 `or`. -/
def BIG.or (a r : BIG) : BIG :=
  ⟨or64 a.w0 r.w0, or64 a.w1 r.w1, or64 a.w2 r.w2, or64 a.w3 r.w3, or64 a.w4 r.w4, or64 a.w5 r.w5,
   or64 a.w6 r.w6⟩

namespace Joint

/-! ### Two scalars -/

/-- `ecp.rs` 947-949 (and 950-952): one signed digit of a scalar, and the rest of the scalar. -/
def digit (t : BIG) : Option (Int × BIG) := do
  let (l, t) ← BIG.lastbits t 3
  let a ← i64 (l - 4)
  let t ← BIG.dec t a
  let t ← BIG.norm t
  let t ← BIG.fshr t 2
  return (a, t)

/-- `ecp.rs` 946-955: the joint digits, least significant first, and the last digit `w[nb]`. -/
def digits : Nat → BIG → BIG → Option (List Int × Int)
  | 0, te, tf => do
    let (a, _) ← BIG.lastbits te 3
    let (b, _) ← BIG.lastbits tf 3
    let a4 ← i64 (4 * a)
    let w ← i64 (a4 + b)
    return ([], as8 w)
  | n + 1, te, tf => do
    let (a, te) ← digit te
    let (b, tf) ← digit tf
    let a4 ← i64 (4 * a)
    let w ← i64 (a4 + b)
    let (ws, top) ← digits n te tf
    return (as8 w :: ws, top)

/-- `ecp.rs` 959-962: one round of the main loop on `(S, T)`. -/
def step {P : Type} (o : PointOps P) (W : List P) (st : P × P) (w : Int) : Option (P × P) := do
  let t ← Window.selector o W st.2 w
  let s ← o.dbl st.1
  let s ← o.dbl s
  let s ← o.add s t
  return (s, t)

/-- `ecp.rs` 917-926: the table, with `S = 2Q` and `T = 2P`. -/
def table {P : Type} (o : PointOps P) (self Q S T : P) : Option (List P) := do
  let NQ ← o.neg Q
  let NS ← o.neg S
  let W1 ← o.add self NQ
  let W2 ← o.add self Q
  let W0 ← o.add W1 NS
  let W3 ← o.add W2 S
  let W5 ← o.add W1 T
  let W6 ← o.add W2 T
  let W4 ← o.add W5 NS
  let W7 ← o.add W6 S
  return [W0, W1, W2, W3, W4, W5, W6, W7]

/-- `ecp.rs` 896-967 `mul2`. `none` when the digit array (204 entries) is too small or when the `usize`
subtraction in the first table index underflows. -/
def mul2 {P : Type} (o : PointOps P) (self : P) (e : BIG) (Q : P) (f : BIG) : Option P := do
  let S ← o.dbl Q
  let T ← o.dbl self
  let W ← table o self Q S T
  let (te, ns) ← Window.oddExp e
  let T := o.cmove T self ns
  let (tf, ns) ← Window.oddExp f
  let S := o.cmove S Q ns
  let C ← o.add T S
  let mt ← BIG.add te tf
  let mt ← BIG.norm mt
  let nb := 1 + ((← BIG.nbits mt) + 1) / 2
  if nb + 1 > 204 then none
  let (ws, top) ← digits nb te tf
  if top < 1 then none
  let S ← W[((top - 1) / 2).toNat]?
  let (S, _) ← ws.reverse.foldlM (step o W) (S, T)
  let NC ← o.neg C
  let S ← o.add S NC
  o.affine S

/-! ### Four scalars -/

/-- `ecp2.rs` 507-514, `fp12.rs` 655-662: the table of the eight sums of `q0` and a subset of
`q1, q2, q3`. -/
def sums {P : Type} (o : PointOps P) (q0 q1 q2 q3 : P) : Option (List P) := do
  let T1 ← o.add q0 q1
  let T2 ← o.add q0 q2
  let T3 ← o.add T1 q2
  let T4 ← o.add q0 q3
  let T5 ← o.add T1 q3
  let T6 ← o.add T2 q3
  let T7 ← o.add T3 q3
  return [q0, T1, T2, T3, T4, T5, T6, T7]

/-- `ecp2.rs` 532-536, `fp12.rs` 680-684: the next `n` signs. -/
def signs : Nat → BIG → Option (List Int)
  | 0, _ => some []
  | n + 1, t => do
    let t ← BIG.fshr t 1
    let b ← i64 (2 * t.parity)
    let b ← i64 (b - 1)
    return as8 b :: (← signs n t)

/-- `ecp2.rs` 543-546, `fp12.rs` 691-694: the signed bit of one scalar, and the rest of the scalar. -/
def signedBit (s : Int) (t : BIG) : Option (Int × BIG) := do
  let bt ← i8 (s * as8 t.parity)
  let t ← BIG.fshr t 1
  let t ← BIG.dec t (sar bt 1)
  let t ← BIG.norm t
  return (bt, t)

/-- `ecp2.rs` 539-550, `fp12.rs` 687-698: the recoded exponent. -/
def recode : List Int → BIG → BIG → BIG → Option (List Int)
  | [], _, _, _ => some []
  | s :: ss, t1, t2, t3 => do
    let (b1, t1) ← signedBit s t1
    let w ← i8 (b1 * 1)
    let (b2, t2) ← signedBit s t2
    let b2 ← i8 (b2 * 2)
    let w ← i8 (w + b2)
    let (b3, t3) ← signedBit s t3
    let b3 ← i8 (b3 * 4)
    let w ← i8 (w + b3)
    return w :: (← recode ss t1 t2 t3)

/-- `ecp2.rs` 556-558, `fp12.rs` 703-705: one round of the main loop on `(P, W)`. -/
def step4 {P : Type} (o : PointOps P) (T : List P) (pw : P × P) (ws : Int × Int) : Option (P × P) := do
  let p ← o.dbl pw.1
  let i ← i8 (2 * ws.1)
  let i ← i8 (i + ws.2)
  let w ← Window.selector o T pw.2 i
  let p ← o.add p w
  return (p, w)

/-- `ecp2.rs` 517-519, `fp12.rs` 666-668: `t0` made odd, and the flag `pb`. -/
def makeOdd (t0 : BIG) : Option (BIG × Int) := do
  let pb ← i64 (1 - t0.parity)
  let t0 ← BIG.inc t0 pb
  let t0 ← BIG.norm t0
  return (t0, pb)

/-- `ecp2.rs` 522-559, `fp12.rs` 671-706, from the table, the odd `t0` and the starting values of the
two accumulators. `none` when the digit arrays (407 entries) are too small. The signs are put most
significant last; the last one is 1. -/
def run4 {P : Type} (o : PointOps P) (T : List P) (p w : P) (t0 t1 t2 t3 : BIG) : Option P := do
  let mt := (((BIG.new.or t0).or t1).or t2).or t3
  let nb ← BIG.nbits mt
  if nb + 1 > 407 then none
  let ss := (← signs nb t0) ++ [1]
  let ws ← recode ss t1 t2 t3
  match (ws.zip ss).reverse with
  | [] => none
  | (top, _) :: rest => do
    let i ← i8 (2 * top)
    let i ← i8 (i + 1)
    let p ← Window.selector o T p i
    let (p, _) ← rest.foldlM (step4 o T) (p, w)
    return p

end Joint

/-- `ecp.rs` 896-967 `mul2`. -/
def ECP.mul2 (P : ECP) (e : BIG) (Q : ECP) (f : BIG) : Option ECP := Joint.mul2 ECP.ops P e Q f

/-- `ecp2.rs` 488-568 `mul4`. -/
def ECP2.mul4 (q0 q1 q2 q3 : ECP2) (u0 u1 u2 u3 : BIG) : Option ECP2 := do
  let q0 ← q0.affine
  let t0 ← BIG.norm u0
  let q1 ← q1.affine
  let t1 ← BIG.norm u1
  let q2 ← q2.affine
  let t2 ← BIG.norm u2
  let q3 ← q3.affine
  let t3 ← BIG.norm u3
  let T ← Joint.sums ECP2.ops q0 q1 q2 q3
  let W ← T[3]?
  let (t0, pb) ← Joint.makeOdd t0
  let P ← ECP2.new
  let P ← Joint.run4 ECP2.ops T P W t0 t1 t2 t3
  let W ← P.sub q0
  let P := P.cmove W pb
  P.affine

end Amcl
