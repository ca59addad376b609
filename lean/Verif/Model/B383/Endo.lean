import Verif.Model.Joint
import Verif.Model.BigArith
import Verif.Model.B383.Pair
/-!
# Multiplication with endomorphisms

`pair.rs` 486-682: `glv`, `gs`, `g1mul`, `g2mul` and `gtpow`, with the functions of `ecp.rs`, `ecp2.rs`
and `fp12.rs` that only they call. For this curve `USE_GLV`, `USE_GS_G2` and `USE_GS_GT` are `true`
(`rom.rs` 52-54), the pairing type is `BLS`, `SIGN_OF_X` is `POSITIVEX` and the twist is `M_TYPE`; only
these branches are modelled.
-/

namespace Amcl.B383

/-- `ecp.rs` 895-966 `mul2`. -/
def ECP.mul2 (P : ECP) (e : BIG) (Q : ECP) (f : BIG) : Option ECP := Joint.mul2 ECP.ops P e Q f

/-- `ecp2.rs` 487-567 `mul4`. -/
def ECP2.mul4 (q0 q1 q2 q3 : ECP2) (u0 u1 u2 u3 : BIG) : Option ECP2 := do
  let q0 ← q0.affine
  let t0 ← BIG.norm u0
  let q1 ← q1.affine
  let t1 ← BIG.norm u1
  let q2 ← q2.affine
  let t2 ← BIG.norm u2
  let q3 ← q3.affine
  let t3 ← BIG.norm u3
  let T ← Joint.sums ECP2.ops q0 q1 q2 q3
  let W ← T[3]?
  let (t0, pb) ← Joint.makeOdd t0
  let P ← ECP2.new
  let P ← Joint.run4 ECP2.ops T P W t0 t1 t2 t3
  let W ← P.sub q0
  let P := P.cmove W pb
  P.affine

/-- `ecp.rs` 246-248 `mulx`. -/
def ECP.mulx (P : ECP) (c : FP) : Option ECP := do return ⟨← P.x.mul c, P.y, P.z⟩

/-- `ecp2.rs` 406-417 `frob`. -/
def ECP2.frob (P : ECP2) (x : FP2) : Option ECP2 := do
  let x2 ← x.sqr
  let px ← P.x.conj
  let py ← P.y.conj
  let pz ← P.z.conj
  let pz ← pz.reduce
  let px ← px.mul x2
  let py ← py.mul x2
  let py ← py.mul x
  return ⟨px, py, pz⟩

/-- `fp12.rs` 97-101 `cmove`, with `fp4.rs` 79-82 `cmove`. -/
def FP12.cmove (f g : FP12) (d : Int) : FP12 :=
  ⟨⟨f.a.a.cmove g.a.a d, f.a.b.cmove g.a.b d⟩, ⟨f.b.a.cmove g.b.a d, f.b.b.cmove g.b.b d⟩,
   ⟨f.c.a.cmove g.c.a d, f.c.b.cmove g.c.b d⟩⟩

/-- The operations that `pow4` (`fp12.rs` 638-714) and its `selector` (`fp12.rs` 111-129) use; there is
no `affine`. -/
def FP12.ops : PointOps FP12 := ⟨FP12.mul, FP12.usqr, FP12.conj, FP12.cmove, fun _ => none⟩

/-- `fp12.rs` 638-714 `pow4`. -/
def FP12.pow4 (q0 q1 q2 q3 : FP12) (u0 u1 u2 u3 : BIG) : Option FP12 := do
  let t0 ← BIG.norm u0
  let t1 ← BIG.norm u1
  let t2 ← BIG.norm u2
  let t3 ← BIG.norm u3
  let g ← Joint.sums FP12.ops q0 q1 q2 q3
  let r ← g[3]?
  let (t0, pb) ← Joint.makeOdd t0
  let p ← Joint.run4 FP12.ops g FP12.new r t0 t1 t2 t3
  let r ← q0.conj
  let r ← r.mul p
  let p := p.cmove r pb
  p.reduce

namespace pair

/-- `pair.rs` 487-520 `glv` (the branch for curves other than `BN`). -/
def glv (e : BIG) : Option (BIG × BIG) := do
  let q := rom.CURVE_ORDER
  let x := rom.CURVE_BNX
  let x2 ← BIG.smul x x
  let u0 ← BIG.rmod e x2
  let u1 ← BIG.div e x2
  let u1 ← BIG.rsub u1 q
  return (u0, u1)

/-- `pair.rs` 524-565 `gs` (the branch for curves other than `BN`). -/
def gs (e : BIG) : Option (BIG × BIG × BIG × BIG) := do
  let x := rom.CURVE_BNX
  let w := e
  let u0 ← BIG.rmod w x
  let w ← BIG.div w x
  let u1 ← BIG.rmod w x
  let w ← BIG.div w x
  let u2 ← BIG.rmod w x
  let w ← BIG.div w x
  let u3 := w
  return (u0, u1, u2, u3)

/-- `pair.rs` 581-587 (and 589-595, 631-637, 668-674), with the `norm` that follows (596, 597, 638, 675): take the negative of the scalar and of the point
if that scalar is shorter. `modneg` reduces `u` in place. -/
def shorter {P : Type} (neg : P → Option P) (u : BIG) (R : P) : Option (BIG × P) := do
  let np ← BIG.nbits u
  let (t, u) ← BIG.modneg u rom.CURVE_ORDER
  let nn ← BIG.nbits t
  if nn < np then
    let R ← neg R
    return (← BIG.norm t, R)
  else
    return (← BIG.norm u, R)

/-- `pair.rs` 569-604 `g1mul`. -/
def g1mul (P : ECP) (e : BIG) : Option ECP := do
  let cru ← FP.new_big rom.CURVE_CRU
  let (u0, u1) ← glv e
  let Q ← P.mulx cru
  let (u0, R) ← shorter ECP.neg u0 P
  let (u1, Q) ← shorter ECP.neg u1 Q
  R.mul2 u0 Q u1

/-- `pair.rs` 608-647 `g2mul`. -/
def g2mul (P : ECP2) (e : BIG) : Option ECP2 := do
  let f ← FP2.new_bigs rom.FRA rom.FRB
  let (u0, u1, u2, u3) ← gs e
  let f ← f.inverse
  let f ← f.norm
  let Q0 := P
  let Q1 ← Q0.frob f
  let Q2 ← Q1.frob f
  let Q3 ← Q2.frob f
  let (u0, Q0) ← shorter ECP2.neg u0 Q0
  let (u1, Q1) ← shorter ECP2.neg u1 Q1
  let (u2, Q2) ← shorter ECP2.neg u2 Q2
  let (u3, Q3) ← shorter ECP2.neg u3 Q3
  ECP2.mul4 Q0 Q1 Q2 Q3 u0 u1 u2 u3

/-- `pair.rs` 651-682 `gtpow`. -/
def gtpow (d : FP12) (e : BIG) : Option FP12 := do
  let f ← FP2.new_bigs rom.FRA rom.FRB
  let (u0, u1, u2, u3) ← gs e
  let g0 := d
  let g1 ← g0.frob f
  let g2 ← g1.frob f
  let g3 ← g2.frob f
  let (u0, g0) ← shorter FP12.conj u0 g0
  let (u1, g1) ← shorter FP12.conj u1 g1
  let (u2, g2) ← shorter FP12.conj u2 g2
  let (u3, g3) ← shorter FP12.conj u3 g3
  FP12.pow4 g0 g1 g2 g3 u0 u1 u2 u3

end pair

end Amcl.B383
