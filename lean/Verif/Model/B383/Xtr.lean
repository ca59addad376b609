import Verif.Model.B383.Fp12
import Verif.Model.BigArith
/-!
# Model of the compressed powers: `fp4.rs` 343-537, `fp12.rs` 456-462 and 584-632
-/

namespace Amcl.B383

namespace FP4

/-- `fp4.rs` 206-209 `imul`. -/
def imul (f : FP4) (c : Int) : Option FP4 := do
  let a ← f.a.imul c
  let b ← f.b.imul c
  return ⟨a, b⟩

/-- `fp4.rs` 343-358 `xtr_a`; `x` is `self`. -/
def xtr_a (x w y z : FP4) : Option FP4 := do
  let r ← w.sub y
  let r ← r.norm
  let r ← r.pmul x.a
  let t ← w.add y
  let t ← t.norm
  let t ← t.pmul x.b
  let t ← t.times_i
  let r ← r.add t
  let r ← r.add z
  r.norm

/-- `fp4.rs` 361-367 `xtr_d`. -/
def xtr_d (x : FP4) : Option FP4 := do
  let s ← x.sqr
  let w ← x.conj
  let w ← w.dbl
  let w ← w.norm
  let s ← s.sub w
  s.reduce

/-- `fp4.rs` 370-407: the variables `self`, `a`, `b`, `c` of the loop of `xtr_pow`. -/
structure Pow where
  s : FP4
  a : FP4
  b : FP4
  c : FP4

/-- `fp4.rs` 386-393: a digit that is not 1. -/
def powZero (q : Pow) : Option Pow := do
  let t := q.b
  let s ← q.s.conj
  let c ← q.c.conj
  let b ← q.b.xtr_a q.a s c
  let s ← s.conj
  let c ← t.xtr_d
  let a ← q.a.xtr_d
  return ⟨s, a, b, c⟩

/-- `fp4.rs` 395-399: a digit that is 1. -/
def powOne (q : Pow) : Option Pow := do
  let t ← q.a.conj
  let a ← q.b.xtr_d
  let b ← q.b.xtr_a q.c q.s t
  let c ← q.c.xtr_d
  return ⟨q.s, a, b, c⟩

/-- `fp4.rs` 384-401: one turn of the loop. -/
def powStep (q : Pow) (d : Int) : Option Pow := if d ≠ 1 then powZero q else powOne q

/-- `fp4.rs` 384-401: the loop over the bits `i - 1, …, 0` of `v`. -/
def xtrLoop (v : BIG) : Nat → Pow → Option Pow
  | 0, q => some q
  | i + 1, q => do
    let d ← v.bit i
    let q ← powStep q d
    xtrLoop v i q

/-- `fp4.rs` 381: `v` is decremented for an even exponent. -/
def halfDown (par : Int) (v : BIG) : Option BIG :=
  if par = 0 then do
    let v ← v.dec 1
    v.norm
  else some v

/-- `fp4.rs` 370-407 `xtr_pow`: the answer. The changes to `self` (conjugated an even number of times) and to `n`
(normalised) are left out; no caller looks at them. -/
def xtr_pow (x : FP4) (n : BIG) : Option FP4 := do
  let a ← new_int 3
  let c ← x.xtr_d
  let n ← n.norm
  let par := n.parity
  let v ← n.fshr 1
  let v ← halfDown par v
  let nb ← v.nbits
  let q ← xtrLoop v nb ⟨x, a, x, c⟩
  reduce (if par = 0 then q.c else q.b)

/-- `fp4.rs` 410-423: the variables of `xtr_pow2`. -/
structure Pow2 where
  d : BIG
  e : BIG
  cu : FP4
  cv : FP4
  cumv : FP4
  cum2v : FP4

/-- `fp4.rs` 424-428: the common factors 2 of `d` and `e`, and their number `f2`. The loop never ends if both are 0,
and then the model answers `none`. -/
def pow2Even (d e : BIG) (f2 : Nat) : Option (BIG × BIG × Nat) := do
  if d.parity = 0 ∧ e.parity = 0 then
    let d ← d.fshr 1
    let e ← e.fshr 1
    pow2Even d e (f2 + 1)
  else return (d, e, f2)
partial_fixpoint

/-- `fp4.rs` 434-443: `e < d ≤ 4e`. -/
def pow2A1 (q : Pow2) : Option Pow2 := do
  let e ← q.e.rsub q.d
  let e ← e.norm
  let t ← q.cv.xtr_a q.cu q.cumv q.cum2v
  let cum2v ← q.cumv.conj
  return ⟨q.e, e, t, q.cu, q.cv, cum2v⟩

/-- `fp4.rs` 446-453 and 519-526: `d` halved. -/
def pow2A2 (q : Pow2) : Option Pow2 := do
  let d ← q.d.fshr 1
  let r ← q.cum2v.conj
  let t ← q.cumv.xtr_a q.cu q.cv r
  let cum2v ← q.cumv.xtr_d
  let cu ← q.cu.xtr_d
  return ⟨d, q.e, cu, q.cv, t, cum2v⟩

/-- `fp4.rs` 456-464: `d` and `e` odd. -/
def pow2A3 (q : Pow2) : Option Pow2 := do
  let d ← q.d.sub q.e
  let d ← d.norm
  let d ← d.fshr 1
  let t ← q.cv.xtr_a q.cu q.cumv q.cum2v
  let cu ← q.cu.xtr_d
  let cum2v ← q.cv.xtr_d
  let cum2v ← cum2v.conj
  return ⟨d, q.e, cu, t, q.cumv, cum2v⟩

/-- `fp4.rs` 466-476 and 492-502: `e` halved, and the two exchanged. -/
def swap2 (q : Pow2) (d e : BIG) : Option Pow2 := do
  let d ← d.fshr 1
  let t ← q.cumv.xtr_d
  let cumv ← q.cum2v.conj
  let cum2v ← t.conj
  let t ← q.cv.xtr_d
  return ⟨d, e, t, q.cu, cumv, cum2v⟩

/-- `fp4.rs` 484-489: `d < e ≤ 4d`. -/
def pow2B1 (q : Pow2) : Option Pow2 := do
  let e ← q.e.sub q.d
  let e ← e.norm
  let t ← q.cv.xtr_a q.cu q.cumv q.cum2v
  return ⟨q.d, e, t, q.cv, q.cu, q.cumv⟩

/-- `fp4.rs` 505-517: `d` and `e` odd. -/
def pow2B3 (q : Pow2) : Option Pow2 := do
  let w ← q.e.sub q.d
  let w ← w.norm
  let d ← w.fshr 1
  let t ← q.cv.xtr_a q.cu q.cumv q.cum2v
  let cumv ← q.cumv.conj
  let cum2v ← q.cu.xtr_d
  let cum2v ← cum2v.conj
  let cu ← q.cv.xtr_d
  return ⟨d, q.d, cu, t, cumv, cum2v⟩

/-- `fp4.rs` 445-478: `d > 4e`. -/
def pow2Far (q : Pow2) : Option Pow2 :=
  if q.d.parity = 0 then pow2A2 q else if q.e.parity = 1 then pow2A3 q else swap2 q q.e q.d

/-- `fp4.rs` 491-528: `e > 4d`. -/
def pow2Far' (q : Pow2) : Option Pow2 :=
  if q.e.parity = 0 then swap2 q q.e q.d else if q.d.parity = 1 then pow2B3 q else pow2A2 q

/-- `fp4.rs` 431-480: `d > e`. -/
def pow2Gt (q : Pow2) : Option Pow2 := do
  let w ← q.e.imul 4
  let w ← w.norm
  if BIG.comp q.d w ≤ 0 then pow2A1 q else pow2Far q

/-- `fp4.rs` 481-530: `d < e`. -/
def pow2Lt (q : Pow2) : Option Pow2 := do
  let w ← q.d.imul 4
  let w ← w.norm
  if BIG.comp q.e w ≤ 0 then pow2B1 q else pow2Far' q

/-- `fp4.rs` 431: the first `if`. -/
def pow2IfGt (q : Pow2) : Option Pow2 := if BIG.comp q.d q.e > 0 then pow2Gt q else some q

/-- `fp4.rs` 481: the second `if`. -/
def pow2IfLt (q : Pow2) : Option Pow2 := if BIG.comp q.d q.e < 0 then pow2Lt q else some q

/-- `fp4.rs` 430-531: the main loop. It never ends if just one of `d` and `e` is 0, and then the model answers `none`. -/
def pow2Loop (q : Pow2) : Option Pow2 := do
  if BIG.comp q.d q.e ≠ 0 then
    let q ← pow2IfGt q
    let q ← pow2IfLt q
    pow2Loop q
  else return q
partial_fixpoint

/-- `fp4.rs` 534: `xtr_d` `n` times. -/
def xtrDs : Nat → FP4 → Option FP4
  | 0, x => some x
  | n + 1, x => do
    let x ← x.xtr_d
    xtrDs n x

/-- `fp4.rs` 410-537 `xtr_pow2`: the answer. `a` and `b` are normalised in place, which no caller looks at. -/
def xtr_pow2 (x ck ckml ckm2l : FP4) (a b : BIG) : Option FP4 := do
  let e ← a.norm
  let d ← b.norm
  let (d, e, f2) ← pow2Even d e 0
  let q ← pow2Loop ⟨d, e, ck, x, ckml, ckm2l⟩
  let r ← q.cv.xtr_a q.cu q.cumv q.cum2v
  let r ← xtrDs f2 r
  r.xtr_pow q.d

end FP4

namespace FP12

/-- `fp12.rs` 456-462 `trace`. -/
def trace (f : FP12) : Option FP4 := do
  let t ← f.a.imul 3
  t.reduce

/-- `fp12.rs` 589-592: one bit of `pinpow`. -/
def pinStep (b : Int) (r : FP12 × FP12) : Option (FP12 × FP12) :=
  if b = 0 then do
    let s ← r.2.mul r.1
    let t ← r.1.usqr
    return (t, s)
  else do
    let t ← r.1.mul r.2
    let s ← r.2.usqr
    return (t, s)

/-- `fp12.rs` 588-593: the bits `i - 1, …, 0` of the `i32` `e`; the shift is arithmetic. -/
def pinLoop (e : Int) : Nat → FP12 × FP12 → Option (FP12 × FP12)
  | 0, r => some r
  | i + 1, r => do
    let r ← pinStep (e / 2 ^ i % 2) r
    pinLoop e i r

/-- `fp12.rs` 584-595 `pinpow`; no overflow check is needed for `e >> i` since `bts ≤ 32`, or else the program panics. -/
def pinpow (f : FP12) (e : Int) (bts : Nat) : Option FP12 := do
  let one ← new_int 1
  if bts ≤ 32 then
    let r ← pinLoop e bts (one, f)
    return r.1
  else none

/-- `fp12.rs` 621-631: `compow` with a high part that is not 0. -/
def compowHigh (f : FP12) (fr : FP2) (c : FP4) (a b : BIG) : Option FP4 := do
  let g2 ← f.frob fr
  let cp ← g2.trace
  let g1 ← f.conj
  let g2 ← g2.mul g1
  let cpm1 ← g2.trace
  let g2 ← g2.mul g1
  let cpm2 ← g2.trace
  c.xtr_pow2 cp cpm1 cpm2 a b

/-- `fp12.rs` 597-632 `compow`. -/
def compow (f : FP12) (e r : BIG) : Option FP4 := do
  let fr ← FP2.new_bigs rom.FRA rom.FRB
  let m ← rom.MODULUS.rmod r
  let a ← e.rmod m
  let b ← e.div m
  let c ← f.trace
  if b.iszilch then c.xtr_pow a else compowHigh f fr c a b

end FP12

end Amcl.B383
