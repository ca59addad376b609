import Verif.Model.B383.Fp4
/-!
# Model of `amcl/src/bls383/fp12.rs`

`FP12` is `a + b W + c W²` with `W³ = V`.
-/

namespace Amcl.B383

/-- `fp12.rs` 28-32. -/
@[ext] structure FP12 where
  a : FP4
  b : FP4
  c : FP4
deriving DecidableEq, Repr

namespace FP12

/-- `fp12.rs` 36-42 `new`. -/
def new : FP12 := ⟨FP4.new, FP4.new, FP4.new⟩

/-- `fp12.rs` 44-50 `new_int`. -/
def new_int (a : Int) : Option FP12 := do return ⟨← FP4.new_int a, FP4.new, FP4.new⟩

/-- `fp12.rs` 77-81 `reduce`. -/
def reduce (f : FP12) : Option FP12 := do
  let a ← f.a.reduce
  let b ← f.b.reduce
  let c ← f.c.reduce
  return ⟨a, b, c⟩

/-- `fp12.rs` 84-88 `norm`. -/
def norm (f : FP12) : Option FP12 := do
  let a ← f.a.norm
  let b ← f.b.norm
  let c ← f.c.norm
  return ⟨a, b, c⟩

/-- `fp12.rs` 139-141 `equals` with short-circuit `&&`. -/
def equals (f x : FP12) : Option Bool := do
  if ← f.a.equals x.a then
    if ← f.b.equals x.b then f.c.equals x.c else return false
  else return false

/-- `fp12.rs` 173-177 `conj`. -/
def conj (f : FP12) : Option FP12 := do
  let a ← f.a.conj
  let b ← f.b.nconj
  let c ← f.c.conj
  return ⟨a, b, c⟩

/-- `fp12.rs` 180-216 `usqr`. -/
def usqr (f : FP12) : Option FP12 := do
  let a := f.a
  let b := f.c
  let c := f.b
  let sa ← f.a.sqr
  let d ← sa.add sa
  let sa ← sa.add d
  let sa ← sa.norm
  let a ← a.nconj
  let a ← a.dbl
  let sa ← sa.add a
  let b ← b.sqr
  let b ← b.times_i
  let d ← b.add b
  let b ← b.add d
  let b ← b.norm
  let c ← c.sqr
  let d ← c.add c
  let c ← c.add d
  let c ← c.norm
  let sb ← f.b.conj
  let sb ← sb.dbl
  let sc ← f.c.nconj
  let sc ← sc.dbl
  let sb ← sb.add b
  let sc ← sc.add c
  reduce ⟨sa, sb, sc⟩

/-- `fp12.rs` 219-252 `sqr`. -/
def sqr (f : FP12) : Option FP12 := do
  let a ← f.a.sqr
  let b ← f.b.mul f.c
  let b ← b.dbl
  let b ← b.norm
  let c ← f.c.sqr
  let d ← f.a.mul f.b
  let d ← d.dbl
  let sc ← f.c.add f.a
  let sc ← sc.add f.b
  let sc ← sc.norm
  let sc ← sc.sqr
  let sa := a
  let a ← a.add b
  let a ← a.norm
  let a ← a.add c
  let a ← a.add d
  let a ← a.norm
  let a ← a.neg
  let b ← b.times_i
  let c ← c.times_i
  let sa ← sa.add b
  let sb ← c.add d
  let sc ← sc.add a
  norm ⟨sa, sb, sc⟩

/-- `fp12.rs` 256-308 `mul`. -/
def mul (f y : FP12) : Option FP12 := do
  let z0 ← f.a.mul y.a
  let z2 ← f.b.mul y.b
  let t0 ← f.a.add f.b
  let t1 ← y.a.add y.b
  let t0 ← t0.norm
  let t1 ← t1.norm
  let z1 ← t0.mul t1
  let t0 ← f.b.add f.c
  let t1 ← y.b.add y.c
  let t0 ← t0.norm
  let t1 ← t1.norm
  let z3 ← t0.mul t1
  let t0 ← z0.neg
  let t1 ← z2.neg
  let z1 ← z1.add t0
  let sb ← z1.add t1
  let z3 ← z3.add t1
  let z2 ← z2.add t0
  let t0 ← f.a.add f.c
  let t0 ← t0.norm
  let t1 ← y.a.add y.c
  let t1 ← t1.norm
  let t0 ← t0.mul t1
  let z2 ← z2.add t0
  let t0 ← f.c.mul y.c
  let t1 ← t0.neg
  let sc ← z2.add t1
  let z3 ← z3.add t1
  let t0 ← t0.times_i
  let sb ← sb.add t0
  let z3 ← z3.norm
  let z3 ← z3.times_i
  let sa ← z0.add z3
  norm ⟨sa, sb, sc⟩

/-- `fp12.rs` 311, 350-400 `smul` (the `M_TYPE` branch). -/
def smul (f y : FP12) : Option FP12 := do
  let z0 ← f.a.mul y.a
  let t0 ← f.a.add f.b
  let t0 ← t0.norm
  let z1 ← t0.mul y.a
  let t0 ← f.b.add f.c
  let t0 ← t0.norm
  let z3 ← t0.pmul y.c.b
  let z3 ← z3.times_i
  let t0 ← z0.neg
  let z1 ← z1.add t0
  let sb := z1
  let z2 := t0
  let t0 ← f.a.add f.c
  let t1 ← y.a.add y.c
  let t0 ← t0.norm
  let t1 ← t1.norm
  let t0 ← t0.mul t1
  let z2 ← z2.add t0
  let t0 ← f.c.pmul y.c.b
  let t0 ← t0.times_i
  let t1 ← t0.neg
  let sc ← z2.add t1
  let z3 ← z3.add t1
  let t0 ← t0.times_i
  let sb ← sb.add t0
  let z3 ← z3.norm
  let z3 ← z3.times_i
  let sa ← z0.add z3
  norm ⟨sa, sb, sc⟩

/-- `fp12.rs` 404-437 `inverse`. `f0`, `f1`, `f2` are copied before `self.norm()`. -/
def inverse (f : FP12) : Option FP12 := do
  let f0 := f.a
  let f1 := f.b
  let f2 := f.a
  let f ← norm f
  let f0 ← f0.sqr
  let f1 ← f1.mul f.c
  let f1 ← f1.times_i
  let f0 ← f0.sub f1
  let f0 ← f0.norm
  let f1 ← f.c.sqr
  let f1 ← f1.times_i
  let f2 ← f2.mul f.b
  let f1 ← f1.sub f2
  let f1 ← f1.norm
  let f2 ← f.b.sqr
  let f3 ← f.a.mul f.c
  let f2 ← f2.sub f3
  let f2 ← f2.norm
  let f3 ← f.b.mul f2
  let f3 ← f3.times_i
  let sa ← f.a.mul f0
  let f3 ← f3.add sa
  let sc ← f.c.mul f1
  let sc ← sc.times_i
  let f3 ← f3.add sc
  let f3 ← f3.norm
  let f3 ← f3.inverse
  let a ← f0.mul f3
  let b ← f1.mul f3
  let c ← f2.mul f3
  return ⟨a, b, c⟩

/-- `fp12.rs` 440-453 `frob`. -/
def frob (f : FP12) (x : FP2) : Option FP12 := do
  let f2 ← x.sqr
  let f3 ← x.mul f2
  let a ← f.a.frob f3
  let b ← f.b.frob f3
  let c ← f.c.frob f3
  let b ← b.pmul x
  let c ← c.pmul f2
  return ⟨a, b, c⟩

/-- `fp12.rs` 568-577: the loop of `pow` for the bits `i, …, 1`, on the accumulator `w` and the base
`r` (which the two calls of `conj` re-represent). -/
def powLoop (e3 e1 : BIG) : Nat → FP12 → FP12 → Option FP12
  | 0, w, _ => some w
  | i + 1, w, r => do
    let w ← usqr w
    let b3 ← e3.bit (i + 1)
    let b1 ← e1.bit (i + 1)
    if b3 - b1 = 1 then
      let w ← mul w r
      powLoop e3 e1 i w r
    else if b3 - b1 = -1 then
      let r ← conj r
      let w ← mul w r
      let r ← conj r
      powLoop e3 e1 i w r
    else powLoop e3 e1 i w r

/-- `fp12.rs` 557-581 `pow`; `none` when `nb-1` underflows. -/
def pow (f : FP12) (e : BIG) : Option FP12 := do
  let r ← norm f
  let e1 ← e.norm
  let e3 ← e1.pmul 3
  let e3 ← e3.norm
  let nb ← e3.nbits
  if nb = 0 then none
  let w ← powLoop e3 e1 (nb - 2) r r
  reduce w

end FP12

end Amcl.B383
