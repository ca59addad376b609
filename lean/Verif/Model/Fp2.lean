import Verif.Model.Fp
/-!
# Model of `amcl/src/bls381/fp2.rs`

`FP2` is `a + i b` with `i² = -1`.
-/

namespace Amcl

/-- `fp2.rs` 26-29. -/
@[ext] structure FP2 where
  a : FP
  b : FP
deriving DecidableEq, Repr

namespace FP2

/-- `fp2.rs` 34-39 `new`. -/
def new : FP2 := ⟨FP.new, FP.new⟩

/-- `fp2.rs` 41-46 `new_int`. -/
def new_int (a : Int) : Option FP2 := do return ⟨← FP.new_int a, FP.new⟩

/-- `fp2.rs` 62-67 `new_bigs`. -/
def new_bigs (c d : BIG) : Option FP2 := do
  let a ← FP.new_big c
  let b ← FP.new_big d
  return ⟨a, b⟩

/-- `fp2.rs` 69-74 `new_fp`. -/
def new_fp (c : FP) : FP2 := ⟨c, FP.new⟩

/-- `fp2.rs` 76-81 `new_big`. -/
def new_big (c : BIG) : Option FP2 := do return ⟨← FP.new_big c, FP.new⟩

/-- `fp2.rs` 84-87 `reduce`. -/
def reduce (f : FP2) : Option FP2 := do
  let a ← f.a.reduce
  let b ← f.b.reduce
  return ⟨a, b⟩

/-- `fp2.rs` 90-93 `norm`. -/
def norm (f : FP2) : Option FP2 := do
  let a ← f.a.norm
  let b ← f.b.norm
  return ⟨a, b⟩

/-- `fp2.rs` 96-99 `iszilch` with short-circuit `&&`. -/
def iszilch (f : FP2) : Option (Bool × FP2) := do
  let f ← reduce f
  let (za, a) ← f.a.iszilch
  if za then
    let (zb, b) ← f.b.iszilch
    return (zb, ⟨a, b⟩)
  else return (false, ⟨a, f.b⟩)

/-- `fp2.rs` 101-104 `cmove`. -/
def cmove (f g : FP2) (d : Int) : FP2 := ⟨f.a.cmove g.a d, f.b.cmove g.b d⟩

/-- `fp2.rs` 107-110 `isunity` with short-circuit `&&`. -/
def isunity (f : FP2) : Option (Bool × FP2) := do
  let one ← FP.new_int 1
  let (e, a, _) ← f.a.equals one
  if e then
    let (z, b) ← f.b.iszilch
    return (z, ⟨a, b⟩)
  else return (false, ⟨a, f.b⟩)

/-- `fp2.rs` 113-115 `equals` with short-circuit `&&`: answer, new `self`, new `x`. -/
def equals (f x : FP2) : Option (Bool × FP2 × FP2) := do
  let (ea, fa, xa) ← f.a.equals x.a
  if ea then
    let (eb, fb, xb) ← f.b.equals x.b
    return (eb, ⟨fa, fb⟩, ⟨xa, xb⟩)
  else return (false, ⟨fa, f.b⟩, ⟨xa, x.b⟩)

/-- `fp2.rs` 118-120 `geta`. -/
def geta (f : FP2) : Option BIG := f.a.redc

/-- `fp2.rs` 123-125 `getb`. -/
def getb (f : FP2) : Option BIG := f.b.redc

/-- `fp2.rs` 140-143 `one`. -/
def one : Option FP2 := do return ⟨← FP.one, FP.new⟩

/-- `fp2.rs` 146-158 `neg`. -/
def neg (f : FP2) : Option FP2 := do
  let m ← f.a.add f.b
  let m ← m.neg
  let t ← m.add f.b
  let b ← m.add f.a
  return ⟨t, b⟩

/-- `fp2.rs` 161-164 `conj`. -/
def conj (f : FP2) : Option FP2 := do
  let b ← f.b.neg
  let b ← b.norm
  return ⟨f.a, b⟩

/-- `fp2.rs` 167-170 `add`. -/
def add (f x : FP2) : Option FP2 := do
  let a ← f.a.add x.a
  let b ← f.b.add x.b
  return ⟨a, b⟩

/-- `fp2.rs` 172-175 `dbl`. -/
def dbl (f : FP2) : Option FP2 := do
  let a ← f.a.dbl
  let b ← f.b.dbl
  return ⟨a, b⟩

/-- `fp2.rs` 178-182 `sub`. -/
def sub (f x : FP2) : Option FP2 := do
  let m ← neg x
  add f m

/-- `fp2.rs` 185-188 `rsub`: `self = x - self`. -/
def rsub (f x : FP2) : Option FP2 := do
  let m ← neg f
  add m x

/-- `fp2.rs` 191-194 `pmul`. -/
def pmul (f : FP2) (s : FP) : Option FP2 := do
  let a ← f.a.mul s
  let b ← f.b.mul s
  return ⟨a, b⟩

/-- `fp2.rs` 197-200 `imul`. -/
def imul (f : FP2) (c : Int) : Option FP2 := do
  let a ← f.a.imul c
  let b ← f.b.imul c
  return ⟨a, b⟩

/-- `fp2.rs` 203-222 `sqr`. -/
def sqr (f : FP2) : Option FP2 := do
  let w1 ← f.a.add f.b
  let w3 ← f.a.add f.a
  let w3 ← w3.norm
  let b ← f.b.mul w3
  let mb ← f.b.neg
  let a ← f.a.add mb
  let w1 ← w1.norm
  let a ← a.norm
  let a ← a.mul w1
  return ⟨a, b⟩

/-- `fp2.rs` 230-231: reduce a component whose excess is not 1. -/
def reduceBig (f : FP) : Option FP := if f.xes > 1 then f.reduce else some f

/-- `fp2.rs` 228-232: the reduction at the start of `mul`. -/
def mulPre (f y : FP2) : Option FP2 := do
  let e1 ← i32 (f.a.xes + f.b.xes)
  let e2 ← i32 (y.a.xes + y.b.xes)
  let e ← i64 (e1 * e2)
  if e > FEXCESS then
    let a ← reduceBig f.a
    let b ← reduceBig f.b
    return ⟨a, b⟩
  else return f

/-- `fp2.rs` 225-258 `mul`. -/
def mul (f y : FP2) : Option FP2 := do
  let f ← mulPre f y
  let pr := DBIG.ucopy rom.MODULUS
  let a ← BIG.mul f.a.x y.a.x
  let b ← BIG.mul f.b.x y.b.x
  let c ← f.a.x.add f.b.x
  let c ← c.norm
  let d ← y.a.x.add y.b.x
  let d ← d.norm
  let e ← BIG.mul c d
  let g ← a.add b
  let b ← b.rsub pr
  let a ← a.add b
  let a ← a.norm
  let e ← e.sub g
  let e ← e.norm
  let ra ← FP.modulo a
  let rb ← FP.modulo e
  return ⟨⟨ra, 3⟩, ⟨rb, 2⟩⟩

/-- `fp2.rs` 262-280 `sqrt`: answer and the new `self`. -/
def sqrt (f : FP2) : Option (Bool × FP2) := do
  let (z, f) ← iszilch f
  if z then return (true, f)
  let w1 ← f.b.sqr
  let w2 ← f.a.sqr
  let w1 ← w1.add w2
  if (← w1.jacobi) ≠ 1 then return (false, new)
  let (w1, _) ← w1.sqrt
  let w2 ← f.a.add w1
  let w2 ← w2.norm
  let w2 ← w2.div2
  if (← w2.jacobi) = 1 then sqrtTail f w2
  else
    let w2 ← f.a.sub w1
    let w2 ← w2.norm
    let w2 ← w2.div2
    if (← w2.jacobi) = 1 then sqrtTail f w2 else return (false, new)
where
  /-- `fp2.rs` 274-279. -/
  sqrtTail (f : FP2) (w2 : FP) : Option (Bool × FP2) := do
    let (w1, _) ← w2.sqrt
    let a := w1
    let w1 ← w1.dbl
    let w1 ← w1.inverse
    let b ← f.b.mul w1
    return (true, ⟨a, b⟩)

/-- `fp2.rs` 289-301 `inverse`. -/
def inverse (f : FP2) : Option FP2 := do
  let f ← norm f
  let w1 ← f.a.sqr
  let w2 ← f.b.sqr
  let w1 ← w1.add w2
  let w1 ← w1.inverse
  let a ← f.a.mul w1
  let w1 ← w1.neg
  let w1 ← w1.norm
  let b ← f.b.mul w1
  return ⟨a, b⟩

/-- `fp2.rs` 304-307 `div2`. -/
def div2 (f : FP2) : Option FP2 := do
  let a ← f.a.div2
  let b ← f.b.div2
  return ⟨a, b⟩

/-- `fp2.rs` 310-315 `times_i`. -/
def times_i (f : FP2) : Option FP2 := do
  let a ← f.b.neg
  return ⟨a, f.a⟩

/-- `fp2.rs` 319-328 `mul_ip`. -/
def mul_ip (f : FP2) : Option FP2 := do
  let a ← f.b.neg
  add ⟨a, f.a⟩ f

end FP2

end Amcl
