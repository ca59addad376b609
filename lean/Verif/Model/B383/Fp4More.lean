import Verif.Model.B383.Xtr
/-!
# Model of the remaining functions of `fp2.rs` and `fp4.rs`
-/

namespace Amcl.B383

namespace FP2

/-- `fp2.rs` 330-336 `div_ip2`. -/
def div_ip2 (f : FP2) : Option FP2 := do
  let f ← f.norm
  let a ← f.a.add f.b
  let b ← f.b.sub f.a
  norm ⟨a, b⟩

/-- `fp2.rs` 339-346 `div_ip`. -/
def div_ip (f : FP2) : Option FP2 := do
  let t ← f.div_ip2
  t.div2

end FP2

namespace FP4

/-- `fp4.rs` 85-88 `iszilch`: answer and the new `self`. -/
def iszilch (f : FP4) : Option (Bool × FP4) := do
  let f ← f.reduce
  let (za, a) ← f.a.iszilch
  if za then
    let (zb, b) ← f.b.iszilch
    return (zb, ⟨a, b⟩)
  else return (false, ⟨a, f.b⟩)

/-- `fp4.rs` 91-94 `isunity`: answer and the new `self`. -/
def isunity (f : FP4) : Option (Bool × FP4) := do
  let one ← FP2.new_int 1
  let (ea, a, _) ← f.a.equals one
  if ea then
    let (zb, b) ← f.b.iszilch
    return (zb, ⟨a, b⟩)
  else return (false, ⟨a, f.b⟩)

/-- `fp4.rs` 97-99 `isreal`: answer and the new `self`. -/
def isreal (f : FP4) : Option (Bool × FP4) := do
  let (zb, b) ← f.b.iszilch
  return (zb, ⟨f.a, b⟩)

/-- `fp4.rs` 171-173 `padd`. -/
def padd (f : FP4) (x : FP2) : Option FP4 := do
  let a ← f.a.add x
  return ⟨a, f.b⟩

/-- `fp4.rs` 188-191 `rsub`. -/
def rsub (f x : FP4) : Option FP4 := do
  let f ← f.neg
  f.add x

/-- `fp4.rs` 200-203 `qmul`. -/
def qmul (f : FP4) (s : FP) : Option FP4 := do
  let a ← f.a.pmul s
  let b ← f.b.pmul s
  return ⟨a, b⟩

/-- `fp4.rs` 334: `if bt==1 {r.mul(&mut w)}`. -/
def powMul (bt : Int) (r w : FP4) : Option FP4 := if bt = 1 then r.mul w else some r

/-- `fp4.rs` 331-337: the loop of `pow` on `(r, z, w)`. -/
def powLoop (r : FP4) (z : BIG) (w : FP4) : Option FP4 := do
  let bt := z.parity
  let z ← z.fshr 1
  let r ← powMul bt r w
  if z.iszilch then return r
  let w ← w.sqr
  powLoop r z w
partial_fixpoint

/-- `fp4.rs` 325-340 `pow`. -/
def pow (f : FP4) (e : BIG) : Option FP4 := do
  let w ← f.norm
  let z ← e.norm
  let r ← new_int 1
  let r ← powLoop r z w
  r.reduce

/-- `fp4.rs` 541-544 `div2`. -/
def div2 (f : FP4) : Option FP4 := do
  let a ← f.a.div2
  let b ← f.b.div2
  return ⟨a, b⟩

/-- `fp4.rs` 546-552 `div_i`. -/
def div_i (f : FP4) : Option FP4 := do
  let u ← f.a.div_ip
  return ⟨f.b, u⟩

/-- `fp4.rs` 554-561 `div_2i`. -/
def div_2i (f : FP4) : Option FP4 := do
  let u ← f.a.div_ip2
  let v ← f.b.dbl
  let v ← v.norm
  return ⟨v, u⟩

/-- `fp4.rs` 603-611: the end of `sqrt`; `f` is `self`, `a` the real part of the root. -/
def sqrtTail (f : FP4) (a : FP2) : Option (Bool × FP4) := do
  let s ← a.add a
  let s ← s.inverse
  let t ← f.b.mul s
  return (true, ⟨a, t⟩)

/-- `fp4.rs` 565-612 `sqrt`: answer and the new `self`. `FP2::sqrt` changes its argument, also when it fails. -/
def sqrt (f : FP4) : Option (Bool × FP4) := do
  let (z, f) ← f.iszilch
  if z then return (true, f)
  let (zs, s) ← f.b.iszilch
  if zs then
    let (ok, t) ← f.a.sqrt
    if ok then return (true, ⟨t, FP2.new⟩)
    else
      let t ← t.div_ip
      let (_, t) ← t.sqrt
      return (true, ⟨FP2.new, t⟩)
  else
    let s ← s.sqr
    let a ← f.a.sqr
    let s ← s.mul_ip
    let s ← s.norm
    let a ← a.sub s
    let (ok, s) ← a.sqrt
    if ok then
      let a ← f.a.add s
      let a ← a.norm
      let a ← a.div2
      let (ok, a) ← a.sqrt
      if ok then sqrtTail f a
      else
        let a ← f.a.sub s
        let a ← a.norm
        let a ← a.div2
        let (ok, a) ← a.sqrt
        if ok then sqrtTail f a else return (false, f)
    else return (false, f)

end FP4

end Amcl.B383
