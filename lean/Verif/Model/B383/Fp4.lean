import Verif.Model.B383.Fp2
/-!
# Model of `amcl/src/bls383/fp4.rs`

`FP4` is `a + b V` with `V² = 1 + i`.
-/

namespace Amcl.B383

/-- `fp4.rs` 25-28. -/
@[ext] structure FP4 where
  a : FP2
  b : FP2
deriving DecidableEq, Repr

namespace FP4

/-- `fp4.rs` 32-37 `new`. -/
def new : FP4 := ⟨FP2.new, FP2.new⟩

/-- `fp4.rs` 39-44 `new_int`. -/
def new_int (a : Int) : Option FP4 := do return ⟨← FP2.new_int a, FP2.new⟩

/-- `fp4.rs` 60-65 `new_fp2`. -/
def new_fp2 (c : FP2) : FP4 := ⟨c, FP2.new⟩

/-- `fp4.rs` 68-71 `reduce`. -/
def reduce (f : FP4) : Option FP4 := do
  let a ← f.a.reduce
  let b ← f.b.reduce
  return ⟨a, b⟩

/-- `fp4.rs` 74-77 `norm`. -/
def norm (f : FP4) : Option FP4 := do
  let a ← f.a.norm
  let b ← f.b.norm
  return ⟨a, b⟩

/-- `fp4.rs` 117-119 `equals`; the in-place reductions of the arguments are dropped, since no caller
uses them afterwards. -/
def equals (f x : FP4) : Option Bool := do
  let (e, _, _) ← f.a.equals x.a
  if e then
    let (e, _, _) ← f.b.equals x.b
    return e
  else return false

/-- `fp4.rs` 139-152 `neg`. -/
def neg (f : FP4) : Option FP4 := do
  let f ← norm f
  let m ← f.a.add f.b
  let m ← m.neg
  let t ← m.add f.b
  let b ← m.add f.a
  norm ⟨t, b⟩

/-- `fp4.rs` 155-158 `conj`. -/
def conj (f : FP4) : Option FP4 := do
  let b ← f.b.neg
  norm ⟨f.a, b⟩

/-- `fp4.rs` 161-163 `nconj`. -/
def nconj (f : FP4) : Option FP4 := do
  let a ← f.a.neg
  norm ⟨a, f.b⟩

/-- `fp4.rs` 166-169 `add`. -/
def add (f x : FP4) : Option FP4 := do
  let a ← f.a.add x.a
  let b ← f.b.add x.b
  return ⟨a, b⟩

/-- `fp4.rs` 175-178 `dbl`. -/
def dbl (f : FP4) : Option FP4 := do
  let a ← f.a.dbl
  let b ← f.b.dbl
  return ⟨a, b⟩

/-- `fp4.rs` 181-185 `sub`. -/
def sub (f x : FP4) : Option FP4 := do
  let m ← neg x
  add f m

/-- `fp4.rs` 194-197 `pmul`. -/
def pmul (f : FP4) (s : FP2) : Option FP4 := do
  let a ← f.a.mul s
  let b ← f.b.mul s
  return ⟨a, b⟩

/-- `fp4.rs` 212-243 `sqr`. -/
def sqr (f : FP4) : Option FP4 := do
  let t3 ← f.a.mul f.b
  let t1 ← f.a.add f.b
  let t2 ← f.b.mul_ip
  let t2 ← t2.add f.a
  let t1 ← t1.norm
  let t2 ← t2.norm
  let a ← t1.mul t2
  let t2 ← t3.mul_ip
  let t2 ← t2.add t3
  let t2 ← t2.norm
  let t2 ← t2.neg
  let a ← a.add t2
  let b ← t3.dbl
  norm ⟨a, b⟩

/-- `fp4.rs` 246-279 `mul`. -/
def mul (f y : FP4) : Option FP4 := do
  let f ← norm f
  let t1 ← f.a.mul y.a
  let t2 ← f.b.mul y.b
  let t3 ← y.b.add y.a
  let t4 ← f.b.add f.a
  let t3 ← t3.norm
  let t4 ← t4.norm
  let t4 ← t4.mul t3
  let t3 ← t1.neg
  let t4 ← t4.add t3
  let t4 ← t4.norm
  let t3 ← t2.neg
  let b ← t4.add t3
  let t2 ← t2.mul_ip
  let a ← t2.add t1
  norm ⟨a, b⟩

/-- `fp4.rs` 288-302 `inverse`. -/
def inverse (f : FP4) : Option FP4 := do
  let f ← norm f
  let t1 ← f.a.sqr
  let t2 ← f.b.sqr
  let t2 ← t2.mul_ip
  let t2 ← t2.norm
  let t1 ← t1.sub t2
  let t1 ← t1.inverse
  let a ← f.a.mul t1
  let t1 ← t1.neg
  let t1 ← t1.norm
  let b ← f.b.mul t1
  return ⟨a, b⟩

/-- `fp4.rs` 305-315 `times_i`. -/
def times_i (f : FP4) : Option FP4 := do
  let s ← f.b.times_i
  let t ← f.b.add s
  norm ⟨t, f.a⟩

/-- `fp4.rs` 318-322 `frob`. -/
def frob (f : FP4) (x : FP2) : Option FP4 := do
  let a ← f.a.conj
  let b ← f.b.conj
  let b ← b.mul x
  return ⟨a, b⟩

end FP4

end Amcl.B383
