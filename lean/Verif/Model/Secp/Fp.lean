import Verif.Model.Secp.Big
/-!
# Model of `amcl/src/secp256k1/fp.rs`

Methods with `&mut self` return the new `self`, after the result if there is one. Only the branches
selected by `MODTYPE = NOT_SPECIAL` and `MOD8 = 7` (`fp.rs` 41-42) are modelled.
-/

namespace Amcl.Secp

/-- `fp.rs` 29-33: Montgomery residue `x` with excess `xes`. -/
@[ext] structure FP where
  x : BIG
  xes : Int
deriving DecidableEq, Repr

/-- `fp.rs` 44 `FEXCESS`. -/
def FEXCESS : Int := 2 ^ 24

namespace FP

/-- `fp.rs` 53-58 `new`. -/
def new : FP := ⟨BIG.new, 1⟩

/-- `fp.rs` 107, 172-175 `modulo` (the `NOT_SPECIAL` branch). -/
def modulo (d : DBIG) : Option BIG := BIG.monty rom.MODULUS rom.MCONST d

/-- `fp.rs` 81-91 `nres`, applied to the number `x`. -/
def nres (x : BIG) : Option FP := do
  let d ← BIG.mul x rom.R2MODP
  return ⟨← modulo d, 2⟩

/-- `fp.rs` 60-65 `new_int`. -/
def new_int (a : Int) : Option FP := do nres (← BIG.inc BIG.new a)

/-- `fp.rs` 74-79 `new_big`. -/
def new_big (y : BIG) : Option FP := nres y

/-- `fp.rs` 218-220 `one`. -/
def one : Option FP := nres (BIG.new_int 1)

/-- `fp.rs` 94-102 `redc`. -/
def redc (f : FP) : Option BIG := modulo (DBIG.new_scopy f.x)

/-- `fp.rs` 187-191 `reduce`. -/
def reduce (f : FP) : Option FP := do return ⟨← BIG.rmod f.x rom.MODULUS, 1⟩

/-- `fp.rs` 194-197 `iszilch`: answer and the reduced `self`. -/
def iszilch (f : FP) : Option (Bool × FP) := do
  let f ← reduce f
  return (f.x.iszilch, f)

/-- `fp.rs` 223-225 `norm`. -/
def norm (f : FP) : Option FP := do return { f with x := ← BIG.norm f.x }

/-- `fp.rs` 237-241 `cmove`. -/
def cmove (f b : FP) (d : Int) : FP :=
  ⟨f.x.cmove b.x d, xor32 f.xes (and32 (xor32 f.xes b.xes) (-d))⟩

/-- `fp.rs` 246, 310: the reduction at the start of `mul` and `sqr`. -/
def reduceIf (f : FP) (e : Int) : Option FP := if e > FEXCESS then reduce f else some f

/-- `fp.rs` 244-251 `mul`. -/
def mul (f b : FP) : Option FP := do
  let e ← i64 (f.xes * b.xes)
  let f ← reduceIf f e
  let d ← BIG.mul f.x b.x
  return ⟨← modulo d, 2⟩

/-- `fp.rs` 308-316 `sqr`. -/
def sqr (f : FP) : Option FP := do
  let e ← i64 (f.xes * f.xes)
  let f ← reduceIf f e
  let d ← BIG.sqr f.x
  return ⟨← modulo d, 2⟩

/-- `fp.rs` 255-259: smear the top bit downwards. -/
def smear (w : UInt32) : UInt32 :=
  let v := w
  let v := v ||| (v >>> 1)
  let v := v ||| (v >>> 2)
  let v := v ||| (v >>> 4)
  let v := v ||| (v >>> 8)
  v ||| (v >>> 16)

/-- `fp.rs` 261-263: population count. `wrapping_mul` and, for the values that occur, the plain `+`
and `-` are 32-bit wrapping operations. -/
def popcnt (v : UInt32) : UInt32 :=
  let m1 : UInt32 := 0x55555555
  let m2 : UInt32 := 0x33333333
  let m4 : UInt32 := 0xF0F0F0F
  let v := v - ((v >>> 1) &&& m1)
  let v := (v &&& m2) + ((v >>> 2) &&& m2)
  (((v + (v >>> 4)) &&& m4) * 0x1010101) >>> 24

/-- `fp.rs` 253-265 `logb2`. -/
def logb2 (w : UInt32) : Nat := (popcnt (smear w)).toNat

/-- `fp.rs` 268-277 `neg`; `none` if the shift `1<<sb` overflows an `i32`. -/
def neg (f : FP) : Option FP := do
  let e ← i32 (f.xes - 1)
  let sb := logb2 (UInt32.ofNat (e % 2 ^ 32).toNat)
  let p ← BIG.fshl rom.MODULUS sb
  let x ← BIG.rsub f.x p
  let xes ← i32 (2 ^ sb)
  let f : FP := ⟨x, xes⟩
  if f.xes > FEXCESS then reduce f else return f

/-- `fp.rs` 280-305 `imul` (the `NOT_SPECIAL` branch). -/
def imul (f : FP) (c : Int) : Option FP := do
  let cc ← if c < 0 then i64 (-c) else some c
  let e ← i32 (f.xes * as32 cc)
  let f ← if e ≤ FEXCESS then do
      let x ← BIG.pmul f.x cc
      pure (⟨x, e⟩ : FP)
    else do
      let n ← new_int cc
      mul f n
  if c < 0 then norm (← neg f) else return f

/-- `fp.rs` 322, 329: reduction at the end of `add` and `dbl`. -/
def settle (f : FP) : Option FP := if f.xes > FEXCESS then reduce f else some f

/-- `fp.rs` 319-323 `add`. -/
def add (f b : FP) : Option FP := do
  let x ← BIG.add f.x b.x
  let e ← i32 (f.xes + b.xes)
  settle ⟨x, e⟩

/-- `fp.rs` 326-330 `dbl`. -/
def dbl (f : FP) : Option FP := do
  let x ← BIG.dbl f.x
  let e ← i32 (f.xes + f.xes)
  settle ⟨x, e⟩

/-- `fp.rs` 333-338 `sub`. -/
def sub (f b : FP) : Option FP := do add f (← neg b)

/-- `fp.rs` 341-345 `rsub`: `self = b - self`. -/
def rsub (f b : FP) : Option FP := do add (← neg f) b

/-- `fp.rs` 348-358 `div2`. -/
def div2 (f : FP) : Option FP := do
  if f.x.parity = 0 then return { f with x := ← BIG.fshr f.x 1 }
  else
    let x ← BIG.add f.x rom.MODULUS
    let x ← BIG.norm x
    return { f with x := ← BIG.fshr x 1 }

/-- `fp.rs` 375-380 `equals`: answer, reduced `self`, reduced `a`. -/
def equals (f a : FP) : Option (Bool × FP × FP) := do
  let a ← reduce a
  let f ← reduce f
  return (BIG.comp a.x f.x == 0, f, a)

/-- `fp.rs` 394-400: the base-16 digits of the exponent, least significant first. -/
def powDigits : Nat → BIG → Option (List Int)
  | 0, _ => some []
  | n + 1, t => do
    let (l, t) ← BIG.lastbits t 4
    let t ← BIG.dec t l
    let t ← BIG.norm t
    let t ← BIG.fshr t 4
    let ws ← powDigits n t
    return as8 l :: ws

/-- `fp.rs` 404-409: `n` further entries of the table, each the previous one times `s`. -/
def powTable (s : FP) : Nat → FP → Option (List FP)
  | 0, _ => some []
  | n + 1, c => do
    let c' ← mul c s
    return c' :: (← powTable s n c')

/-- `fp.rs` 411-417: one round of the main loop of `pow`. -/
def powStep (tb : List FP) (r : FP) (w : Int) : Option FP := do
  let r ← sqr r
  let r ← sqr r
  let r ← sqr r
  let r ← sqr r
  mul r (← tb[w.toNat]?)

/-- `fp.rs` 384-420 `pow`: result and the normalised `self`. The table index is
never negative because the digits are below 16. `none` when the digit array (71 entries) is too
small. -/
def pow (f : FP) (e : BIG) : Option (FP × FP) := do
  let f ← norm f
  let t ← BIG.norm e
  let nb := 1 + ((← BIG.nbits t) + 3) / 4
  if nb > 71 then none
  let ws ← powDigits nb t
  let tb0 ← one
  let tbs ← powTable f 14 f
  let tb := tb0 :: f :: tbs
  match ws.reverse with
  | [] => none
  | w :: rest =>
    let r ← tb[w.toNat]?
    let r ← rest.foldlM (powStep tb) r
    return (← reduce r, f)

/-- `fp.rs` 360-372 `inverse`. -/
def inverse (f : FP) : Option FP := do
  let m2 ← BIG.dec rom.MODULUS 2
  let m2 ← BIG.norm m2
  let (inv, _) ← pow f m2
  return inv

/-- `fp.rs` 441-460 `sqrt` (the branch for `MOD8` not 5): result and the new `self`. -/
def sqrt (f : FP) : Option (FP × FP) := do
  let f ← reduce f
  let p ← BIG.inc rom.MODULUS 1
  let p ← BIG.norm p
  let p ← BIG.shr p 2
  pow f p

/-- `fp.rs` 462-467 `jacobi`. -/
def jacobi (f : FP) : Option Int := do
  let w ← redc f
  BIG.jacobi w rom.MODULUS

end FP

end Amcl.Secp
