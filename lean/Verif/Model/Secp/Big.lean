import Verif.Model.Secp.Rom
/-!
# Model of `amcl/src/secp256k1/big.rs` and `dbig.rs`

Loops over the limbs are unrolled. Functions return the new `self`. Return values nobody reads
(the excess returned by `norm`, `fshl`, `fshr`, `pmul`) are dropped.
-/

namespace Amcl.Secp

namespace BIG

/-- `big.rs` 58-62 `new`: all limbs 0. -/
def new : BIG := ⟨0, 0, 0, 0, 0⟩

/-- `big.rs` 64-68 `new_int`. -/
def new_int (x : Int) : BIG := ⟨x, 0, 0, 0, 0⟩

/-- `big.rs` 111-116 `iszilch`. -/
def iszilch (a : BIG) : Bool :=
  a.w0 == 0 && a.w1 == 0 && a.w2 == 0 && a.w3 == 0 && a.w4 == 0

/-- `big.rs` 126-132 `isunity`, as written: the loop over all limbs (including limb 0) comes first. -/
def isunity (a : BIG) : Bool := a.iszilch && a.w0 == 1

/-- One round of the carry loop of `norm` (`big.rs` 191-193). -/
def normStep (w carry : Int) : Option (Int × Int) := do
  let d ← add64 w carry
  return (and64 d BMASK, sar d 56)

/-- `big.rs` 187-197 `norm`. -/
def norm (a : BIG) : Option BIG := do
  let (w0, c) ← normStep a.w0 0
  let (w1, c) ← normStep a.w1 c
  let (w2, c) ← normStep a.w2 c
  let (w3, c) ← normStep a.w3 c
  let w4 ← add64 a.w4 c
  return ⟨w0, w1, w2, w3, w4⟩

/-- One limb of `cmove` (`big.rs` 213). -/
def cmoveW (w g b : Int) : Int := xor64 w (and64 (xor64 w g) b)

/-- `big.rs` 210-215 `cmove`; `d` is 0 or 1 at every call. -/
def cmove (a g : BIG) (d : Int) : BIG :=
  ⟨cmoveW a.w0 g.w0 (-d), cmoveW a.w1 g.w1 (-d), cmoveW a.w2 g.w2 (-d), cmoveW a.w3 g.w3 (-d),
   cmoveW a.w4 g.w4 (-d)⟩

/-- One limb of `fshr` (`big.rs` 222). -/
def fshrW (k : Nat) (lo hi : Int) : Int := or64 (sar lo k) (and64 (shl64 hi (56 - k)) BMASK)

/-- `big.rs` 218-226 `fshr`; `none` for `k > 56` (`BASEBITS-n` underflows). -/
def fshr (a : BIG) (k : Nat) : Option BIG :=
  if k ≤ 56 then
    some ⟨fshrW k a.w0 a.w1, fshrW k a.w1 a.w2, fshrW k a.w2 a.w3, fshrW k a.w3 a.w4,
      sar a.w4 k⟩
  else none

/-- `big.rs` 229-238 `shr` for `k < 56` (every call in scope), where it is the loop of `fshr`.
Larger shifts are not modelled (`none`). -/
def shr (a : BIG) (k : Nat) : Option BIG := if k < 56 then fshr a k else none

/-- One limb of `fshl` (`big.rs` 245). -/
def fshlW (k : Nat) (hi lo : Int) : Int := or64 (and64 (shl64 hi k) BMASK) (sar lo (56 - k))

/-- `big.rs` 241-249 `fshl`; `none` for `k > 56`. -/
def fshl (a : BIG) (k : Nat) : Option BIG :=
  if k ≤ 56 then
    some ⟨and64 (shl64 a.w0 k) BMASK, fshlW k a.w1 a.w0, fshlW k a.w2 a.w1, fshlW k a.w3 a.w2,
      or64 (shl64 a.w4 k) (sar a.w3 (56 - k))⟩
  else none

/-- `big.rs` 274: `while c!=0 {c/=2; bts+=1;}`. A 64-bit `c` reaches 0 within 64 rounds, the bound on
the recursion. -/
def bitLen : Nat → Int → Nat
  | 0, _ => 0
  | n + 1, c => if c = 0 then 0 else bitLen n (Int.tdiv c 2) + 1

/-- `big.rs` 266-276 `nbits`. -/
def nbits (a : BIG) : Option Nat := do
  let s ← norm a
  if s.w4 ≠ 0 then return 56 * 4 + bitLen 64 s.w4
  if s.w3 ≠ 0 then return 56 * 3 + bitLen 64 s.w3
  if s.w2 ≠ 0 then return 56 * 2 + bitLen 64 s.w2
  if s.w1 ≠ 0 then return 56 * 1 + bitLen 64 s.w1
  if s.w0 ≠ 0 then return bitLen 64 s.w0
  return 0

/-- Limb-wise checked operation, the loop shape of `add`, `sub`, `rsub`, `dbl`. -/
def zipM (f : Int → Int → Option Int) (a b : BIG) : Option BIG := do
  let w0 ← f a.w0 b.w0
  let w1 ← f a.w1 b.w1
  let w2 ← f a.w2 b.w2
  let w3 ← f a.w3 b.w3
  let w4 ← f a.w4 b.w4
  return ⟨w0, w1, w2, w3, w4⟩

/-- `big.rs` 301-305 `add`. -/
def add (a r : BIG) : Option BIG := zipM add64 a r
/-- `big.rs` 313-317 `dbl`. -/
def dbl (a : BIG) : Option BIG := zipM add64 a a
/-- `big.rs` 339-345 `minus` and 348-352 `sub`. -/
def sub (a x : BIG) : Option BIG := zipM sub64 a x
/-- `big.rs` 355-359 `rsub`: `self = x - self`. -/
def rsub (a x : BIG) : Option BIG := zipM sub64 x a

/-- `big.rs` 328-331 `inc`. -/
def inc (a : BIG) (x : Int) : Option BIG := do
  let a ← norm a
  let w ← add64 a.w0 x
  return { a with w0 := w }

/-- `big.rs` 362-365 `dec`. -/
def dec (a : BIG) (x : Int) : Option BIG := do
  let a ← norm a
  let w ← sub64 a.w0 x
  return { a with w0 := w }

/-- `big.rs` 157-162 `muladd`: (top, bottom) of `a*b + c + r`. -/
def muladd (a b c r : Int) : Option (Int × Int) := do
  let p ← i128 (a * b)
  let p ← i128 (p + c)
  let p ← i128 (p + r)
  return (as64 (sar p 56), as64 (and128 p BMASK))

/-- `big.rs` 404-413 `pmul`. The final carry is returned by the Rust code and ignored by callers. -/
def pmul (a : BIG) (c : Int) : Option BIG := do
  let (carry, w0) ← muladd a.w0 c 0 0
  let (carry, w1) ← muladd a.w1 c carry 0
  let (carry, w2) ← muladd a.w2 c carry 0
  let (carry, w3) ← muladd a.w3 c carry 0
  let (_, w4) ← muladd a.w4 c carry 0
  return ⟨w0, w1, w2, w3, w4⟩

/-- Body of the loop of `comp` (`big.rs` 460-462): decide on one limb or go on with `k`. -/
def compW (x y : Int) (k : Int) : Int := if x = y then k else if x > y then 1 else -1

/-- `big.rs` 458-465 `comp`. -/
def comp (a b : BIG) : Int :=
  compW a.w4 b.w4 <| compW a.w3 b.w3 <|
    compW a.w2 b.w2 <| compW a.w1 b.w1 <| compW a.w0 b.w0 0

/-- `big.rs` 513-515 `parity` (Rust `%` truncates). -/
def parity (a : BIG) : Int := Int.tmod a.w0 2

/-- Limb `i`, `none` when out of bounds. -/
def get (a : BIG) : Nat → Option Int
  | 0 => some a.w0
  | 1 => some a.w1
  | 2 => some a.w2
  | 3 => some a.w3
  | 4 => some a.w4
  | _ => none

/-- `big.rs` 518-521 `bit`. -/
def bit (a : BIG) (n : Nat) : Option Int := do
  let w ← a.get (n / 56)
  return if and64 w (shl64 1 (n % 56)) > 0 then 1 else 0

/-- `big.rs` 524-529 `lastbits`: result and the normalised `self`. -/
def lastbits (a : BIG) (n : Nat) : Option (Int × BIG) := do
  let a ← norm a
  return (and64 a.w0 (shl64 1 n - 1), a)

/-- `big.rs` 574-578: the doubling loop of `rmod`. `k` is an `i32` in Rust; it stays below 281 in
every terminating run, so its overflow is not modelled. -/
def rmodUp (s m : BIG) (k : Nat) : Option (BIG × Nat) := do
  let m ← fshl m 1
  if comp s m < 0 then return (m, k + 1) else rmodUp s m (k + 1)
partial_fixpoint

/-- `big.rs` 580-593: the halving loop of `rmod`. -/
def rmodDown : Nat → BIG → BIG → Option BIG
  | 0, s, _ => some s
  | k + 1, s, m => do
    let m ← fshr m 1
    let r ← sub s m
    let r ← norm r
    let d ← sub64 1 (and64 (sar r.w4 63) 1)
    rmodDown k (cmove s r d) m

/-- `big.rs` 568-594 `rmod`. -/
def rmod (s n : BIG) : Option BIG := do
  let s ← norm s
  if comp s n < 0 then return s
  let (m, k) ← rmodUp s n 0
  rmodDown k s m

/-- `big.rs` 693-696: strip factors of two, counting them. -/
def jacobiStrip (x : BIG) (k : Nat) : Option (BIG × Nat) := do
  if parity x = 0 then
    let x ← shr x 1
    jacobiStrip x (k + 1)
  else return (x, k)
partial_fixpoint

/-- `big.rs` 689-707: main loop of `jacobi`, `usize` subtractions checked. -/
def jacobiLoop (x n : BIG) (m : Nat) : Option Int := do
  if comp n (new_int 1) > 0 then
    if comp x new = 0 then return 0
    let (n8, n) ← lastbits n 3
    let n8 := n8.toNat
    let (x, k) ← jacobiStrip x 0
    if n8 = 0 then none
    let m := if k % 2 = 1 then m + (n8 * n8 - 1) / 8 else m
    let (x2, x) ← lastbits x 2
    let x2 := x2.toNat
    if x2 = 0 then none
    let m := m + (n8 - 1) * (x2 - 1) / 4
    let t ← rmod n x
    jacobiLoop t x (m % 2)
  else return if m = 0 then 1 else -1
partial_fixpoint

/-- `big.rs` 675-708 `jacobi`. -/
def jacobi (s p : BIG) : Option Int := do
  if parity p = 0 ∨ comp s new = 0 ∨ comp p (new_int 1) ≤ 0 then return 0
  let s ← norm s
  let x ← rmod s p
  jacobiLoop x p 0

/-- One byte of `frombytearray` (`big.rs` 389). -/
def pushByte (m : BIG) (b : UInt8) : Option BIG := do
  let m ← fshl m 8
  let w ← add64 m.w0 (b.toNat : Int)
  return { m with w0 := w }

/-- `big.rs` 386-392, 398-400 `frombytes`; `none` (index panic) when fewer than 32 bytes. -/
def frombytes (b : List UInt8) : Option BIG :=
  if b.length < 32 then none else (b.take 32).foldlM pushByte new

/-- `big.rs` 379-382: bytes from the least significant end. -/
def tobytesLoop : Nat → BIG → List UInt8 → Option (List UInt8)
  | 0, _, acc => some acc
  | n + 1, c, acc => do
    let c' ← fshr c 8
    tobytesLoop n c' (UInt8.ofNat (and64 c.w0 0xff).toNat :: acc)

/-- `big.rs` 375-383, 394-396 `tobytes`: the 32 bytes written (every caller passes a buffer of at
least 32 bytes). -/
def tobytes (a : BIG) : Option (List UInt8) := do
  let c ← norm a
  tobytesLoop 32 c []

end BIG

/-- `dbig.rs` 26-28: `DBIG { w: [Chunk; 10] }`, limbs 0-4 in `lo` and 5-9 in `hi`. -/
@[ext] structure DBIG where
  lo : BIG
  hi : BIG
deriving DecidableEq, Repr

namespace BIG

/-- `t += (a-b)*(c-d)` with 64-bit differences and 128-bit product and sum, as in the inner loops of
`mul` and `monty`. -/
def mac (t a b c d : Int) : Option Int := do
  let x ← sub64 a b
  let y ← sub64 c d
  let z ← i128 (x * y)
  i128 (t + z)

/-- `t += x*y` in 128 bits. -/
def mad (t x y : Int) : Option Int := do
  let z ← i128 (x * y)
  i128 (t + z)

/-- `(t & rm) as Chunk`. -/
def low (t : Int) : Int := as64 (and128 t BMASK)

/-- `big.rs` 777-809 `mul`, loops unrolled. -/
def mul (a b : BIG) : Option DBIG := do
  let d0 ← i128 (a.w0 * b.w0)
  let d1 ← i128 (a.w1 * b.w1)
  let d2 ← i128 (a.w2 * b.w2)
  let d3 ← i128 (a.w3 * b.w3)
  let d4 ← i128 (a.w4 * b.w4)
  let s := d0
  let t := s
  let c0 := low t
  let co := sar t 56
  let s ← i128 (s + d1)
  let t ← i128 (co + s)
  let t ← mac t a.w1 a.w0 b.w0 b.w1
  let c1 := low t
  let co := sar t 56
  let s ← i128 (s + d2)
  let t ← i128 (co + s)
  let t ← mac t a.w2 a.w0 b.w0 b.w2
  let c2 := low t
  let co := sar t 56
  let s ← i128 (s + d3)
  let t ← i128 (co + s)
  let t ← mac t a.w2 a.w1 b.w1 b.w2
  let t ← mac t a.w3 a.w0 b.w0 b.w3
  let c3 := low t
  let co := sar t 56
  let s ← i128 (s + d4)
  let t ← i128 (co + s)
  let t ← mac t a.w3 a.w1 b.w1 b.w3
  let t ← mac t a.w4 a.w0 b.w0 b.w4
  let c4 := low t
  let co := sar t 56
  let s ← i128 (s - d0)
  let t ← i128 (co + s)
  let t ← mac t a.w3 a.w2 b.w2 b.w3
  let t ← mac t a.w4 a.w1 b.w1 b.w4
  let c5 := low t
  let co := sar t 56
  let s ← i128 (s - d1)
  let t ← i128 (co + s)
  let t ← mac t a.w4 a.w2 b.w2 b.w4
  let c6 := low t
  let co := sar t 56
  let s ← i128 (s - d2)
  let t ← i128 (co + s)
  let t ← mac t a.w4 a.w3 b.w3 b.w4
  let c7 := low t
  let co := sar t 56
  let s ← i128 (s - d3)
  let t ← i128 (co + s)
  let c8 := low t
  let co := sar t 56
  let c9 := as64 co
  return ⟨⟨c0, c1, c2, c3, c4⟩, ⟨c5, c6, c7, c8, c9⟩⟩

/-- `big.rs` 813-854 `sqr`, loops unrolled. -/
def sqr (a : BIG) : Option DBIG := do
  let t ← i128 (a.w0 * a.w0)
  let c0 := low t
  let co := sar t 56
  let t ← i128 (a.w1 * a.w0)
  let t ← i128 (t + t)
  let t ← i128 (t + co)
  let c1 := low t
  let co := sar t 56
  let t ← i128 (a.w2 * a.w0)
  let t ← i128 (t + t)
  let t ← i128 (t + co)
  let t ← mad t a.w1 a.w1
  let c2 := low t
  let co := sar t 56
  let t ← i128 (a.w3 * a.w0)
  let t ← mad t a.w2 a.w1
  let t ← i128 (t + t)
  let t ← i128 (t + co)
  let c3 := low t
  let co := sar t 56
  let t ← i128 (a.w4 * a.w0)
  let t ← mad t a.w3 a.w1
  let t ← i128 (t + t)
  let t ← i128 (t + co)
  let t ← mad t a.w2 a.w2
  let c4 := low t
  let co := sar t 56
  let t ← i128 (a.w4 * a.w1)
  let t ← mad t a.w3 a.w2
  let t ← i128 (t + t)
  let t ← i128 (t + co)
  let c5 := low t
  let co := sar t 56
  let t ← i128 (a.w4 * a.w2)
  let t ← i128 (t + t)
  let t ← i128 (t + co)
  let t ← mad t a.w3 a.w3
  let c6 := low t
  let co := sar t 56
  let t ← i128 (a.w3 * a.w4)
  let t ← i128 (t + t)
  let t ← i128 (t + co)
  let c7 := low t
  let co := sar t 56
  let t ← i128 (a.w4 * a.w4)
  let t ← i128 (t + co)
  let c8 := low t
  let co := sar t 56
  let c9 := as64 co
  return ⟨⟨c0, c1, c2, c3, c4⟩, ⟨c5, c6, c7, c8, c9⟩⟩

/-- `v[k] = (((t&rm) as Chunk).wrapping_mul(mc))&BMASK` (`big.rs` 868, 877). -/
def montyV (t mc : Int) : Int := and64 (wmul64 (low t) mc) BMASK

/-- `big.rs` 858-895 `monty`, loops unrolled. -/
def monty (md : BIG) (mc : Int) (d : DBIG) : Option BIG := do
  let t := d.lo.w0
  let v0 := montyV t mc
  let t ← mad t v0 md.w0
  let c ← i128 (d.lo.w1 + sar t 56)
  let s := 0
  let t ← i128 (c + s)
  let t ← mad t v0 md.w1
  let v1 := montyV t mc
  let t ← mad t v1 md.w0
  let c ← i128 (d.lo.w2 + sar t 56)
  let dd1 ← i128 (v1 * md.w1)
  let s ← i128 (s + dd1)
  let t ← i128 (c + s)
  let t ← mad t v0 md.w2
  let v2 := montyV t mc
  let t ← mad t v2 md.w0
  let c ← i128 (d.lo.w3 + sar t 56)
  let dd2 ← i128 (v2 * md.w2)
  let s ← i128 (s + dd2)
  let t ← i128 (c + s)
  let t ← mad t v0 md.w3
  let t ← mac t v1 v2 md.w2 md.w1
  let v3 := montyV t mc
  let t ← mad t v3 md.w0
  let c ← i128 (d.lo.w4 + sar t 56)
  let dd3 ← i128 (v3 * md.w3)
  let s ← i128 (s + dd3)
  let t ← i128 (c + s)
  let t ← mad t v0 md.w4
  let t ← mac t v1 v3 md.w3 md.w1
  let v4 := montyV t mc
  let t ← mad t v4 md.w0
  let c ← i128 (d.hi.w0 + sar t 56)
  let dd4 ← i128 (v4 * md.w4)
  let s ← i128 (s + dd4)
  let t ← i128 (c + s)
  let t ← mac t v2 v3 md.w3 md.w2
  let t ← mac t v1 v4 md.w4 md.w1
  let b0 := low t
  let c ← i128 (d.hi.w1 + sar t 56)
  let s ← i128 (s - dd1)
  let t ← i128 (c + s)
  let t ← mac t v2 v4 md.w4 md.w2
  let b1 := low t
  let c ← i128 (d.hi.w2 + sar t 56)
  let s ← i128 (s - dd2)
  let t ← i128 (c + s)
  let t ← mac t v3 v4 md.w4 md.w3
  let b2 := low t
  let c ← i128 (d.hi.w3 + sar t 56)
  let s ← i128 (s - dd3)
  let t ← i128 (c + s)
  let b3 := low t
  let c ← i128 (d.hi.w4 + sar t 56)
  let _ ← i128 (s - dd4)
  let b4 := low c
  return ⟨b0, b1, b2, b3, b4⟩
end BIG

namespace DBIG

/-- `dbig.rs` 31-35 `new`. -/
def new : DBIG := ⟨BIG.new, BIG.new⟩

/-- `dbig.rs` 43-53 `new_scopy`. -/
def new_scopy (x : BIG) : DBIG :=
  ⟨{ x with w4 := and64 x.w4 BMASK }, { BIG.new with w0 := sar x.w4 56 }⟩

/-- `dbig.rs` 103-110 `ucopy`. -/
def ucopy (x : BIG) : DBIG := ⟨BIG.new, x⟩

/-- `dbig.rs` 112-117 `cmove`. -/
def cmove (a g : DBIG) (d : Int) : DBIG := ⟨a.lo.cmove g.lo d, a.hi.cmove g.hi d⟩

/-- `dbig.rs` 120-124 `add`. -/
def add (a x : DBIG) : Option DBIG := do return ⟨← a.lo.add x.lo, ← a.hi.add x.hi⟩
/-- `dbig.rs` 127-131 `sub`. -/
def sub (a x : DBIG) : Option DBIG := do return ⟨← a.lo.sub x.lo, ← a.hi.sub x.hi⟩
/-- `dbig.rs` 134-138 `rsub`. -/
def rsub (a x : DBIG) : Option DBIG := do return ⟨← a.lo.rsub x.lo, ← a.hi.rsub x.hi⟩

/-- `dbig.rs` 142-149 `comp`: high limbs first. -/
def comp (a b : DBIG) : Int :=
  if BIG.comp a.hi b.hi = 0 then BIG.comp a.lo b.lo else BIG.comp a.hi b.hi

/-- `dbig.rs` 152-160 `norm`. -/
def norm (a : DBIG) : Option DBIG := do
  let (w0, c) ← BIG.normStep a.lo.w0 0
  let (w1, c) ← BIG.normStep a.lo.w1 c
  let (w2, c) ← BIG.normStep a.lo.w2 c
  let (w3, c) ← BIG.normStep a.lo.w3 c
  let (w4, c) ← BIG.normStep a.lo.w4 c
  let (w5, c) ← BIG.normStep a.hi.w0 c
  let (w6, c) ← BIG.normStep a.hi.w1 c
  let (w7, c) ← BIG.normStep a.hi.w2 c
  let (w8, c) ← BIG.normStep a.hi.w3 c
  let w9 ← add64 a.hi.w4 c
  return ⟨⟨w0, w1, w2, w3, w4⟩, ⟨w5, w6, w7, w8, w9⟩⟩

/-- `dbig.rs` 72-83 `shl` for `k < 56` (every call in scope); larger shifts are not modelled. -/
def shl (a : DBIG) (k : Nat) : Option DBIG :=
  if k < 56 then
    some ⟨⟨and64 (shl64 a.lo.w0 k) BMASK, BIG.fshlW k a.lo.w1 a.lo.w0, BIG.fshlW k a.lo.w2 a.lo.w1,
        BIG.fshlW k a.lo.w3 a.lo.w2, BIG.fshlW k a.lo.w4 a.lo.w3⟩,
      ⟨BIG.fshlW k a.hi.w0 a.lo.w4, BIG.fshlW k a.hi.w1 a.hi.w0, BIG.fshlW k a.hi.w2 a.hi.w1,
        BIG.fshlW k a.hi.w3 a.hi.w2, or64 (shl64 a.hi.w4 k) (sar a.hi.w3 (56 - k))⟩⟩
  else none

/-- `dbig.rs` 86-94 `shr` for `k < 56` (every call in scope); larger shifts are not modelled. -/
def shr (a : DBIG) (k : Nat) : Option DBIG :=
  if k < 56 then
    some ⟨⟨BIG.fshrW k a.lo.w0 a.lo.w1, BIG.fshrW k a.lo.w1 a.lo.w2, BIG.fshrW k a.lo.w2 a.lo.w3,
        BIG.fshrW k a.lo.w3 a.lo.w4, BIG.fshrW k a.lo.w4 a.hi.w0⟩,
      ⟨BIG.fshrW k a.hi.w0 a.hi.w1, BIG.fshrW k a.hi.w1 a.hi.w2, BIG.fshrW k a.hi.w2 a.hi.w3,
        BIG.fshrW k a.hi.w3 a.hi.w4, sar a.hi.w4 k⟩⟩
  else none

/-- `dbig.rs` 174-178: the doubling loop of `dmod`. -/
def dmodUp (s m : DBIG) (k : Nat) : Option (DBIG × Nat) := do
  let m ← shl m 1
  if comp s m < 0 then return (m, k + 1) else dmodUp s m (k + 1)
partial_fixpoint

/-- `dbig.rs` 180-193: the halving loop of `dmod`. -/
def dmodDown : Nat → DBIG → DBIG → Option DBIG
  | 0, s, _ => some s
  | k + 1, s, m => do
    let m ← shr m 1
    let r ← sub s m
    let r ← norm r
    let d ← sub64 1 (and64 (sar r.hi.w4 63) 1)
    dmodDown k (cmove s r d) m

/-- `dbig.rs` 163-196 `dmod`. -/
def dmod (s : DBIG) (c : BIG) : Option BIG := do
  let s ← norm s
  let m := new_scopy c
  if comp s m < 0 then return s.lo
  let (m, k) ← dmodUp s m 0
  let s ← dmodDown k s m
  return s.lo

end DBIG

end Amcl.Secp
