import Verif.Model.Secp.Rand
import Verif.Model.Secp.EcpRest
import Verif.Model.Show
import Verif.Model.BigArith
/-!
# Model of the rest of `amcl/src/secp256k1/big.rs` and `dbig.rs`, and of the printed forms

Nothing in the repository calls these functions. `get` of limbs, `copy`, `dcopy`, `zero`, `one` and the copying constructors are
plain assignments and have no definition of their own.
-/

namespace Amcl.Secp
namespace BIG

/-- `big.rs` 320-326 `plus`. -/
def plus (a x : BIG) : Option BIG := zipM add64 a x

/-- `big.rs` 368-372 `imul`. -/
def imul (a : BIG) (c : Int) : Option BIG := zipM (fun x _ => mul64 x c) a a

/-- `big.rs` 416-426 `pxmul`. -/
def pxmul (a : BIG) (c : Int) : Option DBIG := do
  let (k, m0) ← muladd a.w0 c 0 0
  let (k, m1) ← muladd a.w1 c k 0
  let (k, m2) ← muladd a.w2 c k 0
  let (k, m3) ← muladd a.w3 c k 0
  let (k, m4) ← muladd a.w4 c k 0
  return ⟨⟨m0, m1, m2, m3, m4⟩, { new with w0 := k }⟩

/-- One round of `div3` (`big.rs` 435-437): quotient and remainder. -/
def div3W (carry w : Int) : Option (Int × Int) := do
  let ak ← mul64 carry (2 ^ 56)
  let ak ← add64 ak w
  return (Int.tdiv ak 3, Int.tmod ak 3)

/-- `big.rs` 429-440 `div3`: quotient and remainder. -/
def div3 (a : BIG) : Option (BIG × Int) := do
  let a ← norm a
  let (w4, k) ← div3W 0 a.w4
  let (w3, k) ← div3W k a.w3
  let (w2, k) ← div3W k a.w2
  let (w1, k) ← div3W k a.w1
  let (w0, k) ← div3W k a.w0
  return (⟨w0, w1, w2, w3, w4⟩, k)

/-- `big.rs` 443-455 `smul`, loops unrolled; the carry out of each row is dropped. -/
def smul (a b : BIG) : Option BIG := do
  let (k, c0) ← muladd a.w0 b.w0 0 0
  let (k, c1) ← muladd a.w0 b.w1 k 0
  let (k, c2) ← muladd a.w0 b.w2 k 0
  let (k, c3) ← muladd a.w0 b.w3 k 0
  let (_, c4) ← muladd a.w0 b.w4 k 0
  let (k, c1) ← muladd a.w1 b.w0 0 c1
  let (k, c2) ← muladd a.w1 b.w1 k c2
  let (k, c3) ← muladd a.w1 b.w2 k c3
  let (_, c4) ← muladd a.w1 b.w3 k c4
  let (k, c2) ← muladd a.w2 b.w0 0 c2
  let (k, c3) ← muladd a.w2 b.w1 k c3
  let (_, c4) ← muladd a.w2 b.w2 k c4
  let (k, c3) ← muladd a.w3 b.w0 0 c3
  let (_, c4) ← muladd a.w3 b.w1 k c4
  let (_, c4) ← muladd a.w4 b.w0 0 c4
  return ⟨c0, c1, c2, c3, c4⟩

/-- Keep limbs below `wd`, mask limb `wd`, clear the rest (`big.rs` 470-475), for limb `i`. -/
def mod2mW (wd bt i : Nat) (w : Int) : Int :=
  if i < wd then w else if i = wd then and64 w (shl64 1 bt - 1) else 0

/-- `big.rs` 468-475 `mod2m`; `none` (index panic) when `m/56 > 4`. -/
def mod2m (a : BIG) (m : Nat) : Option BIG :=
  if m / 56 > 4 then none
  else
    let wd := m / 56
    let bt := m % 56
    some ⟨mod2mW wd bt 0 a.w0, mod2mW wd bt 1 a.w1, mod2mW wd bt 2 a.w2, mod2mW wd bt 3 a.w3,
      mod2mW wd bt 4 a.w4⟩

/-- `big.rs` 478-510 `invmod256`: the same text as in `bls381/big.rs`, on one word. -/
def invmod256 (a : Int) : Int := Amcl.BIG.invmod256 a

/-- `big.rs` 988-992 `modsqr`: the result. -/
def modsqr (a m : BIG) : Option BIG := do
  let a ← rmod a m
  let d ← sqr a
  d.dmod m

/-- `big.rs` 995-998 `modneg`: the result and the reduced `a`. The difference is not normalised. -/
def modneg (a m : BIG) : Option (BIG × BIG) := do
  let a ← rmod a m
  return (← sub m a, a)

/-- `big.rs` 1009: `a.copy(&modmul(a, s, m))` if the bit is 1. -/
def powMul (bt : Int) (a s m : BIG) : Option BIG := if bt = 1 then (do return (← modmul a s m).1) else some a

/-- `big.rs` 1007-1013: the loop of `powmod` on `(a, z, s)`. `modmul` also reduces `s`
in place; `modsqr` reduces it anyway. -/
def powLoop (m a z s : BIG) : Option BIG := do
  let bt := parity z
  let z ← fshr z 1
  let a ← powMul bt a s m
  if iszilch z then return a
  let s ← modsqr s m
  powLoop m a z s
partial_fixpoint

/-- `big.rs` 1001-1015 `powmod`. -/
def powmod (s e m : BIG) : Option BIG := do
  let s ← norm s
  let e ← norm e
  powLoop m (new_int 1) e s

/-- `big.rs` 98-100 `set`; `none` for an index out of range. -/
def set (a : BIG) (i : Nat) (x : Int) : Option BIG :=
  match i with
  | 0 => some { a with w0 := x }
  | 1 => some { a with w1 := x }
  | 2 => some { a with w2 := x }
  | 3 => some { a with w3 := x }
  | 4 => some { a with w4 := x }
  | _ => none

/-- `big.rs` 102-104 `xortop`. -/
def xortop (a : BIG) (x : Int) : BIG := { a with w4 := xor64 a.w4 x }

/-- `big.rs` 106-108 `ortop`. -/
def ortop (a : BIG) (x : Int) : BIG := { a with w4 := or64 a.w4 x }

/-- `big.rs` 307-311 `or`. -/
def or (a r : BIG) : BIG :=
  ⟨or64 a.w0 r.w0, or64 a.w1 r.w1, or64 a.w2 r.w2, or64 a.w3 r.w3, or64 a.w4 r.w4⟩

/-- `big.rs` 767-773 `isok`. -/
def isok (a : BIG) : Bool :=
  sar a.w0 56 == 0 && sar a.w1 56 == 0 && sar a.w2 56 == 0 && sar a.w3 56 == 0 && sar a.w4 56 == 0

/-- Limb `i`; 0 past the end (only read where a shift writes zeros). -/
def digit (a : BIG) : Nat → Int
  | 0 => a.w0
  | 1 => a.w1
  | 2 => a.w2
  | 3 => a.w3
  | 4 => a.w4
  | _ => 0

/-- `big.rs` 232-237, limb `i` of the result: below `NLEN-m-1`, at it, above it. -/
def shrAnyW (a : BIG) (m n i : Nat) : Int :=
  if i + m < 4 then fshrW n (a.digit (m + i)) (a.digit (m + i + 1))
  else if i + m = 4 then sar a.w4 n
  else 0

/-- `big.rs` 229-238 `shr` for every `k`; `none` where `NLEN-m-1` underflows. -/
def shrAny (a : BIG) (k : Nat) : Option BIG :=
  let n := k % 56
  let m := k / 56
  if m > 4 then none
  else some ⟨shrAnyW a m n 0, shrAnyW a m n 1, shrAnyW a m n 2, shrAnyW a m n 3, shrAnyW a m n 4⟩

/-- `big.rs` 293-297: `i` digits still to come. -/
def tostringLoop (a : BIG) : Nat → List Char → Option (List Char)
  | 0, s => some s
  | i + 1, s => do
    let b ← shrAny a (i * 4)
    tostringLoop a i (s ++ [Amcl.BIG.upperHex (and64 b.w0 15)])

/-- `big.rs` 280-299 `tostring`; `MODBYTES*2` is 64. -/
def tostring (a : BIG) : Option (List Char) := do
  let len ← a.nbits
  let len := if len % 4 = 0 then len / 4 else len / 4 + 1
  let len := if len < 64 then 64 else len
  tostringLoop a len []

/-- `big.rs` 541-559: one round of `invmod2m`. `s` is `self`. -/
def inv2Step (s u : BIG) (i : Nat) : Option BIG := do
  let u ← u.norm
  let b ← s.mod2m i
  let t1 ← smul u b
  let t1 ← t1.shrAny i
  let c ← s.shrAny i
  let c ← c.mod2m i
  let t2 ← smul u c
  let t2 ← t2.mod2m i
  let t1 ← t1.add t2
  let t1 ← t1.norm
  let b ← smul t1 u
  let t1 ← b.mod2m i
  let t2 ← (new_int 1).shl i
  let t1 ← t1.rsub t2
  let t1 ← t1.norm
  let t1 ← t1.shl i
  u.add t1

/-- `big.rs` 532-565 `invmod2m`. The loop `i = 8, 16, …` below `BIGBITS = 256` is written out. -/
def invmod2m (s : BIG) : Option BIG := do
  let (l, s) ← s.lastbits 8
  let u ← new.inc (invmod256 l)
  let u ← inv2Step s u 8
  let u ← inv2Step s u 16
  let u ← inv2Step s u 32
  let u ← inv2Step s u 64
  let u ← inv2Step s u 128
  let u ← u.mod2m 256
  u.norm

/-- `big.rs` 642-650: `n` bits. -/
def random1Loop : Nat → Nat → UInt8 → BIG → RAND → Option (BIG × RAND)
  | 0, _, _, m, g => some (m, g)
  | n + 1, j, r, m, g => do
    let (r, g) ← if j = 0 then g.getbyte else pure (r >>> 1, g)
    let b : Int := (r &&& 1).toNat
    let m ← m.shl 1
    let w ← add64 m.w0 b
    random1Loop n ((j + 1) % 8) r { m with w0 := w } g

/-- `big.rs` 637-652 `random` (`j&=7` is written `% 8`). -/
def random (g : RAND) : Option (BIG × RAND) := random1Loop 256 0 0 new g

end BIG

namespace DBIG

/-- `dbig.rs` 208-212: the doubling loop of `div`. -/
def divUp (s m : DBIG) (e : BIG) (k : Nat) : Option (DBIG × BIG × Nat) := do
  if comp s m ≥ 0 then
    let e ← e.fshl 1
    let m ← m.shl 1
    divUp s m e (k + 1)
  else return (m, e, k)
partial_fixpoint

/-- `dbig.rs` 214-235: the halving loop of `div`; the result is `a`. -/
def divDown : Nat → DBIG → DBIG → BIG → BIG → Option BIG
  | 0, _, _, _, a => some a
  | k + 1, s, m, e, a => do
    let m ← m.shr 1
    let e ← e.shr 1
    let dr ← s.sub m
    let dr ← dr.norm
    let d ← sub64 1 (and64 (sar dr.hi.w4 63) 1)
    let s := s.cmove dr d
    let r ← a.add e
    let r ← r.norm
    divDown k s m e (a.cmove r d)

/-- `dbig.rs` 199-237 `div`. -/
def div (s : DBIG) (c : BIG) : Option BIG := do
  let s ← norm s
  let (m, e, k) ← divUp s (new_scopy c) (BIG.new_int 1) 0
  divDown k s m e BIG.new

/-- Limb `i`; 0 past the end (only read where a shift writes zeros). -/
def digit (d : DBIG) (i : Nat) : Int := if i < 5 then d.lo.digit i else d.hi.digit (i - 5)

/-- `dbig.rs` 62-66: limb `i` of the result of `split`; `m` is `n % 56`. The carry into the highest limb is
not masked. -/
def splitW (d : DBIG) (m i : Nat) : Int :=
  or64 (sar (d.digit (i + 4)) m)
    (if i = 4 then shl64 d.hi.w4 (56 - m) else and64 (shl64 (d.digit (i + 5)) (56 - m)) BMASK)

/-- `dbig.rs` 56-69 `split`: the result and the new `self`. -/
def split (d : DBIG) (n : Nat) : BIG × DBIG :=
  let m := n % 56
  (⟨splitW d m 0, splitW d m 1, splitW d m 2, splitW d m 3, splitW d m 4⟩,
   { d with lo := { d.lo with w4 := and64 d.lo.w4 (shl64 1 m - 1) } })

/-- `dbig.rs` 243-248, from limb `k` down. -/
def nbitsFrom (d : DBIG) : Nat → Nat
  | 0 => if d.digit 0 ≠ 0 then BIG.bitLen 64 (d.digit 0) else 0
  | k + 1 => if d.digit (k + 1) ≠ 0 then 56 * (k + 1) + BIG.bitLen 64 (d.digit (k + 1)) else nbitsFrom d k

/-- `dbig.rs` 240-249 `nbits`: the result and the normalised `self`. -/
def nbits (d : DBIG) : Option (Nat × DBIG) := do
  let d ← d.norm
  return (nbitsFrom d 9, d)

/-- `dbig.rs` 89-93, limb `i` of the result. -/
def shrAnyW (d : DBIG) (m n i : Nat) : Int :=
  if i + m < 9 then BIG.fshrW n (d.digit (m + i)) (d.digit (m + i + 1))
  else if i + m = 9 then sar d.hi.w4 n
  else 0

/-- `dbig.rs` 86-94 `shr` for every `k`; `none` where `DNLEN-m-1` underflows. -/
def shrAny (d : DBIG) (k : Nat) : Option DBIG :=
  let n := k % 56
  let m := k / 56
  if m > 9 then none
  else some ⟨⟨shrAnyW d m n 0, shrAnyW d m n 1, shrAnyW d m n 2, shrAnyW d m n 3, shrAnyW d m n 4⟩,
    ⟨shrAnyW d m n 5, shrAnyW d m n 6, shrAnyW d m n 7, shrAnyW d m n 8, shrAnyW d m n 9⟩⟩

/-- `dbig.rs` 264-268: `i` digits still to come. -/
def to_stringLoop (d : DBIG) : Nat → List Char → Option (List Char)
  | 0, s => some s
  | i + 1, s => do
    let b ← shrAny d (i * 4)
    to_stringLoop d i (s ++ [Amcl.BIG.upperHex (and64 b.lo.w0 15)])

/-- `dbig.rs` 253-270 `to_string`. -/
def to_string (d : DBIG) : Option (List Char) := do
  let (len, d) ← d.nbits
  let len := if len % 4 = 0 then len / 4 else len / 4 + 1
  to_stringLoop d len []

end DBIG

/-- `fp.rs` 181-184 `tostring`. -/
def FP.tostring (f : FP) : Option (List Char) := do (← f.redc).tostring

/-- `ecp.rs` 396-402 `tostring` (the curve is not Montgomery). -/
def ECP.tostring (P : ECP) : Option (List Char) := do
  if ← P.is_infinity then return "infinity".toList
  let P ← P.affine
  return '(' :: (← (← P.x.redc).tostring) ++ ',' :: (← (← P.y.redc).tostring) ++ [')']

end Amcl.Secp
