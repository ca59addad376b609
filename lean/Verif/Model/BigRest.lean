import Verif.Model.Show
import Verif.Model.BigArith
/-!
# Model of the rest of `amcl/src/bls381/big.rs` and `dbig.rs`

Nothing in the repository calls these functions.
-/

namespace Amcl
namespace BIG

/-- `big.rs` 98-100 `set`; `none` for an index out of range. -/
def set (a : BIG) (i : Nat) (x : Int) : Option BIG :=
  match i with
  | 0 => some { a with w0 := x }
  | 1 => some { a with w1 := x }
  | 2 => some { a with w2 := x }
  | 3 => some { a with w3 := x }
  | 4 => some { a with w4 := x }
  | 5 => some { a with w5 := x }
  | 6 => some { a with w6 := x }
  | _ => none

/-- `big.rs` 102-104 `xortop`. -/
def xortop (a : BIG) (x : Int) : BIG := { a with w6 := xor64 a.w6 x }

/-- `big.rs` 106-108 `ortop`. -/
def ortop (a : BIG) (x : Int) : BIG := { a with w6 := or64 a.w6 x }

/-- `big.rs` 767-773 `isok`. -/
def isok (a : BIG) : Bool :=
  sar a.w0 58 == 0 && sar a.w1 58 == 0 && sar a.w2 58 == 0 && sar a.w3 58 == 0 && sar a.w4 58 == 0 &&
    sar a.w5 58 == 0 && sar a.w6 58 == 0

/-- `big.rs` 256-262, limb `i` of the result. Line 261 comes last and overrides line 256 when `m = 6`. -/
def shlAnyW (a : BIG) (m n i : Nat) : Int :=
  if i = m then and64 (shl64 a.w0 n) BMASK
  else if i < m then 0
  else if i < 6 then fshlW n (a.limb (i - m)) (a.limb (i - m - 1))
  else or64 (shl64 (a.limb (6 - m)) n) (sar (a.limb (5 - m)) (58 - n))

/-- `big.rs` 252-263 `shl` for every `k`; `none` where `NLEN-1-m` underflows. -/
def shlAny (a : BIG) (k : Nat) : Option BIG :=
  let n := k % 58
  let m := k / 58
  if m > 6 then none
  else some ⟨shlAnyW a m n 0, shlAnyW a m n 1, shlAnyW a m n 2, shlAnyW a m n 3, shlAnyW a m n 4,
    shlAnyW a m n 5, shlAnyW a m n 6⟩

/-- `big.rs` 541-559: one round of `invmod2m`. `s` is `self`. -/
def inv2Step (s u : BIG) (i : Nat) : Option BIG := do
  let u ← u.norm
  let b ← s.mod2m i
  let t1 ← smul u b
  let t1 ← t1.shrAny i
  let c ← s.shrAny i
  let c ← c.mod2m i
  let t2 ← smul u c
  let t2 ← t2.mod2m i
  let t1 ← t1.add t2
  let t1 ← t1.norm
  let b ← smul t1 u
  let t1 ← b.mod2m i
  let t2 ← (new_int 1).shlAny i
  let t1 ← t1.rsub t2
  let t1 ← t1.norm
  let t1 ← t1.shlAny i
  u.add t1

/-- `big.rs` 532-565 `invmod2m`. The loop `i = 8, 16, …` below `BIGBITS = 384` is written out. -/
def invmod2m (s : BIG) : Option BIG := do
  let (l, s) ← s.lastbits 8
  let u ← new.inc (invmod256 l)
  let u ← inv2Step s u 8
  let u ← inv2Step s u 16
  let u ← inv2Step s u 32
  let u ← inv2Step s u 64
  let u ← inv2Step s u 128
  let u ← inv2Step s u 256
  let u ← u.mod2m 384
  u.norm

/-- `big.rs` 642-650: `n` bits. -/
def random1Loop : Nat → Nat → UInt8 → BIG → RAND → Option (BIG × RAND)
  | 0, _, _, m, g => some (m, g)
  | n + 1, j, r, m, g => do
    let (r, g) ← if j = 0 then g.getbyte else pure (r >>> 1, g)
    let b : Int := (r &&& 1).toNat
    let m ← m.shlAny 1
    let w ← add64 m.w0 b
    random1Loop n ((j + 1) % 8) r { m with w0 := w } g

/-- `big.rs` 637-652 `random` (`j&=7` is written `% 8`). -/
def random (g : RAND) : Option (BIG × RAND) := random1Loop 384 0 0 new g

end BIG

namespace DBIG

/-- Limb `i`; 0 past the end (only read where a shift writes zeros). -/
def limb (d : DBIG) (i : Nat) : Int := if i < 7 then d.lo.limb i else d.hi.limb (i - 7)

/-- `dbig.rs` 62-66: limb `i` of the result of `split`; `m` is `n % 58`. The carry into the highest limb is
not masked. -/
def splitW (d : DBIG) (m i : Nat) : Int :=
  or64 (sar (d.limb (i + 6)) m)
    (if i = 6 then shl64 d.hi.w6 (58 - m) else and64 (shl64 (d.limb (i + 7)) (58 - m)) BMASK)

/-- `dbig.rs` 56-69 `split`: the result and the new `self`. -/
def split (d : DBIG) (n : Nat) : BIG × DBIG :=
  let m := n % 58
  (⟨splitW d m 0, splitW d m 1, splitW d m 2, splitW d m 3, splitW d m 4, splitW d m 5, splitW d m 6⟩,
   { d with lo := { d.lo with w6 := and64 d.lo.w6 (shl64 1 m - 1) } })

/-- `dbig.rs` 243-248, from limb `k` down. -/
def nbitsFrom (d : DBIG) : Nat → Nat
  | 0 => if d.limb 0 ≠ 0 then BIG.bitLen 64 (d.limb 0) else 0
  | k + 1 => if d.limb (k + 1) ≠ 0 then 58 * (k + 1) + BIG.bitLen 64 (d.limb (k + 1)) else nbitsFrom d k

/-- `dbig.rs` 240-249 `nbits`: the result and the normalised `self`. -/
def nbits (d : DBIG) : Option (Nat × DBIG) := do
  let d ← d.norm
  return (nbitsFrom d 13, d)

/-- `dbig.rs` 89-93, limb `i` of the result. -/
def shrAnyW (d : DBIG) (m n i : Nat) : Int :=
  if i + m < 13 then BIG.fshrW n (d.limb (m + i)) (d.limb (m + i + 1))
  else if i + m = 13 then sar d.hi.w6 n
  else 0

/-- `dbig.rs` 86-94 `shr` for every `k`; `none` where `DNLEN-m-1` underflows. -/
def shrAny (d : DBIG) (k : Nat) : Option DBIG :=
  let n := k % 58
  let m := k / 58
  if m > 13 then none
  else some ⟨⟨shrAnyW d m n 0, shrAnyW d m n 1, shrAnyW d m n 2, shrAnyW d m n 3, shrAnyW d m n 4,
    shrAnyW d m n 5, shrAnyW d m n 6⟩, ⟨shrAnyW d m n 7, shrAnyW d m n 8, shrAnyW d m n 9, shrAnyW d m n 10,
    shrAnyW d m n 11, shrAnyW d m n 12, shrAnyW d m n 13⟩⟩

/-- `dbig.rs` 264-268: `i` digits still to come. -/
def to_stringLoop (d : DBIG) : Nat → List Char → Option (List Char)
  | 0, s => some s
  | i + 1, s => do
    let b ← shrAny d (i * 4)
    to_stringLoop d i (s ++ [BIG.upperHex (and64 b.lo.w0 15)])

/-- `dbig.rs` 253-270 `to_string`. -/
def to_string (d : DBIG) : Option (List Char) := do
  let (len, d) ← d.nbits
  let len := if len % 4 = 0 then len / 4 else len / 4 + 1
  to_stringLoop d len []

end DBIG
end Amcl
