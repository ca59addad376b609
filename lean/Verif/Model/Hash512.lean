import Verif.Model.Hash256
/-!
# Model of `amcl/src/hash512.rs` and `amcl/src/hash384.rs`

The two files differ in the initial words, in the length of the digest and in one respect more: the message
schedule of `hash512.rs` adds with `wrapping_add`, that of `hash384.rs` with `+`, which panics on overflow in
a debug build and wraps in a release build. The common part is defined once, with the kind of addition as a
parameter; the line numbers are those of `hash512.rs` (`hash384.rs` is one line shorter from line 53 on).

`u64` values are `UInt64`, whose `+` is `wrapping_add`. Array accesses are checked (`none` = index panic).
-/

namespace Amcl

/-- `hash512.rs` 53-57. -/
structure Sha64 where
  length0 : UInt64
  length1 : UInt64
  h : Vector UInt64 8
  w : Vector UInt64 80
deriving DecidableEq, Repr

namespace Sha64

export HASH256 (setAt)

/-- `hash512.rs` 30-50, the same table as `hash384.rs` 29-49. -/
def K : Vector UInt64 80 := #v[
  0x428a2f98d728ae22,0x7137449123ef65cd,0xb5c0fbcfec4d3b2f,0xe9b5dba58189dbbc,
  0x3956c25bf348b538,0x59f111f1b605d019,0x923f82a4af194f9b,0xab1c5ed5da6d8118,
  0xd807aa98a3030242,0x12835b0145706fbe,0x243185be4ee4b28c,0x550c7dc3d5ffb4e2,
  0x72be5d74f27b896f,0x80deb1fe3b1696b1,0x9bdc06a725c71235,0xc19bf174cf692694,
  0xe49b69c19ef14ad2,0xefbe4786384f25e3,0x0fc19dc68b8cd5b5,0x240ca1cc77ac9c65,
  0x2de92c6f592b0275,0x4a7484aa6ea6e483,0x5cb0a9dcbd41fbd4,0x76f988da831153b5,
  0x983e5152ee66dfab,0xa831c66d2db43210,0xb00327c898fb213f,0xbf597fc7beef0ee4,
  0xc6e00bf33da88fc2,0xd5a79147930aa725,0x06ca6351e003826f,0x142929670a0e6e70,
  0x27b70a8546d22ffc,0x2e1b21385c26c926,0x4d2c6dfc5ac42aed,0x53380d139d95b3df,
  0x650a73548baf63de,0x766a0abb3c77b2a8,0x81c2c92e47edaee6,0x92722c851482353b,
  0xa2bfe8a14cf10364,0xa81a664bbc423001,0xc24b8b70d0f89791,0xc76c51a30654be30,
  0xd192e819d6ef5218,0xd69906245565a910,0xf40e35855771202a,0x106aa07032bbd1b8,
  0x19a4c116b8d2d0c8,0x1e376c085141ab53,0x2748774cdf8eeb99,0x34b0bcb5e19b48a8,
  0x391c0cb3c5c95a63,0x4ed8aa4ae3418acb,0x5b9cca4f7763e373,0x682e6ff3d6b2b8a3,
  0x748f82ee5defb2fc,0x78a5636f43172f60,0x84c87814a1f0ab72,0x8cc702081a6439ec,
  0x90befffa23631e28,0xa4506cebde82bde9,0xbef9a3f7b2c67915,0xc67178f2e372532b,
  0xca273eceea26619c,0xd186b8c721c0c207,0xeada7dd6cde0eb1e,0xf57d4f7fee6ed178,
  0x06f067aa72176fba,0x0a637dc5a2c898a6,0x113f9804bef90dae,0x1b710b35131c471b,
  0x28db77f523047d84,0x32caab7b40c72493,0x3c9ebe0a15c9bebc,0x431d67c49c100d4c,
  0x4cc5d4becb3e42b6,0x597f299cfc657e2a,0x5fcb6fab3ad6faec,0x6c44198c4a475817]

/-- `hash512.rs` 60-62 `s` (`n` is between 1 and 61 at every call). -/
def s (n x : UInt64) : UInt64 := (x >>> n) ||| (x <<< (64 - n))
/-- `hash512.rs` 63-65 `r`. -/
def r (n x : UInt64) : UInt64 := x >>> n
/-- `hash512.rs` 67-69 `ch`. -/
def ch (x y z : UInt64) : UInt64 := (x &&& y) ^^^ (~~~x &&& z)
/-- `hash512.rs` 71-73 `maj`. -/
def maj (x y z : UInt64) : UInt64 := (x &&& y) ^^^ (x &&& z) ^^^ (y &&& z)
/-- `hash512.rs` 75-77 `sig0`. -/
def sig0 (x : UInt64) : UInt64 := s 28 x ^^^ s 34 x ^^^ s 39 x
/-- `hash512.rs` 79-81 `sig1`. -/
def sig1 (x : UInt64) : UInt64 := s 14 x ^^^ s 18 x ^^^ s 41 x
/-- `hash512.rs` 83-85 `theta0`. -/
def theta0 (x : UInt64) : UInt64 := s 1 x ^^^ s 8 x ^^^ r 7 x
/-- `hash512.rs` 87-89 `theta1`. -/
def theta1 (x : UInt64) : UInt64 := s 19 x ^^^ s 61 x ^^^ r 6 x

/-- Addition of the message schedule: with overflow check if `chk` is set. -/
def plus (chk : Bool) (x y : UInt64) : Option UInt64 :=
  if chk = true ∧ 2 ^ 64 ≤ x.toNat + y.toNat then none else some (x + y)

/-- `hash512.rs` 92-94, `hash384.rs` 91-93: the message schedule, `n` rounds from index `j`. -/
def schedule (chk : Bool) : Nat → Nat → Vector UInt64 80 → Option (Vector UInt64 80)
  | 0, _, w => some w
  | n + 1, j, w => do
    let v ← plus chk (theta1 (← w[j - 2]?)) (← w[j - 7]?)
    let v ← plus chk v (theta0 (← w[j - 15]?))
    let v ← plus chk v (← w[j - 16]?)
    schedule chk n (j + 1) (← setAt w j v)

/-- The eight working variables. -/
structure Vars where
  a : UInt64
  b : UInt64
  c : UInt64
  d : UInt64
  e : UInt64
  f : UInt64
  g : UInt64
  hh : UInt64
deriving DecidableEq, Repr

/-- `hash512.rs` 98-106: one round. -/
def round (v : Vars) (k w : UInt64) : Vars :=
  let t1 := v.hh + sig1 v.e + ch v.e v.f v.g + k + w
  let t2 := sig0 v.a + maj v.a v.b v.c
  ⟨t1 + t2, v.a, v.b, v.c, v.d + t1, v.e, v.f, v.g⟩

/-- `hash512.rs` 97-106: `n` rounds from index `j`. -/
def rounds (w : Vector UInt64 80) : Nat → Nat → Vars → Option Vars
  | 0, _, v => some v
  | n + 1, j, v => do rounds w n (j + 1) (round v (← K[j]?) (← w[j]?))

/-- `hash512.rs` 91-110 `transform`. -/
def transform (chk : Bool) (t : Sha64) : Option Sha64 := do
  let w ← schedule chk 64 16 t.w
  let h := t.h
  let v ← rounds w 80 0 ⟨h[0], h[1], h[2], h[3], h[4], h[5], h[6], h[7]⟩
  return { t with
    w := w
    h := #v[h[0] + v.a, h[1] + v.b, h[2] + v.c, h[3] + v.d,
            h[4] + v.e, h[5] + v.f, h[6] + v.g, h[7] + v.hh] }

/-- `hash512.rs` 113-124 `init` with the initial words `H0`; only 64 of the 80 words of `w` are cleared. -/
def init (H0 : Vector UInt64 8) (t : Sha64) : Sha64 :=
  ⟨0, 0, H0, Vector.ofFn fun i => if i.val < 64 then 0 else t.w[i]⟩

/-- `hash512.rs` 126-134 `new`. -/
def new (H0 : Vector UInt64 8) : Sha64 := init H0 ⟨0, 0, Vector.replicate 8 0, Vector.replicate 80 0⟩

/-- `hash512.rs` 137-144 `process`. `length[0]+=8` panics on overflow, so the carry into
`length[1]` (line 142) never happens in a run that does not panic; it is kept as written. -/
def process (chk : Bool) (t : Sha64) (byt : UInt8) : Option Sha64 := do
  let cnt := ((t.length0 / 64) % 16).toNat
  let x ← t.w[cnt]?
  let w ← setAt t.w cnt (x <<< 8)
  let x ← w[cnt]?
  let w ← setAt w cnt (x ||| (byt &&& 0xFF).toUInt64)
  if t.length0.toNat + 8 ≥ 2 ^ 64 then none
  let len := t.length0 + 8
  let t : Sha64 := if len = 0 then ⟨0, t.length1 + 1, t.h, w⟩ else ⟨len, t.length1, t.h, w⟩
  if t.length0 % 1024 = 0 then transform chk t else return t

/-- `hash512.rs` 147-149 `process_array`. -/
def process_array (chk : Bool) (t : Sha64) (b : List UInt8) : Option Sha64 := b.foldlM (process chk) t

/-- `hash512.rs` 165: zero padding up to 896 mod 1024 (at most 128 rounds). -/
def pad (chk : Bool) : Nat → Sha64 → Option Sha64
  | 0, t => if t.length0 % 1024 = 896 then some t else none
  | n + 1, t => if t.length0 % 1024 = 896 then some t else do pad chk n (← process chk t 0)

/-- `hash512.rs` 169-171: digest byte `i`. -/
def digestByte (h : Vector UInt64 8) (i : Nat) (hi : i < 64) : UInt8 :=
  ((h[i / 8]'(by omega) >>> (8 * (7 - i % 8)).toUInt64) &&& 0xff).toUInt8

/-- `hash512.rs` 160-174 `hash` up to the digest: the final state. -/
def finish (chk : Bool) (t : Sha64) : Option Sha64 := do
  let len0 := t.length0
  let len1 := t.length1
  let t ← process chk t 0x80
  let t ← pad chk 128 t
  let w ← setAt t.w 14 len1
  let w ← setAt w 15 len0
  transform chk { t with w := w }

end Sha64

namespace HASH512

/-- `hash512.rs` 21-28. -/
def H0 : Vector UInt64 8 := #v[0x6a09e667f3bcc908, 0xbb67ae8584caa73b, 0x3c6ef372fe94f82b, 0xa54ff53a5f1d36f1,
  0x510e527fade682d1, 0x9b05688c2b3e6c1f, 0x1f83d9abfb41bd6b, 0x5be0cd19137e2179]

/-- `hash512.rs` 126-134 `new`. -/
def new : Sha64 := Sha64.new H0

/-- `hash512.rs` 147-149 `process_array`. -/
def process_array (t : Sha64) (b : List UInt8) : Option Sha64 := Sha64.process_array false t b

/-- `hash512.rs` 160-174 `hash`: the digest and the new `self`. -/
def hash (t : Sha64) : Option (Vector UInt8 64 × Sha64) := do
  let t ← Sha64.finish false t
  return (Vector.ofFn fun i => Sha64.digestByte t.h i.val i.isLt, Sha64.init H0 t)

end HASH512

namespace HASH384

/-- `hash384.rs` 20-27. -/
def H0 : Vector UInt64 8 := #v[0xcbbb9d5dc1059ed8, 0x629a292a367cd507, 0x9159015a3070dd17, 0x152fecd8f70e5939,
  0x67332667ffc00b31, 0x8eb44a8768581511, 0xdb0c2e0d64f98fa7, 0x47b5481dbefa4fa4]

/-- `hash384.rs` 125-133 `new`. -/
def new : Sha64 := Sha64.new H0

/-- `hash384.rs` 146-148 `process_array`; `debug` says whether overflow panics. -/
def process_array (debug : Bool) (t : Sha64) (b : List UInt8) : Option Sha64 := Sha64.process_array debug t b

/-- `hash384.rs` 159-173 `hash`: the digest and the new `self`; `debug` says whether overflow panics. -/
def hash (debug : Bool) (t : Sha64) : Option (Vector UInt8 48 × Sha64) := do
  let t ← Sha64.finish debug t
  return (Vector.ofFn fun i => Sha64.digestByte t.h i.val (by omega), Sha64.init H0 t)

end HASH384

end Amcl
