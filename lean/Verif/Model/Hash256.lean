/-!
# Model of `amcl/src/hash256.rs`

`u32` values are `UInt32`, whose `+` is `wrapping_add`. Array accesses are checked (`none` = index
panic), as are the additions written with plain `+`.
-/

namespace Amcl

/-- `hash256.rs` 40-44. -/
structure HASH256 where
  length0 : UInt32
  length1 : UInt32
  h : Vector UInt32 8
  w : Vector UInt32 64
deriving DecidableEq, Repr

namespace HASH256

/-- `hash256.rs` 20-27. -/
def H0 : Vector UInt32 8 := #v[0x6A09E667, 0xBB67AE85, 0x3C6EF372, 0xA54FF53A,
  0x510E527F, 0x9B05688C, 0x1F83D9AB, 0x5BE0CD19]

/-- `hash256.rs` 29-37. -/
def K : Vector UInt32 64 := #v[
  0x428a2f98,0x71374491,0xb5c0fbcf,0xe9b5dba5,0x3956c25b,0x59f111f1,0x923f82a4,0xab1c5ed5,
  0xd807aa98,0x12835b01,0x243185be,0x550c7dc3,0x72be5d74,0x80deb1fe,0x9bdc06a7,0xc19bf174,
  0xe49b69c1,0xefbe4786,0x0fc19dc6,0x240ca1cc,0x2de92c6f,0x4a7484aa,0x5cb0a9dc,0x76f988da,
  0x983e5152,0xa831c66d,0xb00327c8,0xbf597fc7,0xc6e00bf3,0xd5a79147,0x06ca6351,0x14292967,
  0x27b70a85,0x2e1b2138,0x4d2c6dfc,0x53380d13,0x650a7354,0x766a0abb,0x81c2c92e,0x92722c85,
  0xa2bfe8a1,0xa81a664b,0xc24b8b70,0xc76c51a3,0xd192e819,0xd6990624,0xf40e3585,0x106aa070,
  0x19a4c116,0x1e376c08,0x2748774c,0x34b0bcb5,0x391c0cb3,0x4ed8aa4a,0x5b9cca4f,0x682e6ff3,
  0x748f82ee,0x78a5636f,0x84c87814,0x8cc70208,0x90befffa,0xa4506ceb,0xbef9a3f7,0xc67178f2]

/-- `hash256.rs` 47-49 `s` (`n` is between 2 and 25 at every call). -/
def s (n x : UInt32) : UInt32 := (x >>> n) ||| (x <<< (32 - n))
/-- `hash256.rs` 50-52 `r`. -/
def r (n x : UInt32) : UInt32 := x >>> n
/-- `hash256.rs` 54-56 `ch`. -/
def ch (x y z : UInt32) : UInt32 := (x &&& y) ^^^ (~~~x &&& z)
/-- `hash256.rs` 58-60 `maj`. -/
def maj (x y z : UInt32) : UInt32 := (x &&& y) ^^^ (x &&& z) ^^^ (y &&& z)
/-- `hash256.rs` 61-63 `sig0`. -/
def sig0 (x : UInt32) : UInt32 := s 2 x ^^^ s 13 x ^^^ s 22 x
/-- `hash256.rs` 65-67 `sig1`. -/
def sig1 (x : UInt32) : UInt32 := s 6 x ^^^ s 11 x ^^^ s 25 x
/-- `hash256.rs` 69-71 `theta0`. -/
def theta0 (x : UInt32) : UInt32 := s 7 x ^^^ s 18 x ^^^ r 3 x
/-- `hash256.rs` 73-75 `theta1`. -/
def theta1 (x : UInt32) : UInt32 := s 17 x ^^^ s 19 x ^^^ r 10 x

/-- `a[i] = v` with an index check. -/
def setAt {α : Type} {n : Nat} (a : Vector α n) (i : Nat) (v : α) : Option (Vector α n) :=
  if h : i < n then some (a.set i v) else none

/-- `hash256.rs` 78-80: the message schedule, `n` rounds from index `j`. -/
def schedule : Nat → Nat → Vector UInt32 64 → Option (Vector UInt32 64)
  | 0, _, w => some w
  | n + 1, j, w => do
    let v := theta1 (← w[j - 2]?) + (← w[j - 7]?) + theta0 (← w[j - 15]?) + (← w[j - 16]?)
    schedule n (j + 1) (← setAt w j v)

/-- The eight working variables. -/
structure Vars where
  a : UInt32
  b : UInt32
  c : UInt32
  d : UInt32
  e : UInt32
  f : UInt32
  g : UInt32
  hh : UInt32
deriving DecidableEq, Repr

/-- `hash256.rs` 84-92: one round. -/
def round (v : Vars) (k w : UInt32) : Vars :=
  let t1 := v.hh + sig1 v.e + ch v.e v.f v.g + k + w
  let t2 := sig0 v.a + maj v.a v.b v.c
  ⟨t1 + t2, v.a, v.b, v.c, v.d + t1, v.e, v.f, v.g⟩

/-- `hash256.rs` 83-92: `n` rounds from index `j`. -/
def rounds (w : Vector UInt32 64) : Nat → Nat → Vars → Option Vars
  | 0, _, v => some v
  | n + 1, j, v => do rounds w n (j + 1) (round v (← K[j]?) (← w[j]?))

/-- `hash256.rs` 77-96 `transform`. -/
def transform (t : HASH256) : Option HASH256 := do
  let w ← schedule 48 16 t.w
  let h := t.h
  let v ← rounds w 64 0 ⟨h[0], h[1], h[2], h[3], h[4], h[5], h[6], h[7]⟩
  return { t with
    w := w
    h := #v[h[0] + v.a, h[1] + v.b, h[2] + v.c, h[3] + v.d,
            h[4] + v.e, h[5] + v.f, h[6] + v.g, h[7] + v.hh] }

/-- `hash256.rs` 99-120 `init` and `new`. -/
def new : HASH256 := ⟨0, 0, H0, Vector.replicate 64 0⟩

/-- `hash256.rs` 123-130 `process`. `length[0]+=8` panics on overflow, so the carry into
`length[1]` (line 128) never happens in a run that does not panic; it is kept as written. -/
def process (t : HASH256) (byt : UInt8) : Option HASH256 := do
  let cnt := ((t.length0 / 32) % 16).toNat
  let x ← t.w[cnt]?
  let w ← setAt t.w cnt (x <<< 8)
  let x ← w[cnt]?
  let w ← setAt w cnt (x ||| (byt &&& 0xFF).toUInt32)
  if t.length0.toNat + 8 ≥ 2 ^ 32 then none
  let len := t.length0 + 8
  let t : HASH256 := if len = 0 then ⟨0, t.length1 + 1, t.h, w⟩ else ⟨len, t.length1, t.h, w⟩
  if t.length0 % 512 = 0 then transform t else return t

/-- `hash256.rs` 133-135 `process_array`. -/
def process_array (t : HASH256) (b : List UInt8) : Option HASH256 := b.foldlM process t

/-- `hash256.rs` 151: zero padding up to 448 mod 512 (at most 64 rounds). -/
def pad : Nat → HASH256 → Option HASH256
  | 0, t => if t.length0 % 512 = 448 then some t else none
  | n + 1, t => if t.length0 % 512 = 448 then some t else do pad n (← process t 0)

/-- `hash256.rs` 155-157: the digest bytes. -/
def digest (h : Vector UInt32 8) : Vector UInt8 32 :=
  Vector.ofFn fun i => ((h[i.val / 4]'(by omega) >>> (8 * (3 - i.val % 4)).toUInt32) &&& 0xff).toUInt8

/-- `hash256.rs` 146-160 `hash`: the digest (`self` is reinitialised and dropped by every caller). -/
def hash (t : HASH256) : Option (Vector UInt8 32) := do
  let len0 := t.length0
  let len1 := t.length1
  let t ← process t 0x80
  let t ← pad 64 t
  let w ← setAt t.w 14 len1
  let w ← setAt w 15 len0
  let t ← transform { t with w := w }
  return digest t.h

end HASH256

end Amcl
