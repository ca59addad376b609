import Verif.Model.Hash256
/-!
# Model of `amcl/src/sha3.rs`

`u64` words are `UInt64`; the counters `length` (`u64`), `rate` and `len` (`usize`) are natural numbers with
the overflow checks of a debug build: `none` stands for a panic or for a loop without end. The two nested loops
of lines 72-76 and 108-112 write every word of the state once, from words that they do not write before; they are
one `Vector.ofFn`.
-/

namespace Amcl

/-- `sha3.rs` 40-45. -/
structure SHA3 where
  length : Nat
  rate : Nat
  len : Nat
  s : Vector (Vector UInt64 5) 5
deriving DecidableEq, Repr

namespace SHA3

/-- `sha3.rs` 21-26: values of `olen`. -/
def HASH224 : Nat := 28
/-- `sha3.rs` 22. -/
def HASH256 : Nat := 32
/-- `sha3.rs` 23. -/
def HASH384 : Nat := 48
/-- `sha3.rs` 24. -/
def HASH512 : Nat := 64
/-- `sha3.rs` 25. -/
def SHAKE128 : Nat := 16
/-- `sha3.rs` 26. -/
def SHAKE256 : Nat := 32

/-- `sha3.rs` 30-36. -/
def RC : Vector UInt64 24 := #v[
  0x0000000000000001,0x0000000000008082,0x800000000000808A,0x8000000080008000,
  0x000000000000808B,0x0000000080000001,0x8000000080008081,0x8000000000008009,
  0x000000000000008A,0x0000000000000088,0x0000000080008009,0x000000008000000A,
  0x000000008000808B,0x800000000000008B,0x8000000000008089,0x8000000000008003,
  0x8000000000008002,0x8000000000000080,0x000000000000800A,0x800000008000000A,
  0x8000000080008081,0x8000000000008080,0x0000000080000001,0x8000000080008008]

/-- `sha3.rs` 48-50 `rotl` (`n` is between 1 and 62 at every call). -/
def rotl (x n : UInt64) : UInt64 := (x <<< n) ||| (x >>> (64 - n))

/-- `sha3.rs` 58-68: the words `c` and `d`; lines 70-74. -/
def theta (s : Vector (Vector UInt64 5) 5) : Vector (Vector UInt64 5) 5 :=
  let c0 := s[0][0] ^^^ s[0][1] ^^^ s[0][2] ^^^ s[0][3] ^^^ s[0][4]
  let c1 := s[1][0] ^^^ s[1][1] ^^^ s[1][2] ^^^ s[1][3] ^^^ s[1][4]
  let c2 := s[2][0] ^^^ s[2][1] ^^^ s[2][2] ^^^ s[2][3] ^^^ s[2][4]
  let c3 := s[3][0] ^^^ s[3][1] ^^^ s[3][2] ^^^ s[3][3] ^^^ s[3][4]
  let c4 := s[4][0] ^^^ s[4][1] ^^^ s[4][2] ^^^ s[4][3] ^^^ s[4][4]
  let d : Vector UInt64 5 :=
    #v[c4 ^^^ rotl c1 1, c0 ^^^ rotl c2 1, c1 ^^^ rotl c3 1, c2 ^^^ rotl c4 1, c3 ^^^ rotl c0 1]
  Vector.ofFn fun i => Vector.ofFn fun j => s[i][j] ^^^ d[i]

/-- `sha3.rs` 76-104: the words `b`. -/
def rhopi (s : Vector (Vector UInt64 5) 5) : Vector (Vector UInt64 5) 5 := #v[
  #v[s[0][0], rotl s[3][0] 28, rotl s[1][0] 1, rotl s[4][0] 27, rotl s[2][0] 62],
  #v[rotl s[1][1] 44, rotl s[4][1] 20, rotl s[2][1] 6, rotl s[0][1] 36, rotl s[3][1] 55],
  #v[rotl s[2][2] 43, rotl s[0][2] 3, rotl s[3][2] 25, rotl s[1][2] 10, rotl s[4][2] 39],
  #v[rotl s[3][3] 21, rotl s[1][3] 45, rotl s[4][3] 8, rotl s[2][3] 15, rotl s[0][3] 41],
  #v[rotl s[4][4] 14, rotl s[2][4] 61, rotl s[0][4] 18, rotl s[3][4] 56, rotl s[1][4] 2]]

/-- `sha3.rs` 106-110. -/
def chi (b : Vector (Vector UInt64 5) 5) : Vector (Vector UInt64 5) 5 :=
  Vector.ofFn fun i => Vector.ofFn fun j =>
    b[i][j] ^^^ (~~~(b[(i.val + 1) % 5]'(by omega))[j] &&& (b[(i.val + 2) % 5]'(by omega))[j])

/-- `sha3.rs` 57-113: `n` rounds from index `k`. -/
def rounds : Nat → Nat → Vector (Vector UInt64 5) 5 → Option (Vector (Vector UInt64 5) 5)
  | 0, _, s => some s
  | n + 1, k, s => do
    let s := chi (rhopi (theta s))
    rounds n (k + 1) (s.set 0 (s[0].set 0 (s[0][0] ^^^ (← RC[k]?))))

/-- `sha3.rs` 52-114 `transform`. -/
def transform (t : SHA3) : Option SHA3 := do
  return { t with s := ← rounds 24 0 t.s }

/-- `sha3.rs` 117-126 `init`. -/
def init (_t : SHA3) (olen : Nat) : Option SHA3 := do
  if 200 < 2 * olen then none
  return ⟨0, 200 - 2 * olen, olen, Vector.replicate 5 (Vector.replicate 5 0)⟩

/-- `sha3.rs` 128-137 `new`. -/
def new (olen : Nat) : Option SHA3 := init ⟨0, 0, 0, Vector.replicate 5 (Vector.replicate 5 0)⟩ olen

/-- `sha3.rs` 140-151 `process`. -/
def process (t : SHA3) (byt : UInt8) : Option SHA3 := do
  if t.rate = 0 then none
  let cnt := t.length % t.rate
  let b := cnt % 8
  let ind := cnt / 8
  let i := ind % 5
  let j := ind / 5
  let row ← t.s[i]?
  let x ← row[j]?
  let row ← HASH256.setAt row j (x ^^^ (byt &&& 0xff).toUInt64 <<< (8 * b).toUInt64)
  let s ← HASH256.setAt t.s i row
  if 2 ^ 64 ≤ t.length + 1 then none
  let t := { t with s := s, length := t.length + 1 }
  if cnt + 1 = t.rate then transform t else return t

/-- A write to a slice, with the check of the index. -/
def setB (b : List UInt8) (m : Nat) (x : UInt8) : Option (List UInt8) :=
  if m < b.length then some (b.set m x) else none

/-- `sha3.rs` 161-169: `n` rounds with the word `el`. Result: the buffer, `m`, `done`. -/
def squeezeWord (rate olen : Nat) : Nat → UInt64 → List UInt8 → Nat → Option (List UInt8 × Nat × Bool)
  | 0, _, buff, m => some (buff, m, false)
  | n + 1, el, buff, m => do
    let buff ← setB buff m (el &&& 0xff).toUInt8
    let m := m + 1
    if olen ≤ m then return (buff, m, true)
    if rate = 0 then none
    if m % rate = 0 then return (buff, m, true)
    squeezeWord rate olen n (el >>> 8) buff m

/-- `sha3.rs` 159-171: `n` rounds from `i`. -/
def squeezeRow (s : Vector (Vector UInt64 5) 5) (rate olen j : Nat) : Nat → Nat → List UInt8 → Nat → Option (List UInt8 × Nat × Bool)
  | 0, _, buff, m => some (buff, m, false)
  | n + 1, i, buff, m => do
    let row ← s[i]?
    let el ← row[j]?
    let (buff, m, done) ← squeezeWord rate olen 8 el buff m
    if done then return (buff, m, true)
    squeezeRow s rate olen j n (i + 1) buff m

/-- `sha3.rs` 158-173: `n` rounds from `j`. -/
def squeezeAll (s : Vector (Vector UInt64 5) 5) (rate olen : Nat) : Nat → Nat → List UInt8 → Nat → Option (List UInt8 × Nat)
  | 0, _, buff, m => some (buff, m)
  | n + 1, j, buff, m => do
    let (buff, m, done) ← squeezeRow s rate olen j 5 0 buff m
    if done then return (buff, m)
    squeezeAll s rate olen n (j + 1) buff m

/-- `sha3.rs` 157-177. -/
def squeezeLoop (t : SHA3) (olen : Nat) (buff : List UInt8) (m : Nat) : Option (List UInt8 × SHA3) := do
  let (buff, m) ← squeezeAll t.s t.rate olen 5 0 buff m
  if olen ≤ m then return (buff, t)
  let t ← transform t
  squeezeLoop t olen buff m
partial_fixpoint

/-- `sha3.rs` 153-179 `squeeze`: the new contents of `buff` and the new `self`. -/
def squeeze (t : SHA3) (buff : List UInt8) (olen : Nat) : Option (List UInt8 × SHA3) :=
  squeezeLoop t olen buff 0

/-- `sha3.rs` 188, 201: padding with zeros. -/
def padLoop (t : SHA3) : Option SHA3 := do
  if t.rate = 0 then none
  if t.length % t.rate = t.rate - 1 then return t
  let t ← process t 0x00
  padLoop t
partial_fixpoint

/-- `sha3.rs` 183-190 and 196-203: padding with the bytes `one` and `two`. -/
def pad (t : SHA3) (one two : UInt8) : Option SHA3 := do
  if t.rate = 0 then none
  let q := t.rate - t.length % t.rate
  if q = 1 then process t one
  else
    let t ← process t two
    let t ← padLoop t
    process t 0x80

/-- `sha3.rs` 182-193 `hash`. -/
def hash (t : SHA3) (digest : List UInt8) : Option (List UInt8 × SHA3) := do
  let t ← pad t 0x86 0x06
  squeeze t digest t.len

/-- `sha3.rs` 195-205 `shake`. -/
def shake (t : SHA3) (digest : List UInt8) (olen : Nat) : Option (List UInt8 × SHA3) := do
  let t ← pad t 0x9f 0x1f
  squeeze t digest olen

end SHA3

end Amcl
