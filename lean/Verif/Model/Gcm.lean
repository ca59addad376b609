import Verif.Model.Aes
/-!
# Model of `amcl/src/gcm.rs`

As in `Verif/Model/Aes.lean`; the flag `dbg` says whether the build checks overflows. Slices are lists, with checks of
the index. `none` stands for a panic.
-/

namespace Amcl

/-- `gcm.rs` 29-38. -/
structure GCM where
  table : Vector (Vector UInt32 4) 128
  statex : Vector UInt8 16
  y_0 : Vector UInt8 16
  lena : Vector UInt32 2
  lenc : Vector UInt32 2
  status : Nat
  a : AES
deriving DecidableEq, Repr

namespace GCM

/-- `gcm.rs` 21. -/
def ACCEPTING_HEADER : Nat := 0
/-- `gcm.rs` 22. -/
def ACCEPTING_CIPHER : Nat := 1
/-- `gcm.rs` 23. -/
def NOT_ACCEPTING_MORE : Nat := 2
/-- `gcm.rs` 24. -/
def FINISHED : Nat := 3

/-- `gcm.rs` 42-44. -/
def pack (b : Vector UInt8 4) : UInt32 :=
  ((b[0] &&& 0xff).toUInt32 <<< 24) ||| ((b[1] &&& 0xff).toUInt32 <<< 16) |||
    ((b[2] &&& 0xff).toUInt32 <<< 8) ||| (b[3] &&& 0xff).toUInt32

/-- `gcm.rs` 46-49. -/
def unpack (a : UInt32) : Vector UInt8 4 :=
  #v[((a >>> 24) &&& 0xff).toUInt8, ((a >>> 16) &&& 0xff).toUInt8, ((a >>> 8) &&& 0xff).toUInt8, (a &&& 0xff).toUInt8]

/-- The sum `x+1` of `u32` numbers. -/
def add1 (dbg : Bool) (x : UInt32) : Option UInt32 :=
  if dbg = true ∧ x = 0xffffffff then none else some (x + 1)

/-- `gcm.rs` 61-62: the row after `r`. -/
def nextRow (r : Vector UInt32 4) : Vector UInt32 4 :=
  let t0 := r[0] >>> 1
  let t1 := (r[0] <<< 31) ||| (r[1] >>> 1)
  let t2 := (r[1] <<< 31) ||| (r[2] >>> 1)
  let t3 := (r[2] <<< 31) ||| (r[3] >>> 1)
  let c := r[3] <<< 31
  if c ≠ 0 then #v[t0 ^^^ 0xE1000000, t1, t2, t3] else #v[t0, t1, t2, t3]

/-- `gcm.rs` 59-63: the loop from `i`, with `n` rounds left. -/
def fill : Nat → Nat → Vector (Vector UInt32 4) 128 → Option (Vector (Vector UInt32 4) 128)
  | 0, _, t => some t
  | n + 1, i, t => do
    if i < 1 then none
    let r ← t[i - 1]?
    let t ← HASH256.setAt t i (nextRow r)
    fill n (i + 1) t

/-- `gcm.rs` 51-64 `precompute`. -/
def precompute (g : GCM) (h : Vector UInt8 16) : Option GCM := do
  let row : Vector UInt32 4 := #v[pack #v[h[0], h[1], h[2], h[3]], pack #v[h[4], h[5], h[6], h[7]],
    pack #v[h[8], h[9], h[10], h[11]], pack #v[h[12], h[13], h[14], h[15]]]
  let t ← HASH256.setAt g.table 0 row
  return { g with table := ← fill 127 1 t }

/-- `gcm.rs` 72-80: the loop from `i`, with `n` rounds left. In the round `i` the variable `m` is `i/8` and `j`, after line
73, is `7-i%8`. -/
def mulLoop (dbg : Bool) (t : Vector (Vector UInt32 4) 128) (s : Vector UInt8 16) : Nat → Nat → Vector UInt32 4 →
    Option (Vector UInt32 4)
  | 0, _, p => some p
  | n + 1, i, p => do
    let x ← s[i / 8]?
    let c := ((x >>> (7 - i % 8).toUInt8) &&& 1).toUInt32
    let c ← add1 dbg (~~~c)
    let r ← t[i]?
    mulLoop dbg t s n (i + 1)
      #v[p[0] ^^^ (r[0] &&& c), p[1] ^^^ (r[1] &&& c), p[2] ^^^ (r[2] &&& c), p[3] ^^^ (r[3] &&& c)]

/-- `gcm.rs` 82-86 and 99-103: the bytes of four words. -/
def store (p : Vector UInt32 4) : Vector UInt8 16 :=
  let b0 := unpack p[0]
  let b1 := unpack p[1]
  let b2 := unpack p[2]
  let b3 := unpack p[3]
  #v[b0[0], b0[1], b0[2], b0[3], b1[0], b1[1], b1[2], b1[3],
     b2[0], b2[1], b2[2], b2[3], b3[0], b3[1], b3[2], b3[3]]

/-- `gcm.rs` 66-87 `gf2mul`. -/
def gf2mul (dbg : Bool) (g : GCM) : Option GCM := do
  let p ← mulLoop dbg g.table g.statex 128 0 (Vector.replicate 4 0)
  return { g with statex := store p }

/-- `gcm.rs` 89-106 `wrap`. -/
def wrap (dbg : Bool) (g : GCM) : Option GCM := do
  let f : Vector UInt32 4 := #v[(g.lena[0] <<< 3) ||| ((g.lena[1] &&& 0xE0000000) >>> 29), g.lena[1] <<< 3,
    (g.lenc[0] <<< 3) ||| ((g.lenc[1] &&& 0xE0000000) >>> 29), g.lenc[1] <<< 3]
  gf2mul dbg { g with statex := AES.xorFirst 16 g.statex (store f) }

/-- `gcm.rs` 117, 174, 205, 237: a counter of two words, plus 1. -/
def count (dbg : Bool) (l : Vector UInt32 2) : Option (Vector UInt32 2) := do
  let x ← add1 dbg l[1]
  if x = 0 then return #v[← add1 dbg l[0], x]
  else return #v[l[0], x]

/-- `gcm.rs` 114-118 and 171-175: the loop from `i` with `n` rounds left, on the state and the counter. Result: also `j`. -/
def absorbBlock (dbg : Bool) (src : List UInt8) (len : Nat) : Nat → Nat → Nat → Vector UInt8 16 → Vector UInt32 2 →
    Option (Nat × Vector UInt8 16 × Vector UInt32 2)
  | 0, _, j, s, l => some (j, s, l)
  | n + 1, i, j, s, l => do
    if len ≤ j then return (j, s, l)
    let x ← s[i]?
    let y ← src[j]?
    let s ← HASH256.setAt s i (x ^^^ y)
    let l ← count dbg l
    absorbBlock dbg src len n (i + 1) (j + 1) s l

/-- `gcm.rs` 113-120: the loop from `j`, with the counter `lenc`. -/
def ghashLoop (dbg : Bool) (plain : List UInt8) (len j : Nat) (g : GCM) : Option GCM := do
  if j < len then
    let (j, s, l) ← absorbBlock dbg plain len 16 0 j g.statex g.lenc
    let g ← gf2mul dbg { g with statex := s, lenc := l }
    ghashLoop dbg plain len j g
  else return g
partial_fixpoint

/-- `gcm.rs` 108-123 `ghash`. -/
def ghash (dbg : Bool) (g : GCM) (plain : List UInt8) (len : Nat) : Option (GCM × Bool) := do
  let g := if g.status = ACCEPTING_HEADER then { g with status := ACCEPTING_CIPHER } else g
  if g.status ≠ ACCEPTING_CIPHER then return (g, false)
  let g ← ghashLoop dbg plain len 0 g
  return (if len % 16 ≠ 0 then { g with status := NOT_ACCEPTING_MORE } else g, true)

/-- `gcm.rs` 139: the first twelve bytes of the slice. -/
def take12 (iv : List UInt8) : Option (Vector UInt8 12) :=
  if h : 12 ≤ iv.length then some (Vector.ofFn fun i => iv[i.val]) else none

/-- `gcm.rs` 126-151 `init`. The result of `AES::init` is not used. -/
def init (dbg : Bool) (g : GCM) (nk : Nat) (key : List UInt8) (niv : Nat) (iv : List UInt8) : Option GCM := do
  let g := { g with statex := Vector.replicate 16 0 }
  let (a, _) ← AES.init AES.new AES.ECB nk key none
  let h ← AES.ecb_encrypt a (Vector.replicate 16 0)
  let g ← precompute { g with a := a } h
  let g := { g with lena := Vector.replicate 2 0, lenc := Vector.replicate 2 0 }
  if niv = 12 then
    let v ← take12 iv
    let b := unpack 1
    let f : Vector UInt8 16 := #v[v[0], v[1], v[2], v[3], v[4], v[5], v[6], v[7], v[8], v[9], v[10], v[11],
      b[0], b[1], b[2], b[3]]
    return { g with a := { g.a with f := f }, y_0 := f, status := ACCEPTING_HEADER }
  else
    let (g, _) ← ghash dbg { g with status := ACCEPTING_CIPHER } iv niv
    let g ← wrap dbg g
    return { g with a := { g.a with f := g.statex }, y_0 := g.statex, statex := Vector.replicate 16 0,
                    lena := Vector.replicate 2 0, lenc := Vector.replicate 2 0, status := ACCEPTING_HEADER }

/-- `gcm.rs` 153-164 `new`. -/
def new : GCM := ⟨Vector.replicate 128 (Vector.replicate 4 0), Vector.replicate 16 0, Vector.replicate 16 0,
  Vector.replicate 2 0, Vector.replicate 2 0, 0, AES.new⟩

/-- `gcm.rs` 170-177: the loop from `j`, with the counter `lena`. -/
def headerLoop (dbg : Bool) (header : List UInt8) (len j : Nat) (g : GCM) : Option GCM := do
  if j < len then
    let (j, s, l) ← absorbBlock dbg header len 16 0 j g.statex g.lena
    let g ← gf2mul dbg { g with statex := s, lena := l }
    headerLoop dbg header len j g
  else return g
partial_fixpoint

/-- `gcm.rs` 167-180 `add_header`. -/
def add_header (dbg : Bool) (g : GCM) (header : List UInt8) (len : Nat) : Option (GCM × Bool) := do
  if g.status ≠ ACCEPTING_HEADER then return (g, false)
  let g ← headerLoop dbg header len 0 g
  return (if len % 16 ≠ 0 then { g with status := ACCEPTING_CIPHER } else g, true)

/-- `gcm.rs` 193-197 and 225-229: the counter block, plus 1. -/
def bump (dbg : Bool) (f : Vector UInt8 16) : Option (Vector UInt8 16) := do
  let counter ← add1 dbg (pack #v[f[12], f[13], f[14], f[15]])
  let b := unpack counter
  return #v[f[0], f[1], f[2], f[3], f[4], f[5], f[6], f[7], f[8], f[9], f[10], f[11], b[0], b[1], b[2], b[3]]

/-- `gcm.rs` 193-199 and 225-231: the next counter block and its encryption. -/
def keystream (dbg : Bool) (g : GCM) : Option (GCM × Vector UInt8 16) := do
  let f ← bump dbg g.a.f
  let g := { g with a := { g.a with f := f } }
  return (g, ← AES.ecb_encrypt g.a f)

/-- `gcm.rs` 201-206: the loop from `i` with `n` rounds left. Result: the ciphertext buffer, `j`, the state and the
counter. -/
def plainBlock (dbg : Bool) (plain : List UInt8) (len : Nat) (cb : Vector UInt8 16) : Nat → Nat → Nat → List UInt8 →
    Vector UInt8 16 → Vector UInt32 2 → Option (List UInt8 × Nat × Vector UInt8 16 × Vector UInt32 2)
  | 0, _, j, cipher, s, l => some (cipher, j, s, l)
  | n + 1, i, j, cipher, s, l => do
    if len ≤ j then return (cipher, j, s, l)
    let p ← plain[j]?
    let k ← cb[i]?
    let cipher ← SHA3.setB cipher j (p ^^^ k)
    let x ← s[i]?
    let c ← cipher[j]?
    let s ← HASH256.setAt s i (x ^^^ c)
    let l ← count dbg l
    plainBlock dbg plain len cb n (i + 1) (j + 1) cipher s l

/-- `gcm.rs` 192-208: the loop from `j`. -/
def plainLoop (dbg : Bool) (plain : List UInt8) (len j : Nat) (cipher : List UInt8) (g : GCM) : Option (GCM × List UInt8) := do
  if j < len then
    let (g, cb) ← keystream dbg g
    let (cipher, j, s, l) ← plainBlock dbg plain len cb 16 0 j cipher g.statex g.lenc
    let g ← gf2mul dbg { g with statex := s, lenc := l }
    plainLoop dbg plain len j cipher g
  else return (g, cipher)
partial_fixpoint

/-- `gcm.rs` 183-211 `add_plain`. -/
def add_plain (dbg : Bool) (g : GCM) (cipher plain : List UInt8) (len : Nat) : Option (GCM × List UInt8 × Bool) := do
  let g := if g.status = ACCEPTING_HEADER then { g with status := ACCEPTING_CIPHER } else g
  if g.status ≠ ACCEPTING_CIPHER then return (g, cipher, false)
  let (g, cipher) ← plainLoop dbg plain len 0 cipher g
  return (if len % 16 ≠ 0 then { g with status := NOT_ACCEPTING_MORE } else g, cipher, true)

/-- `gcm.rs` 232-238: the loop from `i` with `n` rounds left. -/
def cipherBlock (dbg : Bool) (cipher : List UInt8) (len : Nat) (cb : Vector UInt8 16) : Nat → Nat → Nat → List UInt8 →
    Vector UInt8 16 → Vector UInt32 2 → Option (List UInt8 × Nat × Vector UInt8 16 × Vector UInt32 2)
  | 0, _, j, plain, s, l => some (plain, j, s, l)
  | n + 1, i, j, plain, s, l => do
    if len ≤ j then return (plain, j, s, l)
    let oc ← cipher[j]?
    let k ← cb[i]?
    let plain ← SHA3.setB plain j (oc ^^^ k)
    let x ← s[i]?
    let s ← HASH256.setAt s i (x ^^^ oc)
    let l ← count dbg l
    cipherBlock dbg cipher len cb n (i + 1) (j + 1) plain s l

/-- `gcm.rs` 224-240: the loop from `j`. -/
def cipherLoop (dbg : Bool) (cipher : List UInt8) (len j : Nat) (plain : List UInt8) (g : GCM) : Option (GCM × List UInt8) := do
  if j < len then
    let (g, cb) ← keystream dbg g
    let (plain, j, s, l) ← cipherBlock dbg cipher len cb 16 0 j plain g.statex g.lenc
    let g ← gf2mul dbg { g with statex := s, lenc := l }
    cipherLoop dbg cipher len j plain g
  else return (g, plain)
partial_fixpoint

/-- `gcm.rs` 214-243 `add_cipher`. -/
def add_cipher (dbg : Bool) (g : GCM) (plain cipher : List UInt8) (len : Nat) : Option (GCM × List UInt8 × Bool) := do
  let g := if g.status = ACCEPTING_HEADER then { g with status := ACCEPTING_CIPHER } else g
  if g.status ≠ ACCEPTING_CIPHER then return (g, plain, false)
  let (g, plain) ← cipherLoop dbg cipher len 0 plain g
  return (if len % 16 ≠ 0 then { g with status := NOT_ACCEPTING_MORE } else g, plain, true)

/-- `gcm.rs` 246-259 `finish`. -/
def finish (dbg : Bool) (g : GCM) (extract : Bool) : Option (GCM × Vector UInt8 16) := do
  let g ← wrap dbg g
  if extract then
    let y ← AES.ecb_encrypt g.a g.y_0
    let a ← AES.finish g.a
    return ({ g with y_0 := Vector.replicate 16 0, statex := Vector.replicate 16 0, status := FINISHED, a := a },
      AES.xorFirst 16 y g.statex)
  else
    let a ← AES.finish g.a
    return ({ g with status := FINISHED, a := a }, Vector.replicate 16 0)

/-- `gcm.rs` 267-275: the number of a digit. -/
def hexDigit (c : UInt8) : Option UInt8 :=
  if 48 ≤ c ∧ c ≤ 57 then some (c - 48)
  else if 65 ≤ c ∧ c ≤ 70 then some (c - 65 + 10)
  else if 97 ≤ c ∧ c ≤ 102 then some (c - 97 + 10)
  else none

/-- `gcm.rs` 264-288: the loop from `i`, with `n` rounds left. The tests of lines 278-286 are those of 267-275. -/
def hexLoop (hex : List UInt8) : Nat → Nat → List UInt8 → Option (List UInt8)
  | 0, _, bin => some bin
  | n + 1, i, bin => do
    let c ← hex[2 * i]?
    let v : UInt8 := match hexDigit c with
      | some d => d
      | none => 0
    let v := v <<< 4
    let c ← hex[2 * i + 1]?
    let v : UInt8 := match hexDigit c with
      | some d => v + d
      | none => 0
    let bin ← SHA3.setB bin i v
    hexLoop hex n (i + 1) bin

/-- `gcm.rs` 261-289 `hex2bytes`. -/
def hex2bytes (hex bin : List UInt8) : Option (List UInt8) := hexLoop hex (hex.length / 2) 0 bin

end GCM

end Amcl
