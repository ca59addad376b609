import Verif.Model.Aes
import Verif.Model.Mpin
import Verif.Model.Nhs
/-!
# Model of `amcl/src/secp256k1/ecdh.rs`, the functions that do not use the curve

Hashes, key derivation, HMAC and AES in CBC mode. (`bls381` and `bls383` have copies of the file that their `mod.rs`
does not include.) Slices are lists; an index out of range is `none`, and a function that writes to a slice returns its
new contents. SHA-384 is the one of the release build, as in the model of `mpin.rs`.
-/

namespace Amcl

namespace ecdh

open SHA3 (setB)
open NHS (copy clear)

/-- `ecdh.rs` 37, with `MODBYTES` of `secp256k1/big.rs` 29. -/
def EFS : Nat := 32
/-- `ecdh.rs` 38. -/
def EGS : Nat := 32

/-- `ecdh.rs` 52-56: the loop of `inttobytes` from the index `i` down. -/
def intLoop : Nat → Nat → List UInt8 → Option (List UInt8)
  | 0, _, b => some b
  | i + 1, m, b => do
    if m = 0 then return b
    let b ← setB b i (UInt8.ofNat (m % 256))
    intLoop i (m / 256) b

/-- `ecdh.rs` 49-57 `inttobytes`. -/
def inttobytes (n : Nat) (b : List UInt8) : Option (List UInt8) := intLoop b.length n b

/-- `ecdh.rs` 60-90: the array `r`. Arrays processed one after the other are their concatenation, as in the model of
`mpin.rs`. -/
def digest64 (sha : Nat) (a : List UInt8) (n : Nat) (b : Option (List UInt8)) : Option (List UInt8) := do
  let d ← mpin.digest sha (a ++ (if n > 0 then numBytes (asI32 n) else []) ++ b.getD [])
  match d with
  | some d => copy 0 0 d sha 0 (List.replicate 64 0)
  | none => return List.replicate 64 0

/-- `ecdh.rs` 59-107 `hashit`. -/
def hashit (sha : Nat) (a : List UInt8) (n : Nat) (b : Option (List UInt8)) (pad : Nat) (w : List UInt8) : Option (List UInt8) := do
  let r ← digest64 sha a n b
  if pad = 0 then copy 0 0 r sha 0 w
  else if pad ≤ sha then copy 0 0 r pad 0 w
  else
    let w ← copy (pad - sha) 0 r sha 0 w
    clear (pad - sha) 0 w

/-- `ecdh.rs` 119-127 and 137-145: `n` rounds from `counter`, with `lk` bytes of the key written. -/
def kdfLoop (sha : Nat) (z : List UInt8) (p : Option (List UInt8)) (olen : Nat) : Nat → Nat → Nat → List UInt8 → Option (List UInt8)
  | 0, _, _, k => some k
  | n + 1, counter, lk, k => do
    let b ← hashit sha z counter p 0 (List.replicate 64 0)
    let m := if lk + sha > olen then olen % sha else sha
    let k ← copy lk 0 b m 0 k
    kdfLoop sha z p olen n (counter + 1) (lk + m) k

/-- `ecdh.rs` 117, 135 and 152: the number of rounds; `none` for a division by 0. -/
def threshold (sha olen : Nat) : Option Nat :=
  if sha = 0 then none else some (if olen % sha ≠ 0 then olen / sha + 1 else olen / sha)

/-- `ecdh.rs` 112-128 `kdf1`. -/
def kdf1 (sha : Nat) (z : List UInt8) (olen : Nat) (k : List UInt8) : Option (List UInt8) := do
  kdfLoop sha z none olen (← threshold sha olen) 0 0 k

/-- `ecdh.rs` 130-146 `kdf2`. -/
def kdf2 (sha : Nat) (z : List UInt8) (p : Option (List UInt8)) (olen : Nat) (k : List UInt8) : Option (List UInt8) := do
  kdfLoop sha z p olen (← threshold sha olen) 1 0 k

/-- A loop `for i in 0..n {k[i]^=c}`: `n` rounds from `i`. -/
def xorLoop (c : UInt8) : Nat → Nat → List UInt8 → Option (List UInt8)
  | 0, _, k => some k
  | n + 1, i, k => do
    let k ← setB k i ((← k[i]?) ^^^ c)
    xorLoop c n (i + 1) k

/-- The slice `l[0..n]`. -/
def slice (l : List UInt8) (n : Nat) : Option (List UInt8) := if n ≤ l.length then some (l.take n) else none

/-- `ecdh.rs` 191-198: the key, padded or hashed. -/
def hmacKey (sha lb : Nat) (k : List UInt8) : Option (List UInt8) := do
  let k0 : List UInt8 := List.replicate 128 0
  if k.length > lb then
    let b ← hashit sha k 0 none 0 (List.replicate 64 0)
    copy 0 0 b sha 0 k0
  else copy 0 0 k k.length 0 k0

/-- `ecdh.rs` 178-207 `hmac`: the result and the new contents of `tag`. -/
def hmac (sha : Nat) (m k : List UInt8) (olen : Nat) (tag : List UInt8) : Option (Bool × List UInt8) := do
  if olen < 4 then return (false, tag)
  let lb := if sha > 32 then 128 else 64
  let k0 ← hmacKey sha lb k
  let k0 ← xorLoop 0x36 lb 0 k0
  let b ← hashit sha (← slice k0 lb) 0 (some m) 0 (List.replicate 64 0)
  let k0 ← xorLoop 0x6a lb 0 k0
  let tag ← hashit sha (← slice k0 lb) 0 (some (← slice b sha)) olen tag
  return (true, tag)

/-- `ecdh.rs` 171: `n` rounds from `k`, on `u` and `f`. -/
def mixLoop (ku : List UInt8) : Nat → Nat → List UInt8 → List UInt8 → Option (List UInt8 × List UInt8)
  | 0, _, u, f => some (u, f)
  | n + 1, k, u, f => do
    let u ← setB u k (← ku[k]?)
    let f ← setB f k ((← f[k]?) ^^^ (← u[k]?))
    mixLoop ku n (k + 1) u f

/-- `ecdh.rs` 169-172: `n` rounds, on `u`, `ku` and `f`. -/
def repLoop (sha : Nat) (pass : List UInt8) : Nat → List UInt8 → List UInt8 → List UInt8 → Option (List UInt8 × List UInt8 × List UInt8)
  | 0, u, ku, f => some (u, ku, f)
  | n + 1, u, ku, f => do
    let (_, ku) ← hmac sha u pass sha ku
    let (u, f) ← mixLoop ku sha 0 u f
    repLoop sha pass n u ku f

/-- `ecdh.rs` 173: `n` rounds from `j`, on `k`, with `kp = p + j`. -/
def outLoop (f : List UInt8) (olen p : Nat) : Nat → Nat → List UInt8 → Option (List UInt8)
  | 0, _, k => some k
  | n + 1, j, k => do
    let k ← if p + j < olen then (do setB k (p + j) (← f[j]?)) else some k
    outLoop f olen p n (j + 1) k

/-- The local variables of `pbkdf2` that a round leaves to the next. -/
structure Pb where
  f : List UInt8
  u : List UInt8
  ku : List UInt8
  s : List UInt8
  n : List UInt8
  k : List UInt8

/-- `ecdh.rs` 162-173: the round `i`. -/
def pbRound (sha : Nat) (pass salt : List UInt8) (rep olen i : Nat) (v : Pb) : Option Pb := do
  let sl := salt.length
  let s ← copy 0 0 salt sl 0 v.s
  let n ← inttobytes (i + 1) v.n
  let s ← copy sl 0 n 4 0 s
  let (_, f) ← hmac sha (← slice s (sl + 4)) pass sha v.f
  let u ← copy 0 0 f sha 0 v.u
  let (u, ku, f) ← repLoop sha pass (rep - 1) u v.ku f
  let k ← outLoop f olen (i * EFS) EFS 0 v.k
  return ⟨f, u, ku, s, n, k⟩

/-- `ecdh.rs` 161-174: `d` rounds from `i`. -/
def pbLoop (sha : Nat) (pass salt : List UInt8) (rep olen : Nat) : Nat → Nat → Pb → Option Pb
  | 0, _, v => some v
  | d + 1, i, v => do
    let v ← pbRound sha pass salt rep olen i v
    pbLoop sha pass salt rep olen d (i + 1) v

/-- `ecdh.rs` 151-175 `pbkdf2`. -/
def pbkdf2 (sha : Nat) (pass salt : List UInt8) (rep olen : Nat) (k : List UInt8) : Option (List UInt8) := do
  let d ← threshold sha olen
  let z : List UInt8 := List.replicate 64 0
  let v ← pbLoop sha pass salt rep olen d 0 ⟨z, z, z, List.replicate 36 0, List.replicate 4 0, k⟩
  return v.k

/-- `ecdh.rs` 226-230: `n` rounds from `i`. Result: `i`, `ipt`, `fin`, the buffer. -/
def fillBlock (m : List UInt8) : Nat → Nat → Nat → Vector UInt8 16 → Option (Nat × Nat × Bool × Vector UInt8 16)
  | 0, i, ipt, buff => some (i, ipt, false, buff)
  | n + 1, i, ipt, buff => do
    if ipt < m.length then
      let buff ← HASH256.setAt buff i (← m[ipt]?)
      fillBlock m n (i + 1) (ipt + 1) buff
    else return (i, ipt, true, buff)

/-- `ecdh.rs` 224-237: the loop from `ipt`. Result: the cipher, `i`, the buffer and `c`. -/
def encLoop (m : List UInt8) (a : AES) (ipt : Nat) (buff : Vector UInt8 16) (c : List UInt8) :
    Option (AES × Nat × Vector UInt8 16 × List UInt8) := do
  let (i, ipt, fin, buff) ← fillBlock m 16 0 ipt buff
  if fin then return (a, i, buff, c)
  let (a, buff, _) ← a.encrypt true buff
  encLoop m a ipt buff (c ++ buff.toList)
partial_fixpoint

/-- `ecdh.rs` 242: `n` rounds from `j`. -/
def padBlock (x : UInt8) : Nat → Nat → Vector UInt8 16 → Option (Vector UInt8 16)
  | 0, _, buff => some buff
  | n + 1, j, buff => do
    let buff ← HASH256.setAt buff j x
    padBlock x n (j + 1) buff

/-- `ecdh.rs` 210-252 `cbc_iv0_encrypt`. The result of `init` is not used. -/
def cbc_iv0_encrypt (k m : List UInt8) : Option (List UInt8) := do
  let (a, _) ← AES.init AES.new AES.CBC k.length k none
  let (a, i, buff, c) ← encLoop m a 0 (Vector.replicate 16 0) []
  let padlen := 16 - i
  let buff ← padBlock (UInt8.ofNat padlen) padlen i buff
  let (a, buff, _) ← a.encrypt true buff
  let _ ← a.finish
  return c ++ buff.toList

/-- `ecdh.rs` 273-279: `n` rounds from `i`. Result: `i`, `ipt`, `ch`, `fin`, the buffer. -/
def readBlock (c : List UInt8) : Nat → Nat → Nat → UInt8 → Vector UInt8 16 → Option (Nat × Nat × UInt8 × Bool × Vector UInt8 16)
  | 0, i, ipt, ch, buff => some (i, ipt, ch, false, buff)
  | n + 1, i, ipt, ch, buff => do
    let buff ← HASH256.setAt buff i ch
    if c.length ≤ ipt then return (i, ipt, ch, true, buff)
    else
      let ch ← c[ipt]?
      readBlock c n (i + 1) (ipt + 1) ch buff

/-- `ecdh.rs` 271-286: the loop. Result: the cipher, `i`, the buffer and `m`. -/
def decLoop (c : List UInt8) (a : AES) (ipt : Nat) (ch : UInt8) (buff : Vector UInt8 16) (m : List UInt8) :
    Option (AES × Nat × Vector UInt8 16 × List UInt8) := do
  let (i, ipt, ch, fin, buff) ← readBlock c 16 0 ipt ch buff
  let (a, buff, _) ← a.decrypt true buff
  if fin then return (a, i, buff, m)
  decLoop c a ipt ch buff (m ++ buff.toList)
partial_fixpoint

/-- `ecdh.rs` 289-296: the variable `bad`; `i` is the index of the last byte read. -/
def badPad (i : Nat) (buff : Vector UInt8 16) : Bool :=
  let padlen := buff[15].toNat
  (i ≠ 15 ∨ padlen < 1 ∨ padlen > 16) ∨
    (padlen ≥ 2 ∧ padlen ≤ 16 ∧ ∃ j : Fin 16, 16 - padlen ≤ j.val ∧ buff[j] ≠ UInt8.ofNat padlen)

/-- `ecdh.rs` 255-307 `cbc_iv0_decrypt`. The result of `init` is not used. Line 300 pushes `buff[i]`, where `i` is the
index of the last byte read. -/
def cbc_iv0_decrypt (k c : List UInt8) : Option (Option (List UInt8)) := do
  let (a, _) ← AES.init AES.new AES.CBC k.length k none
  if c.length = 0 then return none
  let ch ← c[0]?
  let (a, i, buff, m) ← decLoop c a 1 ch (Vector.replicate 16 0) []
  let _ ← a.finish
  if badPad i buff then return none
  return some (m ++ List.replicate (16 - buff[15].toNat) (← buff[i]?))

end ecdh

end Amcl
