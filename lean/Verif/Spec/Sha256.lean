import Verif.Spec.Bytes
import Mathlib.Data.Nat.Nth
import Mathlib.Data.Nat.Sqrt
import Mathlib.Data.Nat.Prime.Defs
/-!
# Specification: SHA-256 as in FIPS 180-4

The constants are defined, as in the standard, from the roots of the first primes. Nothing here mentions
the model.
-/

namespace Spec.Sha256

/-- A 32-bit word; `+` is addition modulo `2^32`. -/
abbrev Word := BitVec 32

/-- FIPS 180-4, 3.2: right rotation. -/
def rotr (n : Nat) (x : Word) : Word := x.rotateRight n
/-- FIPS 180-4, 3.2: right shift. -/
def shr (n : Nat) (x : Word) : Word := x >>> n
/-- FIPS 180-4 (4.2). -/
def ch (x y z : Word) : Word := (x &&& y) ^^^ (~~~x &&& z)
/-- FIPS 180-4 (4.3). -/
def maj (x y z : Word) : Word := (x &&& y) ^^^ (x &&& z) ^^^ (y &&& z)
/-- FIPS 180-4 (4.4), capital sigma 0. -/
def bsig0 (x : Word) : Word := rotr 2 x ^^^ rotr 13 x ^^^ rotr 22 x
/-- FIPS 180-4 (4.5), capital sigma 1. -/
def bsig1 (x : Word) : Word := rotr 6 x ^^^ rotr 11 x ^^^ rotr 25 x
/-- FIPS 180-4 (4.6), small sigma 0. -/
def ssig0 (x : Word) : Word := rotr 7 x ^^^ rotr 18 x ^^^ shr 3 x
/-- FIPS 180-4 (4.7), small sigma 1. -/
def ssig1 (x : Word) : Word := rotr 17 x ^^^ rotr 19 x ^^^ shr 10 x

/-- The integer part of the cube root. -/
def cbrt (m : Nat) : Nat := Nat.findGreatest (fun n => n ^ 3 ≤ m) m

/-- FIPS 180-4, 4.2.2: the first 32 bits of the fractional part of the cube root of the `t`-th prime. -/
noncomputable def K (t : Nat) : Word := BitVec.ofNat 32 (cbrt (Nat.nth Nat.Prime t * 2 ^ 96))

/-- FIPS 180-4, 5.3.3: the first 32 bits of the fractional part of the square root of the `t`-th prime. -/
noncomputable def H0 (t : Nat) : Word := BitVec.ofNat 32 (Nat.sqrt (Nat.nth Nat.Prime t * 2 ^ 64))

/-- The eight working variables, or the eight words of an intermediate hash value. -/
structure State where
  a : Word
  b : Word
  c : Word
  d : Word
  e : Word
  f : Word
  g : Word
  h : Word

/-- FIPS 180-4, 5.1.1: the message, a one bit, the fewest zero bits that make the length a multiple of 512
with the 64 bits of the length. -/
def pad (m : List UInt8) : List UInt8 :=
  m ++ 0x80 :: List.replicate ((119 - m.length % 64) % 64) 0 ++ toBE 8 (8 * m.length)

/-- Word `j` of a block, big-endian. -/
def wordAt (block : List UInt8) (j : Nat) : Word := BitVec.ofNat 32 (beNat ((block.drop (4 * j)).take 4))

/-- FIPS 180-4, 6.2.2 step 1: the message schedule. -/
def W (block : List UInt8) (t : Nat) : Word :=
  if t < 16 then wordAt block t
  else ssig1 (W block (t - 2)) + W block (t - 7) + ssig0 (W block (t - 15)) + W block (t - 16)
termination_by t

/-- FIPS 180-4, 6.2.2 step 3: one round with round constant `k` and schedule word `w`. -/
def step (s : State) (k w : Word) : State :=
  let t1 := s.h + bsig1 s.e + ch s.e s.f s.g + k + w
  let t2 := bsig0 s.a + maj s.a s.b s.c
  ⟨t1 + t2, s.a, s.b, s.c, s.d + t1, s.e, s.f, s.g⟩

/-- The working variables after `t` rounds. -/
noncomputable def rounds (block : List UInt8) (s : State) : Nat → State
  | 0 => s
  | t + 1 => step (rounds block s t) (K t) (W block t)

/-- FIPS 180-4, 6.2.2: the next intermediate hash value. -/
noncomputable def compress (s : State) (block : List UInt8) : State :=
  let v := rounds block s 64
  ⟨s.a + v.a, s.b + v.b, s.c + v.c, s.d + v.d, s.e + v.e, s.f + v.f, s.g + v.g, s.h + v.h⟩

/-- The initial hash value. -/
noncomputable def init : State := ⟨H0 0, H0 1, H0 2, H0 3, H0 4, H0 5, H0 6, H0 7⟩

/-- The intermediate hash value after the first `n` 64-byte blocks of `l`. -/
noncomputable def chain (l : List UInt8) : Nat → State
  | 0 => init
  | n + 1 => compress (chain l n) ((l.drop (64 * n)).take 64)

/-- The eight words, most significant byte first. -/
def State.bytes (s : State) : List UInt8 :=
  toBE 4 s.a.toNat ++ toBE 4 s.b.toNat ++ toBE 4 s.c.toNat ++ toBE 4 s.d.toNat ++
    toBE 4 s.e.toNat ++ toBE 4 s.f.toNat ++ toBE 4 s.g.toNat ++ toBE 4 s.h.toNat

end Sha256

/-- FIPS 180-4, 6.2: SHA-256 of a byte string. -/
noncomputable def sha256 (m : List UInt8) : List UInt8 :=
  (Sha256.chain (Sha256.pad m) ((Sha256.pad m).length / 64)).bytes

end Spec
