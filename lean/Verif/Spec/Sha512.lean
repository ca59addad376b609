import Verif.Spec.Sha256
/-!
# Specification: SHA-512 and SHA-384 as in FIPS 180-4

The constants are defined, as in the standard, from the roots of the first primes. Nothing here mentions
the model.
-/

namespace Spec.Sha512

open Sha256 (cbrt)

/-- A 64-bit word; `+` is addition modulo `2^64`. -/
abbrev Word := BitVec 64

/-- FIPS 180-4, 3.2: right rotation. -/
def rotr (n : Nat) (x : Word) : Word := x.rotateRight n
/-- FIPS 180-4, 3.2: right shift. -/
def shr (n : Nat) (x : Word) : Word := x >>> n
/-- FIPS 180-4 (4.8). -/
def ch (x y z : Word) : Word := (x &&& y) ^^^ (~~~x &&& z)
/-- FIPS 180-4 (4.9). -/
def maj (x y z : Word) : Word := (x &&& y) ^^^ (x &&& z) ^^^ (y &&& z)
/-- FIPS 180-4 (4.10), capital sigma 0. -/
def bsig0 (x : Word) : Word := rotr 28 x ^^^ rotr 34 x ^^^ rotr 39 x
/-- FIPS 180-4 (4.11), capital sigma 1. -/
def bsig1 (x : Word) : Word := rotr 14 x ^^^ rotr 18 x ^^^ rotr 41 x
/-- FIPS 180-4 (4.12), small sigma 0. -/
def ssig0 (x : Word) : Word := rotr 1 x ^^^ rotr 8 x ^^^ shr 7 x
/-- FIPS 180-4 (4.13), small sigma 1. -/
def ssig1 (x : Word) : Word := rotr 19 x ^^^ rotr 61 x ^^^ shr 6 x

/-- FIPS 180-4, 4.2.3: the first 64 bits of the fractional part of the cube root of the `t`-th prime. -/
noncomputable def K (t : Nat) : Word := BitVec.ofNat 64 (cbrt (Nat.nth Nat.Prime t * 2 ^ 192))

/-- The first 64 bits of the fractional part of the square root of the `t`-th prime. FIPS 180-4, 5.3.5 uses the
first eight primes for SHA-512 and 5.3.4 the ninth to sixteenth for SHA-384. -/
noncomputable def H0 (t : Nat) : Word := BitVec.ofNat 64 (Nat.sqrt (Nat.nth Nat.Prime t * 2 ^ 128))

/-- The eight working variables, or the eight words of an intermediate hash value. -/
structure State where
  a : Word
  b : Word
  c : Word
  d : Word
  e : Word
  f : Word
  g : Word
  h : Word

/-- FIPS 180-4, 5.1.2: the message, a one bit, the fewest zero bits that make the length a multiple of 1024
with the 128 bits of the length. -/
def pad (m : List UInt8) : List UInt8 :=
  m ++ 0x80 :: List.replicate ((239 - m.length % 128) % 128) 0 ++ toBE 16 (8 * m.length)

/-- Word `j` of a block, big-endian. -/
def wordAt (block : List UInt8) (j : Nat) : Word := BitVec.ofNat 64 (beNat ((block.drop (8 * j)).take 8))

/-- FIPS 180-4, 6.4.2 step 1: the message schedule. -/
def W (block : List UInt8) (t : Nat) : Word :=
  if t < 16 then wordAt block t
  else ssig1 (W block (t - 2)) + W block (t - 7) + ssig0 (W block (t - 15)) + W block (t - 16)
termination_by t

/-- FIPS 180-4, 6.4.2 step 3: one round with round constant `k` and schedule word `w`. -/
def step (s : State) (k w : Word) : State :=
  let t1 := s.h + bsig1 s.e + ch s.e s.f s.g + k + w
  let t2 := bsig0 s.a + maj s.a s.b s.c
  ⟨t1 + t2, s.a, s.b, s.c, s.d + t1, s.e, s.f, s.g⟩

/-- The working variables after `t` rounds. -/
noncomputable def rounds (block : List UInt8) (s : State) : Nat → State
  | 0 => s
  | t + 1 => step (rounds block s t) (K t) (W block t)

/-- FIPS 180-4, 6.4.2: the next intermediate hash value. -/
noncomputable def compress (s : State) (block : List UInt8) : State :=
  let v := rounds block s 80
  ⟨s.a + v.a, s.b + v.b, s.c + v.c, s.d + v.d, s.e + v.e, s.f + v.f, s.g + v.g, s.h + v.h⟩

/-- The initial hash value from the primes number `k` to `k + 7`, counted from 0. -/
noncomputable def init (k : Nat) : State :=
  ⟨H0 k, H0 (k + 1), H0 (k + 2), H0 (k + 3), H0 (k + 4), H0 (k + 5), H0 (k + 6), H0 (k + 7)⟩

/-- The intermediate hash value after the first `n` 128-byte blocks of `l`, from the initial value `s`. -/
noncomputable def chain (s : State) (l : List UInt8) : Nat → State
  | 0 => s
  | n + 1 => compress (chain s l n) ((l.drop (128 * n)).take 128)

/-- The eight words, most significant byte first. -/
def State.bytes (s : State) : List UInt8 :=
  toBE 8 s.a.toNat ++ toBE 8 s.b.toNat ++ toBE 8 s.c.toNat ++ toBE 8 s.d.toNat ++
    toBE 8 s.e.toNat ++ toBE 8 s.f.toNat ++ toBE 8 s.g.toNat ++ toBE 8 s.h.toNat

end Sha512

/-- FIPS 180-4, 6.4: SHA-512 of a byte string. -/
noncomputable def sha512 (m : List UInt8) : List UInt8 :=
  (Sha512.chain (Sha512.init 0) (Sha512.pad m) ((Sha512.pad m).length / 128)).bytes

/-- FIPS 180-4, 6.5: SHA-384 of a byte string, the first 384 bits with another initial value. -/
noncomputable def sha384 (m : List UInt8) : List UInt8 :=
  (Sha512.chain (Sha512.init 8) (Sha512.pad m) ((Sha512.pad m).length / 128)).bytes.take 48

end Spec
