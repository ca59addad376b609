import Verif.Spec.Sha256
import Verif.Spec.Groups
/-!
# Specification: the generator behind random secret keys

A subtract-with-borrow generator (Marsaglia and Zaman) with lags 21 and 6 over 32-bit words, seeded eight
times from the SHA-256 value of the entropy; its output, 128 bytes at a time, is hashed to 32 bytes.
Nothing here mentions the model.
-/

namespace Spec.Rng

/-- Term `n` of the subtract-with-borrow sequence that starts with the 21 words `A`, and the borrow after
it. The borrow is kept when the difference equals the minuend. -/
def swb (A : Nat → UInt32) (n : Nat) : UInt32 × UInt32 :=
  if n < 21 then (A n, 0)
  else
    let t := (swb A (n - 6)).1
    let c := (swb A (n - 1)).2
    let v := t - (swb A (n - 21)).1 - c
    (v, if v < t then 0 else if t < v then 1 else c)
termination_by n

/-- The words that are mixed in for a seed: `seed, 1, seed - 1, …`, each the difference of the two before. -/
def mixWord (seed : UInt32) : Nat → UInt32
  | 0 => seed
  | 1 => 1
  | n + 2 => mixWord seed n - mixWord seed (n + 1)

/-- Word `i` of the mixing sequence goes to place `8i mod 21`, that is, place `j` gets word `8j mod 21`. -/
def mix (A : Nat → UInt32) (seed : UInt32) (j : Nat) : UInt32 := A j ^^^ mixWord seed (8 * j % 21)

/-- Word `k` of a digest, little-endian. -/
def seedWord (d : List UInt8) (k : Nat) : UInt32 := UInt32.ofNat (beNat ((d.drop (4 * k)).take 4).reverse)

/-- The 21 starting words after the seeds `0..k`. Between two seeds 10000 terms are discarded; the block
of 21 terms with the last of them is what the next seed is mixed into. -/
def start (d : List UInt8) : Nat → Nat → UInt32
  | 0 => mix (fun _ => 0) (seedWord d 0)
  | k + 1 => mix (fun j => (swb (start d k) (21 * (10000 / 21) + j)).1) (seedWord d (k + 1))

/-- Pool `k`: the hash of the low bytes of 128 terms. Another 10000 are discarded before the first pool. -/
noncomputable def pool (d : List UInt8) (k : Nat) : List UInt8 :=
  sha256 ((List.range 128).map fun j => (swb (start d 7) (10001 + 128 * k + j)).1.toUInt8)

/-- Byte `i` of the output. -/
noncomputable def byte (entropy : List UInt8) (i : Nat) : UInt8 := (pool (sha256 entropy) (i / 32))[i % 32]!

/-- Bit `i` of the output, least significant bit of each byte first. -/
noncomputable def bit (entropy : List UInt8) (i : Nat) : Nat := (byte entropy (i / 8)).toNat / 2 ^ (i % 8) % 2

/-- The number whose binary digits are the first `n` bits of the output. -/
noncomputable def number (entropy : List UInt8) : Nat → Nat
  | 0 => 0
  | n + 1 => 2 * number entropy n + bit entropy n

/-- The number whose binary digits are the `n` bits of the output that start with byte `i`. -/
noncomputable def numberAt (entropy : List UInt8) (i : Nat) : Nat → Nat
  | 0 => 0
  | n + 1 => 2 * numberAt entropy i n + bit entropy (8 * i + n)

/-- The secret key drawn from the entropy: 510 bits reduced modulo the group order. -/
noncomputable def key (entropy : List UInt8) : Nat := number entropy 510 % r

end Spec.Rng
