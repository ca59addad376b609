import Mathlib.Data.ZMod.Basic
import Mathlib.Algebra.BigOperators.Intervals
import Mathlib.Algebra.BigOperators.Ring.Finset
import Verif.Spec.Sha3
/-!
# The ring of NewHope

Polynomials with coefficients modulo `q = 12289`, modulo `X ^ 1024 + 1`, as in "NewHope without reconciliation"
(`https://eprint.iacr.org/2016/1157.pdf`, cited by `nhs.rs`). Coefficients are functions of the index.
-/

namespace Spec.NewHope

/-- The field of coefficients. -/
abbrev Zq := ZMod 12289

/-- The product modulo `X ^ 1024 + 1`. -/
def mul {R : Type*} [CommRing R] (a b : ℕ → R) (i : ℕ) : R :=
  ∑ j ∈ Finset.range 1024, if j ≤ i then a j * b (i - j) else - (a j * b (1024 + i - j))

/-- The value at `x`. -/
def eval (a : ℕ → Zq) (x : Zq) : Zq := ∑ j ∈ Finset.range 1024, a j * x ^ j

/-- The primitive 2048th root of unity. -/
def psi : Zq := 7

/-- The reversal of ten bits. -/
def brv (i : ℕ) : ℕ := ∑ b ∈ Finset.range 10, if i.testBit b then 2 ^ (9 - b) else 0

/-- The roots of `X ^ 1024 + 1`, in the order of the transform. -/
def point (i : ℕ) : Zq := psi ^ (2 * brv i + 1)

/-! ## Hashes -/

/-- The byte number `j` of a bit string. -/
def octet (b : List Bool) (j : ℕ) : ℕ := ∑ k ∈ Finset.range 8, if b.getD (8 * j + k) false then 2 ^ k else 0

/-- SHA3-256. -/
def hash (m : List UInt8) : List UInt8 := (List.range 32).map fun j => (octet (Spec.Keccak.sha3 256 m) j).toUInt8

/-- The value at `point i` of the public polynomial of a seed: 31 bits of SHAKE128. (In the paper: the `i`-th
16-bit word that is below `5 q`.) -/
def uniform (seed : List UInt8) (i : ℕ) : Zq :=
  ((∑ t ∈ Finset.range 4, octet (Spec.Keccak.shake 128 seed 32768) (4 * i + t) * 256 ^ (3 - t)) % 2 ^ 31 : ℕ)

/-! ## Noise -/

/-- The number of bits that are set. -/
def pop (b : UInt8) : ℤ := ∑ k ∈ Finset.range 8, (b.toNat / 2 ^ k % 2 : ℕ)

/-- The noise polynomial for the bytes `B p, B (p + 1), …`: differences of two sums of sixteen bits. -/
def noise (B : ℕ → UInt8) (p i : ℕ) : ℤ :=
  pop (B (p + 4 * i)) + pop (B (p + 4 * i + 1)) - pop (B (p + 4 * i + 2)) - pop (B (p + 4 * i + 3))

/-- The values of the public polynomial `a s + e`. -/
def pubKey (seed : List UInt8) (s e : ℕ → ℤ) (i : ℕ) : Zq :=
  uniform seed i * eval (fun l => s l) (point i) + eval (fun l => e l) (point i)

/-- What is left of the noise of both sides: `e s' - e' s + e''`. -/
def residue (s e s' e' e'' : ℕ → ℤ) (l : ℕ) : ℤ := mul e s' l - mul e' s l + e'' l

/-! ## Encodings -/

/-- 1024 numbers of 14 bits, as the little-endian bytes of one number. -/
def pack14 (v : ℕ → ℕ) : List UInt8 :=
  (List.range 1792).map fun j => ((∑ i ∈ Finset.range 1024, v i * 2 ^ (14 * i)) / 256 ^ j % 256).toUInt8

/-- The numbers of 14 bits in the little-endian number of 1792 bytes. -/
def unpack14 (B : List UInt8) (i : ℕ) : ℕ := (∑ j ∈ Finset.range 1792, (B.getD j 0).toNat * 256 ^ j) / 2 ^ (14 * i) % 2 ^ 14

/-- The nearest integer to `8 x / q`, modulo 8. -/
def compress (x : Zq) : ℕ := (16 * x.val + 12289) / (2 * 12289) % 8

/-- The nearest integer to `q b / 8`. -/
def decompress (b : ℕ) : ℕ := (2 * (b * 12289) + 8) / (2 * 8)

/-- Numbers of three bits: eight of them, the first on top, are the little-endian number of three bytes. -/
def pack3 (b : ℕ → ℕ) : List UInt8 :=
  (List.range 384).map fun j => ((∑ e ∈ Finset.range 8, b (8 * (j / 3) + e) * 8 ^ (7 - e)) / 256 ^ (j % 3) % 256).toUInt8

/-- The numbers of three bits in 384 bytes. -/
def unpack3 (B : List UInt8) (i : ℕ) : ℕ :=
  (∑ t ∈ Finset.range 3, (B.getD (3 * (i / 8) + t) 0).toNat * 256 ^ t) / 8 ^ (7 - i % 8) % 8

/-- The bit number `i` of a key. -/
def keyBit (k : List UInt8) (i : ℕ) : ℕ := (k.getD (i / 8) 0).toNat / 2 ^ (i % 8) % 2

/-- The polynomial for a key: each bit four times, as `0` or `(q - 1) / 2`. -/
def encode (k : List UInt8) (i : ℕ) : ℤ := keyBit k (i % 256) * 6144

/-- The bit number `i` in a polynomial. -/
def decodeBit (x : ℕ → Zq) (i : ℕ) : ℕ :=
  if ∑ h ∈ Finset.range 4, |((x (i + 256 * h)).val : ℤ) - 6144| < 12289 then 1 else 0

end Spec.NewHope
