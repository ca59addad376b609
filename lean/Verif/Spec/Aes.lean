import Batteries.Data.BitVec.Basic
/-!
# FIPS 197: the block cipher AES

Written from the standard, without reference to the model.
-/

namespace Spec.AES

/-- Section 3.2: a byte; bit `i` is the coefficient of `x^i`. -/
abbrev Byte := BitVec 8
/-- Section 3.5: four bytes `a₀ a₁ a₂ a₃`. -/
abbrev Word := Fin 4 → Byte
/-- Section 3.4: the byte in row `r` and column `c`. -/
abbrev State := Fin 4 → Fin 4 → Byte
/-- Section 3.3: sixteen bytes. -/
abbrev Block := Fin 16 → Byte

/-- Section 4.2: multiplication by `x` modulo `x^8 + x^4 + x^3 + x + 1`. -/
def xtime (b : Byte) : Byte := (b <<< 1) ^^^ (if b.msb then 0x1b else 0)

/-- `x^i · b`. -/
def xpow (b : Byte) : Nat → Byte
  | 0 => b
  | i + 1 => xtime (xpow b i)

/-- Section 4.2: the product `a · b`, the sum of `x^i · b` over the bits `i` of `a`. -/
def mul (a b : Byte) : Byte :=
  (List.range 8).foldl (fun t i => t ^^^ (if a.getLsbD i then xpow b i else 0)) 0

/-- Section 4.4: `b⁻¹ = b^254`, and `0` for `b = 0`; as a chain of products. -/
def inv (b : Byte) : Byte :=
  let b2 := mul b b
  let b4 := mul b2 b2
  let b8 := mul b4 b4
  let b16 := mul b8 b8
  let b32 := mul b16 b16
  let b64 := mul b32 b32
  let b128 := mul b64 b64
  mul b2 (mul b4 (mul b8 (mul b16 (mul b32 (mul b64 b128)))))

/-- Section 5.1.1, equation 5.2. -/
def affine (b : Byte) : Byte :=
  BitVec.ofFnLE fun i : Fin 8 =>
    b.getLsbD i ^^ b.getLsbD ((i + 4) % 8) ^^ b.getLsbD ((i + 5) % 8) ^^ b.getLsbD ((i + 6) % 8) ^^
      b.getLsbD ((i + 7) % 8) ^^ (0x63 : Byte).getLsbD i

/-- Section 5.1.1: the S-box. -/
def sbox (b : Byte) : Byte := affine (inv b)

/-- The inverse of the affine map. -/
def invAffine (b : Byte) : Byte :=
  BitVec.ofFnLE fun i : Fin 8 =>
    b.getLsbD ((i + 2) % 8) ^^ b.getLsbD ((i + 5) % 8) ^^ b.getLsbD ((i + 7) % 8) ^^ (0x05 : Byte).getLsbD i

/-- Section 5.3.2: the inverse S-box. -/
def invSbox (b : Byte) : Byte := inv (invAffine b)

/-- Section 5.1.1. -/
def subBytes (s : State) : State := fun r c => sbox (s r c)
/-- Section 5.1.2. -/
def shiftRows (s : State) : State := fun r c => s r (c + r)
/-- Section 4.3 and 5.1.3: the coefficient in row `r` and column `k` of the matrix of `MIXCOLUMNS`. -/
def mixCoeff (r k : Fin 4) : Byte :=
  match k - r with
  | 0 => 2 | 1 => 3 | 2 => 1 | 3 => 1
/-- Section 5.1.3, one column. -/
def mixColumn (a : Word) : Word :=
  fun r => mul (mixCoeff r 0) (a 0) ^^^ mul (mixCoeff r 1) (a 1) ^^^ mul (mixCoeff r 2) (a 2) ^^^ mul (mixCoeff r 3) (a 3)
/-- Section 5.1.3. -/
def mixColumns (s : State) : State := fun r c => mixColumn (fun k => s k c) r
/-- Section 5.1.4: the words `w[4·round]` to `w[4·round+3]` are added to the columns. -/
def addRoundKey (w : Nat → Word) (round : Nat) (s : State) : State := fun r c => s r c ^^^ w (4 * round + c) r

/-- Section 3.4: the state of a block. -/
def ofBlock (b : Block) : State := fun r c => b ⟨r + 4 * c, by omega⟩
/-- Section 3.4: the block of a state. -/
def toBlock (s : State) : Block := fun i => s ⟨i % 4, by omega⟩ ⟨i / 4, by omega⟩

/-- Algorithm 1, lines 4-9: the rounds `1` to `n`. -/
def rounds (w : Nat → Word) : Nat → State → State
  | 0, s => s
  | n + 1, s => addRoundKey w (n + 1) (mixColumns (shiftRows (subBytes (rounds w n s))))

/-- Algorithm 1 `CIPHER`. -/
def cipher (nr : Nat) (w : Nat → Word) (b : Block) : Block :=
  toBlock (addRoundKey w nr (shiftRows (subBytes (rounds w (nr - 1) (addRoundKey w 0 (ofBlock b))))))

/-- Section 5.3.1. -/
def invShiftRows (s : State) : State := fun r c => s r (c - r)
/-- Section 5.3.2. -/
def invSubBytes (s : State) : State := fun r c => invSbox (s r c)
/-- Section 5.3.3. -/
def invMixCoeff (r k : Fin 4) : Byte :=
  match k - r with
  | 0 => 0x0e | 1 => 0x0b | 2 => 0x0d | 3 => 0x09
/-- Section 5.3.3, one column. -/
def invMixColumn (a : Word) : Word :=
  fun r => mul (invMixCoeff r 0) (a 0) ^^^ mul (invMixCoeff r 1) (a 1) ^^^ mul (invMixCoeff r 2) (a 2) ^^^
    mul (invMixCoeff r 3) (a 3)
/-- Section 5.3.3. -/
def invMixColumns (s : State) : State := fun r c => invMixColumn (fun k => s k c) r

/-- Algorithm 3, lines 4-9: the rounds `n` down to `1`. -/
def invRounds (w : Nat → Word) : Nat → State → State
  | 0, s => s
  | n + 1, s => invRounds w n (invMixColumns (addRoundKey w (n + 1) (invSubBytes (invShiftRows s))))

/-- Algorithm 3 `INVCIPHER`. -/
def invCipher (nr : Nat) (w : Nat → Word) (b : Block) : Block :=
  toBlock (addRoundKey w 0 (invSubBytes (invShiftRows (invRounds w (nr - 1) (addRoundKey w nr (ofBlock b))))))

/-- Section 5.2. -/
def rotWord (a : Word) : Word := fun r => a (r + 1)
/-- Section 5.2. -/
def subWord (a : Word) : Word := fun r => sbox (a r)
/-- Section 5.2, table 5: `Rcon[j] = [x^(j-1), 0, 0, 0]`. -/
def rcon (j : Nat) : Word := fun r => if r = 0 then xpow 1 (j - 1) else 0
/-- The sum of two words. -/
def add (a b : Word) : Word := fun r => a r ^^^ b r

/-- Algorithm 2 `KEYEXPANSION`: the word `i` for a key of `nk` words, given as a sequence of bytes. -/
def expansion (nk : Nat) (key : Nat → Byte) (i : Nat) : Word :=
  if h : i < nk ∨ nk = 0 then fun r => key (4 * i + r)
  else
    add (expansion nk key (i - nk))
      (if i % nk = 0 then add (subWord (rotWord (expansion nk key (i - 1)))) (rcon (i / nk))
       else if 6 < nk ∧ i % nk = 4 then subWord (expansion nk key (i - 1))
       else expansion nk key (i - 1))
termination_by i
decreasing_by all_goals omega

/-- AES-128, AES-192 and AES-256 (`nk` 4, 6 and 8): encryption of a block. -/
def encrypt (nk : Nat) (key : Nat → Byte) (b : Block) : Block := cipher (nk + 6) (expansion nk key) b
/-- AES-128, AES-192 and AES-256: decryption of a block. -/
def decrypt (nk : Nat) (key : Nat → Byte) (b : Block) : Block := invCipher (nk + 6) (expansion nk key) b

end Spec.AES
