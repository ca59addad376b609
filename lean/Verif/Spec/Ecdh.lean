import Verif.Spec.Mpin
/-!
# HMAC, KDF1, KDF2 and PBKDF2

FIPS 198-1, ISO/IEC 18033-2 (6.2.2 and 6.2.3) and RFC 8018 (5.2). A hash function of SHA-2 is named by the length of its
values: 32, 48 or 64 bytes.
-/

namespace Spec.Kdf

/-- The hash function with values of `sha` bytes. -/
noncomputable def H (sha : Nat) (m : List UInt8) : List UInt8 := (mpinDigest sha m).getD []

/-- The length of its blocks. -/
def blockLen (sha : Nat) : Nat := if sha = 32 then 64 else 128

/-- FIPS 198-1, steps 1 to 3: the key with the length of a block. -/
noncomputable def key0 (sha : Nat) (k : List UInt8) : List UInt8 :=
  let k := if k.length ≤ blockLen sha then k else H sha k
  k ++ List.replicate (blockLen sha - k.length) 0

/-- FIPS 198-1: `HMAC(k, m)`. -/
noncomputable def hmac (sha : Nat) (k m : List UInt8) : List UInt8 :=
  H sha ((key0 sha k).map (· ^^^ 0x5c) ++ H sha ((key0 sha k).map (· ^^^ 0x36) ++ m))

/-- The hash values of `z`, the number of the block and `p`, for `n` blocks from number `c`. -/
noncomputable def blocks (sha : Nat) (z p : List UInt8) : Nat → Nat → List UInt8
  | 0, _ => []
  | n + 1, c => H sha (z ++ toBE 4 c ++ p) ++ blocks sha z p n (c + 1)

/-- The number of blocks of `b` bytes for `n` bytes. -/
def ceilDiv (n b : Nat) : Nat := (n + b - 1) / b

/-- KDF1: the numbers of the blocks begin with 0. -/
noncomputable def kdf1 (sha : Nat) (z : List UInt8) (olen : Nat) : List UInt8 := (blocks sha z [] (ceilDiv olen sha) 0).take olen

/-- KDF2: the numbers of the blocks begin with 1; `p` are the other data. -/
noncomputable def kdf2 (sha : Nat) (z p : List UInt8) (olen : Nat) : List UInt8 := (blocks sha z p (ceilDiv olen sha) 1).take olen

/-- `U_(j+1)` of RFC 8018 with `F = HMAC(pass, ·)`. -/
def iter (F : List UInt8 → List UInt8) (u : List UInt8) : Nat → List UInt8
  | 0 => F u
  | j + 1 => F (iter F u j)

/-- `U_1 ^ … ^ U_(c+1)`. -/
def xorSum (F : List UInt8 → List UInt8) (u : List UInt8) : Nat → List UInt8
  | 0 => iter F u 0
  | j + 1 => List.zipWith (· ^^^ ·) (xorSum F u j) (iter F u (j + 1))

/-- `T_1 … T_n` from `T_i` on, for `rep ≥ 1` iterations. -/
noncomputable def tBlocks (sha : Nat) (pass salt : List UInt8) (rep : Nat) : Nat → Nat → List UInt8
  | 0, _ => []
  | n + 1, i => xorSum (hmac sha pass) (salt ++ toBE 4 i) (rep - 1) ++ tBlocks sha pass salt rep n (i + 1)

/-- RFC 8018: `PBKDF2(pass, salt, rep, olen)` with HMAC. -/
noncomputable def pbkdf2 (sha : Nat) (pass salt : List UInt8) (rep olen : Nat) : List UInt8 :=
  (tBlocks sha pass salt rep (ceilDiv olen sha) 1).take olen

end Spec.Kdf
