import Verif.Spec.Secp.Ecdsa
import Verif.Spec.CbcPad
/-!
# Specification: ECIES on secp256k1 (IEEE 1363a, 11.3) with KDF2, AES-128 in CBC mode and HMAC
-/

namespace Spec.Secp.Ecies

/-- The two keys from the string `v` of the one-time public key and the shared abscissa `x`, with the parameter `p1`. -/
noncomputable def keys (sha : Nat) (p1 v : List UInt8) (x : Fp) : List UInt8 := Kdf.kdf2 sha (v ++ toBE 32 x.val) p1 32

/-- The key for AES. -/
noncomputable def encKey (sha : Nat) (p1 v : List UInt8) (x : Fp) : List UInt8 := (keys sha p1 v x).take 16

/-- The key for HMAC. -/
noncomputable def macKey (sha : Nat) (p1 v : List UInt8) (x : Fp) : List UInt8 := (keys sha p1 v x).drop 16

/-- HMAC of the ciphertext, the parameter `p2` and its length. -/
noncomputable def mac (sha : Nat) (k c p2 : List UInt8) : List UInt8 := Kdf.hmac sha k (c ++ p2 ++ toBE 8 p2.length)

/-- A message after a round trip through `cbc_iv0_encrypt` and `cbc_iv0_decrypt` (C68): its complete blocks, and copies of the
byte of the padding in place of the rest. -/
def mangled (m : List UInt8) : List UInt8 :=
  m.take (16 * (m.length / 16)) ++ List.replicate (m.length % 16) (UInt8.ofNat (16 - m.length % 16))

end Spec.Secp.Ecies
