import Verif.Spec.Aes
/-!
# SP 800-38A: modes of operation

For any block cipher with encryption `E` and decryption `D`. Written from the standard, without reference to the
model. In the modes CFB, OFB and CTR a message is a sequence of segments, which are lists of at most sixteen bytes.
-/

namespace Spec.Modes
open Spec.AES

/-- The sum of two blocks. -/
def addBlock (a b : Block) : Block := fun i => a i ^^^ b i

/-- The bytes of a block, the first (most significant in the standard's terms) first. -/
def bytes (b : Block) : List Byte := List.ofFn b

/-- The sum of a segment with the first bytes of a block. -/
def mask (p : List Byte) (o : Block) : List Byte := List.zipWith (· ^^^ ·) p (bytes o)

/-- Section 6.1. -/
def ecb (E : Block → Block) (ps : List Block) : List Block := ps.map E

/-- Section 6.2, encryption: `C₁ = E(P₁ ⊕ IV)`, `Cⱼ = E(Pⱼ ⊕ Cⱼ₋₁)`. -/
def cbcEnc (E : Block → Block) : Block → List Block → List Block
  | _, [] => []
  | c, p :: ps => E (addBlock p c) :: cbcEnc E (E (addBlock p c)) ps

/-- Section 6.2, decryption: `P₁ = D(C₁) ⊕ IV`, `Pⱼ = D(Cⱼ) ⊕ Cⱼ₋₁`. -/
def cbcDec (D : Block → Block) (iv : Block) (cs : List Block) : List Block :=
  List.zipWith (fun c prev => addBlock (D c) prev) cs (iv :: cs)

/-- The block of the last sixteen bytes of a list. -/
def last16 (l : List Byte) : Block := fun i => l.getD (l.length - 16 + i) 0

/-- Section 6.3, encryption. The input block of a segment is made of the last sixteen bytes of the initialization
vector and all the ciphertext so far (`h`); the segment is added to the first bytes of the output block. -/
def cfbEnc (E : Block → Block) : List Byte → List (List Byte) → List (List Byte)
  | _, [] => []
  | h, p :: ps => mask p (E (last16 h)) :: cfbEnc E (h ++ mask p (E (last16 h))) ps

/-- Section 6.3, decryption: the input blocks are the same. -/
def cfbDec (E : Block → Block) : List Byte → List (List Byte) → List (List Byte)
  | _, [] => []
  | h, c :: cs => mask c (E (last16 h)) :: cfbDec E (h ++ c) cs

/-- The `n`-th iterate. -/
def iter (E : Block → Block) : Nat → Block → Block
  | 0, b => b
  | n + 1, b => E (iter E n b)

/-- Section 6.4: the output blocks are the iterates of `E` on the initialization vector. Encryption and decryption are
the same map. -/
def ofb (E : Block → Block) (iv : Block) (ps : List (List Byte)) : List (List Byte) :=
  ps.mapIdx fun j p => mask p (iter E (j + 1) iv)

/-- The number of a block, the first byte the least significant. -/
def value (b : Block) : Nat := (bytes b).foldr (fun x t => x.toNat + 256 * t) 0

/-- The block of a number modulo `2^128`, the first byte the least significant. -/
def ofValue (n : Nat) : Block := fun i => BitVec.ofNat 8 (n / 256 ^ i.val)

/-- Section 6.5, with the counters `T`. Encryption and decryption are the same map. -/
def ctr (E : Block → Block) (T : Nat → Block) (ps : List (List Byte)) : List (List Byte) :=
  ps.mapIdx fun j p => mask p (E (T j))

end Spec.Modes
