import Verif.Spec.Modes
/-!
# SP 800-38D: Galois/Counter Mode

For any block cipher `E`, on byte strings. Written from the standard, without reference to the model.
-/

namespace Spec.GCM
open Spec.AES Spec.Modes

/-- The bit string of a block: its leftmost bit, which is the most significant bit of the first byte, is the most
significant bit. -/
def toBits (b : Block) : BitVec 128 :=
  BitVec.ofFnLE fun n : Fin 128 => (b ⟨(127 - n) / 8, by omega⟩).getLsbD (n % 8)

/-- The block of a bit string. -/
def ofBits (v : BitVec 128) : Block := fun k => v.extractLsb' (8 * (15 - k)) 8

/-- Section 6.3: `R = 11100001 ‖ 0¹²⁰`. -/
def R : BitVec 128 := 0xE1000000000000000000000000000000

/-- Section 6.3, step 3, the second equation: `V_{i+1}` from `V_i`. -/
def next (v : BitVec 128) : BitVec 128 := if v.getLsbD 0 then (v >>> 1) ^^^ R else v >>> 1

/-- Section 6.3, step 3: the steps from `i`, with `n` left, on `Z` and `V`. The bit `x_i` is the `i`-th from the left. -/
def mulFrom (x : BitVec 128) : Nat → Nat → BitVec 128 → BitVec 128 → BitVec 128
  | 0, _, z, _ => z
  | n + 1, i, z, v => mulFrom x n (i + 1) (if x.getLsbD (127 - i) then z ^^^ v else z) (next v)

/-- Section 6.3, algorithm 1: the product of blocks. -/
def mul (x y : Block) : Block := ofBits (mulFrom (toBits x) 128 0 0 (toBits y))

/-- Section 6.4, algorithm 2: `GHASH`, from `Y₀ = y`. -/
def ghashFrom (h y : Block) (xs : List Block) : Block := xs.foldl (fun y x => mul (addBlock y x) h) y

/-- Section 6.4, algorithm 2. -/
def ghash (h : Block) (xs : List Block) : Block := ghashFrom h (fun _ => 0) xs

/-- The blocks of a byte string, the last one filled with zeros. -/
def blocks (l : List Byte) : List Block :=
  match l with
  | [] => []
  | x :: l => (fun i => (x :: l).getD i 0) :: blocks ((x :: l).drop 16)
termination_by l.length
decreasing_by simp; omega

/-- `[m]₆₄ ‖ [n]₆₄`. -/
def lengths (m n : Nat) : Block := ofBits ((BitVec.ofNat 64 m ++ BitVec.ofNat 64 n).cast (by decide))

/-- Section 6.2: `inc₃₂`, which adds 1 to the number of the last four bytes modulo `2³²`. -/
def inc32 (b : Block) : Block := ofBits (((toBits b).extractLsb' 32 96 ++ ((toBits b).extractLsb' 0 32 + 1)).cast (by decide))

/-- Section 6.5, algorithm 3: `GCTR`. -/
def gctr (E : Block → Block) (icb : Block) (l : List Byte) : List Byte :=
  match l with
  | [] => []
  | x :: l => mask ((x :: l).take 16) (E icb) ++ gctr E (inc32 icb) ((x :: l).drop 16)
termination_by l.length
decreasing_by simp; omega

/-- Section 7.1, step 2: the block `J₀`. -/
def j0 (h : Block) (iv : List Byte) : Block :=
  if iv.length = 12 then fun i => (iv ++ [0, 0, 0, 1]).getD i 0
  else ghash h (blocks iv ++ [lengths 0 (8 * iv.length)])

/-- Section 7.1, steps 5 and 6 (7.2, steps 6 and 7): the tag of sixteen bytes for the header `a` and the ciphertext
`c`. -/
def tag (E : Block → Block) (iv a c : List Byte) : Block :=
  let h := E fun _ => 0
  addBlock (E (j0 h iv)) (ghash h (blocks a ++ blocks c ++ [lengths (8 * a.length) (8 * c.length)]))

/-- Section 7.1, step 3: the ciphertext. The same map gives the plaintext (7.2, step 4). -/
def crypt (E : Block → Block) (iv p : List Byte) : List Byte := gctr E (inc32 (j0 (E fun _ => 0) iv)) p

/-- Section 7.1: authenticated encryption. -/
def authEnc (E : Block → Block) (iv a p : List Byte) : List Byte × Block := (crypt E iv p, tag E iv a (crypt E iv p))

/-- Section 7.2: authenticated decryption. -/
def authDec (E : Block → Block) (iv a c : List Byte) (t : Block) : Option (List Byte) :=
  if bytes (tag E iv a c) = bytes t then some (crypt E iv c) else none

end Spec.GCM
