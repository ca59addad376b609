import Mathlib.Data.Fin.Basic
import Batteries.Data.BitVec.Basic
/-!
# Specification: SHA-3 and SHAKE as in FIPS 202

Bit strings are lists of booleans, as in the standard. Nothing here mentions the model.
-/

namespace Spec.Keccak

/-- FIPS 202, 3.1: the state array, by lanes: `A x y` is `Lane(x, y)`, and bit `z` of it is `A[x, y, z]`. The
arithmetic of the coordinates `x`, `y` is modulo 5. -/
abbrev State := Fin 5 → Fin 5 → BitVec 64

/-- FIPS 202, 3.2.1 step 1: the columns. -/
def C (A : State) (x : Fin 5) : BitVec 64 := A x 0 ^^^ A x 1 ^^^ A x 2 ^^^ A x 3 ^^^ A x 4

/-- FIPS 202, 3.2.1 step 2. Bit `z` of `rotateLeft 1` is bit `z - 1`. -/
def D (A : State) (x : Fin 5) : BitVec 64 := C A (x - 1) ^^^ (C A (x + 1)).rotateLeft 1

/-- FIPS 202, 3.2.1. -/
def θ (A : State) : State := fun x y => A x y ^^^ D A x

/-- FIPS 202, 3.2.2 step 3: the coordinates `(x, y)` in round `t`. -/
def walk : Nat → Fin 5 × Fin 5
  | 0 => (1, 0)
  | t + 1 => ((walk t).2, 2 * (walk t).1 + 3 * (walk t).2)

/-- FIPS 202, 3.2.2 step 3a: the offset of a lane; the lane `(0, 0)` is not visited. -/
def offset (x y : Fin 5) : Nat :=
  match (List.range 24).find? fun t => walk t = (x, y) with
  | some t => (t + 1) * (t + 2) / 2
  | none => 0

/-- FIPS 202, 3.2.2. -/
def ρ (A : State) : State := fun x y => (A x y).rotateLeft (offset x y)

/-- FIPS 202, 3.2.3. -/
def π (A : State) : State := fun x y => A (x + 3 * y) x

/-- FIPS 202, 3.2.4. -/
def χ (A : State) : State := fun x y => A x y ^^^ (~~~A (x + 1) y &&& A (x + 2) y)

/-- FIPS 202, 3.2.5, algorithm 5, step 3: one step of the register. -/
def lfsr (R : List Bool) : List Bool :=
  let R := false :: R
  let b := R.getD 8 false
  let f := fun (R : List Bool) k => R.set k (R.getD k false ^^ b)
  (f (f (f (f R 0) 4) 5) 6).take 8

/-- FIPS 202, 3.2.5, algorithm 5. -/
def rc (t : Nat) : Bool := (lfsr^[t % 255] [true, false, false, false, false, false, false, false]).getD 0 false

/-- FIPS 202, 3.2.5, algorithm 6: the round constant of round `k`. Bit `2^j - 1` is `rc (j + 7 k)`. -/
def RC (k : Nat) : BitVec 64 :=
  (List.range 7).foldl (fun v j => if rc (j + 7 * k) then v ||| (1#64 <<< (2 ^ j - 1)) else v) 0

/-- FIPS 202, 3.2.5. -/
def ι (A : State) (k : Nat) : State := fun x y => if x = 0 ∧ y = 0 then A x y ^^^ RC k else A x y

/-- FIPS 202, 3.3: one round. -/
def Rnd (A : State) (k : Nat) : State := ι (χ (π (ρ (θ A)))) k

/-- FIPS 202, 3.3, 3.4: the permutation `KECCAK-f[1600]`. -/
def keccakF (A : State) : State := (List.range 24).foldl Rnd A

/-- FIPS 202, 3.1.3: bit `n` of the string of the state. -/
def bit (A : State) (n : Nat) : Bool := (A (Fin.ofNat 5 (n / 64)) (Fin.ofNat 5 (n / 320))).getLsbD (n % 64)

/-- The state with the bits of a string added. -/
def xorString (A : State) (P : List Bool) : State := fun x y =>
  BitVec.ofFnLE fun z => (A x y).getLsbD z ^^ P.getD (64 * (5 * y + x) + z) false

/-- FIPS 202, 5.1: the rule `pad10*1` for the rate `r` and a string of `m` bits. -/
def pad (r m : Nat) : List Bool := true :: List.replicate ((-(m : Int) - 2) % r).toNat false ++ [true]

/-- FIPS 202, 4, algorithm 8, steps 1-6: the state after absorbing `N`. -/
def absorb (r : Nat) (N : List Bool) : State :=
  let P := N ++ pad r N.length
  (List.range (P.length / r)).foldl (fun S k => keccakF (xorString S ((P.drop (k * r)).take r))) fun _ _ => 0

/-- FIPS 202, 4 and 5.2: `KECCAK[1600 - r](N, d)`. Bit `n` of the output is in the block that is cut from the
state after `n / r` more applications of the permutation (algorithm 8, steps 7-10). -/
def sponge (r : Nat) (N : List Bool) (d : Nat) : List Bool :=
  (List.range d).map fun n => bit (keccakF^[n / r] (absorb r N)) (n % r)

/-- FIPS 202, B.1: the bits of a byte, least significant first. -/
def bits (m : List UInt8) : List Bool := m.flatMap fun b => (List.range 8).map fun k => b.toBitVec.getLsbD k

/-- FIPS 202, 6.1, for a digest of `d` bits: `SHA3-d(M) = KECCAK[2d](M || 01, d)`. -/
def sha3 (d : Nat) (M : List UInt8) : List Bool := sponge (1600 - 2 * d) (bits M ++ [false, true]) d

/-- FIPS 202, 6.2: `SHAKE128` for `k = 128`, `SHAKE256` for `k = 256`, with an output of `d` bits. -/
def shake (k : Nat) (M : List UInt8) (d : Nat) : List Bool :=
  sponge (1600 - 2 * k) (bits M ++ [true, true, true, true]) d

end Spec.Keccak
