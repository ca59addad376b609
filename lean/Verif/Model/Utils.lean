import Verif.Model.Pair
/-!
# Model of `src/amcl_utils.rs`

Keccak-256 (the external crate `tiny_keccak`) is a parameter of type `Keccak`: any function from byte
strings to 32 bytes. `Vec<u8>` and `&[u8]` are `List UInt8`. Results of type `Result<_, DecodeError>`
are `Except DecodeError _` inside `Option`, where `none` is a panic.
-/

namespace Amcl

/-- `errors.rs` 1-7. -/
inductive DecodeError
  | BadPoint
  | IncorrectSize
  | Infinity
  | InvalidCFlag
deriving DecidableEq, Repr

/-- The hash used by `hash` (`amcl_utils.rs` 163-169): 32 bytes for every input. -/
abbrev Keccak := List UInt8 → Vector UInt8 32

/-- Rust `a + b` on `u8`, `none` on overflow. -/
def u8add (a b : UInt8) : Option UInt8 := if a.toNat + b.toNat < 256 then some (a + b) else none

namespace utils

/-- `amcl_utils.rs` 35-39 `Q`. -/
def Q : List UInt8 := [
  26, 1, 17, 234, 57, 127, 230, 154, 75, 27, 167, 182, 67, 75, 172, 215, 100, 119, 75, 132, 243,
  133, 18, 191, 103, 48, 210, 160, 246, 176, 246, 36, 30, 171, 255, 254, 177, 83, 255, 255, 185,
  254, 255, 255, 255, 255, 170, 171]

/-- `amcl_utils.rs` 42-50. -/
def G2_COFACTOR_HIGH : BIG := ⟨0x01537E293A6691AE, 0x023C72D367A0BBC8, 0x0205B2E5A7DDFA62,
  0x01151C216AEA9A28, 0x012876A202CD91DE, 0x010539FC4247541E, 0x000000005D543A95⟩
/-- `amcl_utils.rs` 51-59. -/
def G2_COFACTOR_LOW : BIG := ⟨0x031C38E31C7238E5, 0x01BB1B9E1BC31C33, 0x0000000000000161, 0, 0, 0, 0⟩
/-- `amcl_utils.rs` 60-68. -/
def G2_COFACTOR_SHIFT : BIG := ⟨0, 0, 0x0000000000001000, 0, 0, 0, 0⟩

/-- `amcl_utils.rs` 362-371: the doubling loop, with its `u64` carry. -/
def doubleBytes : Nat → List UInt8 → List UInt8
  | _, [] => []
  | carry, y :: ys =>
    let res := y.toNat * 2 + carry
    UInt8.ofNat (res % 2 ^ 8) :: doubleBytes (res - res % 2 ^ 8) ys

/-- `amcl_utils.rs` 373-380: comparison with `Q`. -/
def cmpQ : List UInt8 → List UInt8 → UInt8
  | r :: rs, q :: qs => if r > q then 1 else if r < q then 0 else cmpQ rs qs
  | _, _ => 1

/-- `amcl_utils.rs` 358-381 `calc_a_flag`. -/
def calc_a_flag (y : BIG) : Option UInt8 := do
  let b ← y.tobytes
  return cmpQ (doubleBytes 0 b) Q

/-- `amcl_utils.rs` 191-193, 198-203: flags added to byte 0. -/
def setFlags (b : List UInt8) (a_flag : UInt8) : Option (List UInt8) :=
  match b with
  | [] => none
  | h :: t => do
    let h ← u8add h (32 * a_flag)
    let h ← u8add h 128
    return h :: t

/-- `amcl_utils.rs` 178-207 `compress_g1` (the side effect on the argument is dropped: every caller
passes a clone). -/
def compress_g1 (g1 : ECP) : Option (List UInt8) := do
  if ← g1.is_infinity then return 192 :: List.replicate 47 0
  let (bytes, _) ← g1.tobytes
  let result := (bytes.drop 1).take 48
  let a_flag ← calc_a_flag (← BIG.frombytes (bytes.drop 49))
  setFlags result a_flag

/-- `amcl_utils.rs` 210-260 `decompress_g1`. -/
def decompress_g1 (bytes : List UInt8) : Option (Except DecodeError ECP) := do
  if bytes.length ≠ 48 then return .error .IncorrectSize
  match bytes with
  | [] => none
  | b0 :: rest =>
    let a_flag := b0 % 64 / 32
    if b0 / 128 ≠ 1 then return .error .InvalidCFlag
    if b0 % 128 / 64 = 1 then
      if a_flag ≠ 0 ∨ b0 % 32 ≠ 0 then return .error .BadPoint
      if rest.any (· ≠ 0) then return .error .BadPoint
      return .ok (← ECP.new)
    let x ← BIG.frombytes (b0 % 32 :: rest)
    let point ← ECP.new_big x
    if ← point.is_infinity then return .error .BadPoint
    let (y, point) ← point.gety
    let c ← calc_a_flag y
    if c ≠ a_flag then return .ok (← point.neg)
    return .ok point

/-- `amcl_utils.rs` 263-297 `compress_g2` (the side effect on the argument is dropped). -/
def compress_g2 (g2 : ECP2) : Option (List UInt8) := do
  if ← g2.is_infinity then return 192 :: List.replicate 95 0
  let bytes ← g2.tobytes
  let x_real := bytes.take 48
  let x_imaginary := (bytes.drop 48).take 48
  let a_flag ← calc_a_flag (← BIG.frombytes (bytes.drop 144))
  setFlags (x_imaginary ++ x_real) a_flag

/-- `amcl_utils.rs` 300-353 `decompress_g2`. -/
def decompress_g2 (bytes : List UInt8) : Option (Except DecodeError ECP2) := do
  if bytes.length ≠ 96 then return .error .IncorrectSize
  match bytes with
  | [] => none
  | b0 :: rest =>
    if b0 / 128 ≠ 1 then return .error .InvalidCFlag
    if b0 % 128 / 64 = 1 then
      if b0 % 64 ≠ 0 then return .error .BadPoint
      if rest.any (· ≠ 0) then return .error .BadPoint
      return .ok (← ECP2.new)
    let a_flag := b0 % 64 / 32
    let bytes := b0 % 32 :: rest
    let x_imaginary ← BIG.frombytes (bytes.take 48)
    let x_real ← BIG.frombytes (bytes.drop 48)
    let x ← FP2.new_bigs x_real x_imaginary
    let point ← ECP2.new_fp2 x
    if ← point.is_infinity then return .error .BadPoint
    let (y, point) ← point.gety
    let c ← calc_a_flag (← y.getb)
    if c ≠ a_flag then return .ok (← point.neg)
    return .ok point

/-- `amcl_utils.rs` 128-141 `cmp_fp2`. -/
def cmp_fp2 (n1 n2 : FP2) : Option Int := do
  let b1 ← n1.getb
  let b2 ← n2.getb
  let r := BIG.comp b1 b2
  if r = 0 then
    let a1 ← n1.geta
    let a2 ← n2.geta
    return BIG.comp a1 a2
  else return r

/-- `amcl_utils.rs` 144-160 `multiply_cofactor`. -/
def multiply_cofactor (P : ECP2) : Option ECP2 := do
  let high ← P.mul G2_COFACTOR_HIGH
  let high ← high.mul G2_COFACTOR_SHIFT
  let low ← P.mul G2_COFACTOR_LOW
  high.add low

/-- `amcl_utils.rs` 103-111: the search for an x-coordinate on the twist. -/
def mapLoop (one : FP2) (x : FP2) : Option ECP2 := do
  let x ← x.norm
  let P ← ECP2.new_fp2 x
  if ← P.is_infinity then
    let x ← x.add one
    mapLoop one x
  else return P
partial_fixpoint

/-- `amcl_utils.rs` 114-119: take the larger of the two y. -/
def chooseY (P : ECP2) : Option ECP2 := do
  let neg_y ← P.y.neg
  if (← cmp_fp2 P.y neg_y) < 0 then P.neg else return P

/-- `amcl_utils.rs` 89-124 `map_to_g2`. -/
def map_to_g2 (x_real x_imaginary : List UInt8) : Option ECP2 := do
  let re ← BIG.frombytes x_real
  let im ← BIG.frombytes x_imaginary
  let re ← re.rmod rom.MODULUS
  let im ← im.rmod rom.MODULUS
  let x ← FP2.new_bigs re im
  let one ← FP2.one
  let P ← mapLoop one x
  let P ← chooseY P
  multiply_cofactor P

/-- `u64::to_be_bytes`. -/
def be64 (d : UInt64) : List UInt8 :=
  (List.range 8).map fun i => (d >>> (8 * (7 - i)).toUInt64).toUInt8

/-- `amcl_utils.rs` 77-85 `hash_on_g2`. -/
def hash_on_g2 (H : Keccak) (msg : List UInt8) (d : UInt64) : Option ECP2 :=
  let x_real := List.replicate 16 0 ++ (H (msg ++ be64 d ++ [1])).toList
  let x_imaginary := List.replicate 16 0 ++ (H (msg ++ be64 d ++ [2])).toList
  map_to_g2 x_real x_imaginary

/-- `amcl_utils.rs` 172-175 `ate_pairing`. -/
def ate_pairing (g2 : ECP2) (g1 : ECP) : Option FP12 := do
  let e ← pair.ate g2 g1
  pair.fexp e

end utils

end Amcl
