import Verif.Model.Utils
import Verif.Model.Rand
/-!
# Model of `src/g1.rs`, `src/g2.rs`, `src/keys.rs`, `src/signature.rs`, `src/aggregates.rs`

`G1Point` and `G2Point` are wrappers of one field each around `ECP` and `ECP2` (`g1.rs` 6-8, `g2.rs`
6-8) and are identified with it; `clone` (`g1.rs` 68-74, `g2.rs` 60-66) copies the coordinates and is
the identity. `GENERATORG1` (`amcl_utils.rs` 70-74) is `ECP::generator()`.
-/

namespace Amcl

open utils

/-- `keys.rs` 14-16. -/
structure SecretKey where
  x : BIG
deriving DecidableEq, Repr

/-- `keys.rs` 65-67. -/
structure PublicKey where
  point : ECP
deriving DecidableEq, Repr

/-- `signature.rs` 10-12. -/
structure Signature where
  point : ECP2
deriving DecidableEq, Repr

/-- `aggregates.rs` 15-17. -/
structure AggregatePublicKey where
  point : ECP
deriving DecidableEq, Repr

/-- `aggregates.rs` 77-79. -/
structure AggregateSignature where
  point : ECP2
deriving DecidableEq, Repr

/-- `keys.rs` 150-153. -/
structure Keypair where
  sk : SecretKey
  pk : PublicKey
deriving DecidableEq, Repr

namespace SecretKey

/-- `keys.rs` 20-24 `random`, as a function of the 256 bytes drawn from the caller's generator. -/
def random (entropy : List UInt8) : Option SecretKey := do
  let g ← get_seeded_rng entropy
  let (x, _) ← BIG.randomnum rom.CURVE_ORDER g
  return ⟨x⟩

/-- `keys.rs` 27-34 `from_bytes`. -/
def from_bytes (b : List UInt8) : Option (Except DecodeError SecretKey) := do
  if b.length ≠ 48 then return .error .IncorrectSize
  return .ok ⟨← BIG.frombytes b⟩

/-- `keys.rs` 37-42 `as_bytes`. -/
def as_bytes (sk : SecretKey) : Option (List UInt8) := sk.x.tobytes

/-- `keys.rs` 55-57 `eq`. -/
def eq (a b : SecretKey) : Option Bool := do return (← as_bytes a) == (← as_bytes b)

end SecretKey

namespace PublicKey

/-- `keys.rs` 71-84 `from_secret_key`. -/
def from_secret_key (sk : SecretKey) : Option PublicKey := do
  let g ← ECP.generator
  return ⟨← g.mul sk.x⟩

/-- `keys.rs` 94-97 `from_bytes`, with `g1.rs` 49-52. -/
def from_bytes (b : List UInt8) : Option (Except DecodeError PublicKey) := do
  return (← decompress_g1 b).map PublicKey.mk

/-- `keys.rs` 100-103 `as_bytes`, with `g1.rs` 55-57. -/
def as_bytes (pk : PublicKey) : Option (List UInt8) := compress_g1 pk.point

/-- `keys.rs` 64 derived `==`, with `g1.rs` 76-83. -/
def eq (a b : PublicKey) : Option Bool := a.point.equals b.point

/-- `keys.rs` 106-118 `as_uncompressed_bytes`: the bytes and the new `self`. -/
def as_uncompressed_bytes (pk : PublicKey) : Option (List UInt8 × PublicKey) := do
  if ← pk.point.is_infinity then return (List.replicate 96 0, pk)
  let (x, P) ← pk.point.getx
  let bx ← x.tobytes
  let (y, P) ← P.gety
  let cy ← y.tobytes
  return (bx ++ cy, ⟨P⟩)

/-- `keys.rs` 121-146 `from_uncompressed_bytes`. -/
def from_uncompressed_bytes (b : List UInt8) : Option (Except DecodeError PublicKey) := do
  if b.length ≠ 96 then return .error .IncorrectSize
  if b.all (· = 0) then return .ok ⟨← ECP.new⟩
  let x ← BIG.frombytes (b.take 48)
  let y ← BIG.frombytes (b.drop 48)
  let P ← ECP.new_bigs x y
  if ← P.is_infinity then return .error .BadPoint
  return .ok ⟨P⟩

end PublicKey

/-- `keys.rs` 159-163 `Keypair::random`. -/
def Keypair.random (entropy : List UInt8) : Option Keypair := do
  let sk ← SecretKey.random entropy
  let pk ← PublicKey.from_secret_key sk
  return ⟨sk, pk⟩

namespace Signature

/-- `signature.rs` 19-22, 30-33: the common tail of `new` and `new_hashed`. -/
def sign (hash_point : ECP2) (sk : SecretKey) : Option Signature := do
  let sig ← hash_point.mul sk.x
  return ⟨← sig.affine⟩

/-- `signature.rs` 16-23 `new`. -/
def new (H : Keccak) (msg : List UInt8) (d : UInt64) (sk : SecretKey) : Option Signature := do
  sign (← hash_on_g2 H msg d) sk

/-- `signature.rs` 27-34 `new_hashed`. -/
def new_hashed (re im : List UInt8) (sk : SecretKey) : Option Signature := do
  sign (← map_to_g2 re im) sk

/-- `signature.rs` 42-54, 70-82: the common tail of `verify` and `verify_hashed`. -/
def check (sig : ECP2) (hash_point : ECP2) (pk : ECP) : Option Bool := do
  let h ← hash_point.affine
  let lhs ← ate_pairing sig (← ECP.generator)
  let rhs ← ate_pairing h pk
  lhs.equals rhs

/-- `signature.rs` 40-55 `verify`. -/
def verify (H : Keccak) (sig : Signature) (msg : List UInt8) (d : UInt64) (pk : PublicKey) :
    Option Bool := do
  check sig.point (← hash_on_g2 H msg d) pk.point

/-- `signature.rs` 63-83 `verify_hashed`. -/
def verify_hashed (sig : Signature) (re im : List UInt8) (pk : PublicKey) : Option Bool := do
  check sig.point (← map_to_g2 re im) pk.point

/-- `signature.rs` 86-89 `from_bytes`, with `g2.rs` 41-44. -/
def from_bytes (b : List UInt8) : Option (Except DecodeError Signature) := do
  return (← decompress_g2 b).map Signature.mk

/-- `signature.rs` 92-95 `as_bytes`, with `g2.rs` 47-49. -/
def as_bytes (s : Signature) : Option (List UInt8) := compress_g2 s.point

/-- `signature.rs` 8 derived `==`, with `g2.rs` 68-75. -/
def eq (a b : Signature) : Option Bool := a.point.equals b.point

end Signature

namespace AggregatePublicKey

/-- `aggregates.rs` 23-28 `new`. -/
def new : Option AggregatePublicKey := do return ⟨← ECP.inf⟩

/-- `aggregates.rs` 42-45 `add`. -/
def add (a : AggregatePublicKey) (k : PublicKey) : Option AggregatePublicKey := do
  let P ← a.point.add k.point
  return ⟨← P.affine⟩

/-- `aggregates.rs` 33-39 `from_public_keys`. -/
def from_public_keys (ks : List PublicKey) : Option AggregatePublicKey := do
  ks.foldlM add (← new)

/-- `aggregates.rs` 48-51 `add_aggregate`. -/
def add_aggregate (a b : AggregatePublicKey) : Option AggregatePublicKey := do
  let P ← a.point.add b.point
  return ⟨← P.affine⟩

/-- `aggregates.rs` 54-57 `from_bytes`. -/
def from_bytes (b : List UInt8) : Option (Except DecodeError AggregatePublicKey) := do
  return (← decompress_g1 b).map AggregatePublicKey.mk

/-- `aggregates.rs` 60-63 `as_bytes`. -/
def as_bytes (a : AggregatePublicKey) : Option (List UInt8) := compress_g1 a.point

/-- `aggregates.rs` 13 derived `==`. -/
def eq (a b : AggregatePublicKey) : Option Bool := a.point.equals b.point

end AggregatePublicKey

namespace AggregateSignature

/-- `aggregates.rs` 85-89 `new`. -/
def new : Option AggregateSignature := do return ⟨← ECP2.inf⟩

/-- `aggregates.rs` 92-95 `add`. -/
def add (a : AggregateSignature) (s : Signature) : Option AggregateSignature := do
  let P ← a.point.add s.point
  return ⟨← P.affine⟩

/-- `aggregates.rs` 98-101 `add_aggregate`. -/
def add_aggregate (a b : AggregateSignature) : Option AggregateSignature := do
  let P ← a.point.add b.point
  return ⟨← P.affine⟩

/-- `aggregates.rs` 107-126 `verify`. -/
def verify (H : Keccak) (s : AggregateSignature) (msg : List UInt8) (d : UInt64)
    (avk : AggregatePublicKey) : Option Bool := do
  let sig ← s.point.affine
  let key ← avk.point.affine
  Signature.check sig (← hash_on_g2 H msg d) key

/-- `aggregates.rs` 143-155: one factor of the product. -/
def factor (H : Keccak) (msg : List UInt8) (d : UInt64) (i : Nat) (key : AggregatePublicKey) :
    Option FP12 := do
  let key ← key.point.affine
  let h ← hash_on_g2 H ((msg.drop (i * 32)).take 32) d
  let h ← h.affine
  ate_pairing h key

/-- `aggregates.rs` 143-155: the factors with index `i` and up, multiplied onto `lhs`. -/
def product (H : Keccak) (msg : List UInt8) (d : UInt64) :
    Nat → List AggregatePublicKey → FP12 → Option FP12
  | _, [], lhs => some lhs
  | i, k :: ks, lhs => do
    let p ← factor H msg d i k
    let lhs ← if i = 0 then pure p else lhs.mul p
    product H msg d (i + 1) ks lhs

/-- `aggregates.rs` 132-167 `verify_multiple`. -/
def verify_multiple (H : Keccak) (s : AggregateSignature) (msg : List UInt8) (d : UInt64)
    (avks : List AggregatePublicKey) : Option Bool := do
  let sig ← s.point.affine
  if msg.length ≠ 32 * avks.length ∨ avks.isEmpty then return false
  let lhs ← product H msg d 0 avks FP12.new
  let rhs ← ate_pairing sig (← ECP.generator)
  lhs.equals rhs

/-- `aggregates.rs` 170-173 `from_bytes`. -/
def from_bytes (b : List UInt8) : Option (Except DecodeError AggregateSignature) := do
  return (← decompress_g2 b).map AggregateSignature.mk

/-- `aggregates.rs` 176-179 `as_bytes`. -/
def as_bytes (a : AggregateSignature) : Option (List UInt8) := compress_g2 a.point

/-- `aggregates.rs` 75 derived `==`. -/
def eq (a b : AggregateSignature) : Option Bool := a.point.equals b.point

end AggregateSignature

end Amcl
