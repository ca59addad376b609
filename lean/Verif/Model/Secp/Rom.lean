import Verif.Model.Machine
/-!
# Constants of `amcl/src/secp256k1/rom.rs` and the limb structure of `BIG`

`secp256k1/big.rs`, `dbig.rs`, `fp.rs` and `ecp.rs` are copies of the files in `bls381`; they differ in
`MODBYTES` (32), `BASEBITS` (56), `MODBITS` (256) and `FEXCESS` (`2^24`), so that a `BIG` has five limbs of 56
bits. The files cited in this directory are those of `amcl/src/secp256k1`.
-/

namespace Amcl.Secp

/-- `big.rs` 41-44: `BIG { w: [Chunk; NLEN] }` with `NLEN = 5`; the array is unrolled. -/
@[ext] structure BIG where
  w0 : Int
  w1 : Int
  w2 : Int
  w3 : Int
  w4 : Int
deriving DecidableEq, Repr

/-- `big.rs` 30: `BASEBITS = 56`, `BMASK = 2^56 - 1`. -/
def BMASK : Int := 0xffffffffffffff

namespace rom
/-- `rom.rs` 27. -/
def MODULUS : BIG := ⟨0xFFFFFEFFFFFC2F, 0xFFFFFFFFFFFFFF, 0xFFFFFFFFFFFFFF, 0xFFFFFFFFFFFFFF, 0xFFFFFFFF⟩
/-- `rom.rs` 28. -/
def R2MODP : BIG := ⟨0xA1000000000000, 0x7A2000E90, 0x1, 0x0, 0x0⟩
/-- `rom.rs` 29. -/
def MCONST : Int := 0x38091DD2253531
/-- `rom.rs` 34. -/
def CURVE_COF : BIG := ⟨0x1, 0x0, 0x0, 0x0, 0x0⟩
/-- `rom.rs` 35. -/
def CURVE_B_I : Int := 7
/-- `rom.rs` 36. -/
def CURVE_B : BIG := ⟨0x7, 0x0, 0x0, 0x0, 0x0⟩
/-- `rom.rs` 37. -/
def CURVE_ORDER : BIG := ⟨0xD25E8CD0364141, 0xDCE6AF48A03BBF, 0xFFFFFFFFFEBAAE, 0xFFFFFFFFFFFFFF, 0xFFFFFFFF⟩
/-- `rom.rs` 38. -/
def CURVE_GX : BIG := ⟨0xF2815B16F81798, 0xFCDB2DCE28D959, 0x95CE870B07029B, 0xF9DCBBAC55A062, 0x79BE667E⟩
/-- `rom.rs` 39. -/
def CURVE_GY : BIG := ⟨0x47D08FFB10D4B8, 0xB448A68554199C, 0xFC0E1108A8FD17, 0x26A3C4655DA4FB, 0x483ADA77⟩
end rom

end Amcl.Secp
