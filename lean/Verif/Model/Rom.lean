import Verif.Model.Machine
/-!
# Constants of `amcl/src/bls381/rom.rs` and the limb structure of `BIG`
-/

namespace Amcl

/-- `big.rs` 41-44: `BIG { w: [Chunk; NLEN] }` with `NLEN = 7`; the array is unrolled. -/
@[ext] structure BIG where
  w0 : Int
  w1 : Int
  w2 : Int
  w3 : Int
  w4 : Int
  w5 : Int
  w6 : Int
deriving DecidableEq, Repr

/-- `big.rs` 30: `BASEBITS = 58`, `BMASK = 2^58 - 1`. -/
def BMASK : Int := 0x3ffffffffffffff

namespace rom
/-- `rom.rs` 26. -/
def MODULUS : BIG := ⟨0x1FEFFFFFFFFAAAB, 0x2FFFFAC54FFFFEE, 0x12A0F6B0F6241EA, 0x213CE144AFD9CC3, 0x2434BACD764774B, 0x25FF9A692C6E9ED, 0x1A0111EA3⟩
/-- `rom.rs` 27. -/
def R2MODP : BIG := ⟨0x20639A1D5BEF7AE, 0x1244C6462DD93E8, 0x22D09B54E6E2CD2, 0x111C4B63170E5DB, 0x38A6DE8FB366399, 0x4F16CFED1F9CBC, 0x19EA66A2B⟩
/-- `rom.rs` 29. -/
def FRA : BIG := ⟨0x10775ED92235FB8, 0x3A94F58F9E04F63, 0x3D784BAB9C4F67, 0x3F4F2F57D3DEC91, 0x202C0D1F0FD603, 0xAEC199F08C6FAD, 0x1904D3BF0⟩
/-- `rom.rs` 30. -/
def FRB : BIG := ⟨0xF78A126DDC4AF3, 0x356B0535B1FB08B, 0xEC971F63C5F282, 0x21EDB1ECDBFB032, 0x2231F9FB854A147, 0x1B1380CA23A7A40, 0xFC3E2B3⟩
/-- `rom.rs` 35. -/
def CURVE_B : BIG := ⟨0x4, 0x0, 0x0, 0x0, 0x0, 0x0, 0x0⟩
/-- `rom.rs` 36. -/
def CURVE_ORDER : BIG := ⟨0x3FFFFFF00000001, 0x36900BFFF96FFBF, 0x180809A1D80553B, 0x14CA675F520CCE7, 0x73EDA7, 0x0, 0x0⟩
/-- `rom.rs` 37. -/
def CURVE_GX : BIG := ⟨0x33AF00ADB22C6BB, 0x17A0FFE5E86BBFE, 0x3A3F171BAC586C5, 0x13E5DD2E4168538, 0x4FA9AC0FC3688C, 0x65F5E509A558E3, 0x17F1D3A73⟩
/-- `rom.rs` 38. -/
def CURVE_GY : BIG := ⟨0xAA232946C5E7E1, 0x331D128A222B903, 0x18CB2C04B3EDD03, 0x25757402BD8036C, 0x1741D8AE4FCF5E0, 0xEAA83C68278C3B, 0x8B3F481E⟩
/-- `rom.rs` 40. -/
def CURVE_BNX : BIG := ⟨0x201000000010000, 0x34, 0x0, 0x0, 0x0, 0x0, 0x0⟩
/-- `rom.rs` 41. -/
def CURVE_COF : BIG := ⟨0xAAAB0000AAAB, 0x3230015557855A3, 0x396, 0x0, 0x0, 0x0, 0x0⟩
/-- `rom.rs` 44. -/
def CURVE_PXA : BIG := ⟨0x8056C8C121BDB8, 0x300C9AA016EFBF5, 0xB647AE3D1770BA, 0x353E900EC0AD144, 0x32DC51051C6E47A, 0x23C2A449820149, 0x24AA2B2F⟩
/-- `rom.rs` 45. -/
def CURVE_PXB : BIG := ⟨0x1AC7D055D042B7E, 0x33C4484E51755F9, 0x21BBDC7F5049334, 0x3426482D86AD769, 0x88274F65596BD0, 0x9C67D81F6B34E8, 0x13E02B605⟩
/-- `rom.rs` 46. -/
def CURVE_PYA : BIG := ⟨0x193548608B82801, 0x2B2730EEB28A278, 0x1A695160D12C923, 0x2AA32F74E9DB50A, 0x2DA2E351AADFD9B, 0x9F5B8463327371, 0xCE5D5277⟩
/-- `rom.rs` 47. -/
def CURVE_PYB : BIG := ⟨0x2A9075FF05F79BE, 0x1C349D73B07686A, 0x12AB572E99AB3F3, 0x1FA169D8EBC99D2, 0x2BC28B99CB3E28, 0x3A9CD330CAB34AC, 0x606C4A02⟩
/-- `rom.rs` 28. -/
def MCONST : Int := 0x1F3FFFCFFFCFFFD
/-- `rom.rs` 34. -/
def CURVE_B_I : Int := 4
end rom

end Amcl
