import Verif.Model.Sha3
/-!
# Model of `amcl/src/aes.rs`

Bytes are `UInt8`, words `UInt32`, arrays `Vector`; lengths, counters and modes (`usize`) are natural numbers.
`none` stands for a panic. A loop that handles every entry of an array once, from entries that it does not write
before, is one `Vector.ofFn`. The flag `dbg` of `increment`, `encrypt` and `decrypt` says whether the build checks
overflows (`true` for a debug build, `false` for a release build); nothing else in the file depends on the build:
all other additions are of small counters.
-/

namespace Amcl

/-- `aes.rs` 204-211. -/
structure AES where
  nk : Nat
  nr : Nat
  mode : Nat
  fkey : Vector UInt32 60
  rkey : Vector UInt32 60
  f : Vector UInt8 16
deriving DecidableEq, Repr

namespace AES

set_option maxRecDepth 4000

/-- `aes.rs` 20. -/
def ECB : Nat := 0
/-- `aes.rs` 21. -/
def CBC : Nat := 1
/-- `aes.rs` 22. -/
def CFB1 : Nat := 2
/-- `aes.rs` 23. -/
def CFB2 : Nat := 3
/-- `aes.rs` 24. -/
def CFB4 : Nat := 5
/-- `aes.rs` 25. -/
def OFB1 : Nat := 14
/-- `aes.rs` 26. -/
def OFB2 : Nat := 15
/-- `aes.rs` 27. -/
def OFB4 : Nat := 17
/-- `aes.rs` 28. -/
def OFB8 : Nat := 21
/-- `aes.rs` 29. -/
def OFB16 : Nat := 29
/-- `aes.rs` 30. -/
def CTR1 : Nat := 30
/-- `aes.rs` 31. -/
def CTR2 : Nat := 31
/-- `aes.rs` 32. -/
def CTR4 : Nat := 33
/-- `aes.rs` 33. -/
def CTR8 : Nat := 37
/-- `aes.rs` 34. -/
def CTR16 : Nat := 45

/-- `aes.rs` 36. -/
def INCO : Vector UInt8 4 := #v[
  0xB, 0xD, 0x9, 0xE]

/-- `aes.rs` 38-54. -/
def PTAB : Vector UInt8 256 := #v[
  1, 3, 5, 15, 17, 51, 85, 255, 26, 46, 114, 150, 161, 248, 19, 53,
  95, 225, 56, 72, 216, 115, 149, 164, 247, 2, 6, 10, 30, 34, 102, 170,
  229, 52, 92, 228, 55, 89, 235, 38, 106, 190, 217, 112, 144, 171, 230, 49,
  83, 245, 4, 12, 20, 60, 68, 204, 79, 209, 104, 184, 211, 110, 178, 205,
  76, 212, 103, 169, 224, 59, 77, 215, 98, 166, 241, 8, 24, 40, 120, 136,
  131, 158, 185, 208, 107, 189, 220, 127, 129, 152, 179, 206, 73, 219, 118, 154,
  181, 196, 87, 249, 16, 48, 80, 240, 11, 29, 39, 105, 187, 214, 97, 163,
  254, 25, 43, 125, 135, 146, 173, 236, 47, 113, 147, 174, 233, 32, 96, 160,
  251, 22, 58, 78, 210, 109, 183, 194, 93, 231, 50, 86, 250, 21, 63, 65,
  195, 94, 226, 61, 71, 201, 64, 192, 91, 237, 44, 116, 156, 191, 218, 117,
  159, 186, 213, 100, 172, 239, 42, 126, 130, 157, 188, 223, 122, 142, 137, 128,
  155, 182, 193, 88, 232, 35, 101, 175, 234, 37, 111, 177, 200, 67, 197, 84,
  252, 31, 33, 99, 165, 244, 7, 9, 27, 45, 119, 153, 176, 203, 70, 202,
  69, 207, 74, 222, 121, 139, 134, 145, 168, 227, 62, 66, 198, 81, 243, 14,
  18, 54, 90, 238, 41, 123, 141, 140, 143, 138, 133, 148, 167, 242, 13, 23,
  57, 75, 221, 124, 132, 151, 162, 253, 28, 36, 108, 180, 199, 82, 246, 1]

/-- `aes.rs` 56-72. -/
def LTAB : Vector UInt8 256 := #v[
  0, 255, 25, 1, 50, 2, 26, 198, 75, 199, 27, 104, 51, 238, 223, 3,
  100, 4, 224, 14, 52, 141, 129, 239, 76, 113, 8, 200, 248, 105, 28, 193,
  125, 194, 29, 181, 249, 185, 39, 106, 77, 228, 166, 114, 154, 201, 9, 120,
  101, 47, 138, 5, 33, 15, 225, 36, 18, 240, 130, 69, 53, 147, 218, 142,
  150, 143, 219, 189, 54, 208, 206, 148, 19, 92, 210, 241, 64, 70, 131, 56,
  102, 221, 253, 48, 191, 6, 139, 98, 179, 37, 226, 152, 34, 136, 145, 16,
  126, 110, 72, 195, 163, 182, 30, 66, 58, 107, 40, 84, 250, 133, 61, 186,
  43, 121, 10, 21, 155, 159, 94, 202, 78, 212, 172, 229, 243, 115, 167, 87,
  175, 88, 168, 80, 244, 234, 214, 116, 79, 174, 233, 213, 231, 230, 173, 232,
  44, 215, 117, 122, 235, 22, 11, 245, 89, 203, 95, 176, 156, 169, 81, 160,
  127, 12, 246, 111, 23, 196, 73, 236, 216, 67, 31, 45, 164, 118, 123, 183,
  204, 187, 62, 90, 251, 96, 177, 134, 59, 82, 161, 108, 170, 85, 41, 157,
  151, 178, 135, 144, 97, 190, 220, 252, 188, 149, 207, 205, 55, 63, 91, 209,
  83, 57, 132, 60, 65, 162, 109, 71, 20, 42, 158, 93, 86, 242, 211, 171,
  68, 17, 146, 217, 35, 32, 46, 137, 180, 124, 184, 38, 119, 153, 227, 165,
  103, 74, 237, 222, 197, 49, 254, 24, 13, 99, 140, 128, 192, 247, 112, 7]

/-- `aes.rs` 75-91. -/
def FBSUB : Vector UInt8 256 := #v[
  99, 124, 119, 123, 242, 107, 111, 197, 48, 1, 103, 43, 254, 215, 171, 118,
  202, 130, 201, 125, 250, 89, 71, 240, 173, 212, 162, 175, 156, 164, 114, 192,
  183, 253, 147, 38, 54, 63, 247, 204, 52, 165, 229, 241, 113, 216, 49, 21,
  4, 199, 35, 195, 24, 150, 5, 154, 7, 18, 128, 226, 235, 39, 178, 117,
  9, 131, 44, 26, 27, 110, 90, 160, 82, 59, 214, 179, 41, 227, 47, 132,
  83, 209, 0, 237, 32, 252, 177, 91, 106, 203, 190, 57, 74, 76, 88, 207,
  208, 239, 170, 251, 67, 77, 51, 133, 69, 249, 2, 127, 80, 60, 159, 168,
  81, 163, 64, 143, 146, 157, 56, 245, 188, 182, 218, 33, 16, 255, 243, 210,
  205, 12, 19, 236, 95, 151, 68, 23, 196, 167, 126, 61, 100, 93, 25, 115,
  96, 129, 79, 220, 34, 42, 144, 136, 70, 238, 184, 20, 222, 94, 11, 219,
  224, 50, 58, 10, 73, 6, 36, 92, 194, 211, 172, 98, 145, 149, 228, 121,
  231, 200, 55, 109, 141, 213, 78, 169, 108, 86, 244, 234, 101, 122, 174, 8,
  186, 120, 37, 46, 28, 166, 180, 198, 232, 221, 116, 31, 75, 189, 139, 138,
  112, 62, 181, 102, 72, 3, 246, 14, 97, 53, 87, 185, 134, 193, 29, 158,
  225, 248, 152, 17, 105, 217, 142, 148, 155, 30, 135, 233, 206, 85, 40, 223,
  140, 161, 137, 13, 191, 230, 66, 104, 65, 153, 45, 15, 176, 84, 187, 22]

/-- `aes.rs` 93-109. -/
def RBSUB : Vector UInt8 256 := #v[
  82, 9, 106, 213, 48, 54, 165, 56, 191, 64, 163, 158, 129, 243, 215, 251,
  124, 227, 57, 130, 155, 47, 255, 135, 52, 142, 67, 68, 196, 222, 233, 203,
  84, 123, 148, 50, 166, 194, 35, 61, 238, 76, 149, 11, 66, 250, 195, 78,
  8, 46, 161, 102, 40, 217, 36, 178, 118, 91, 162, 73, 109, 139, 209, 37,
  114, 248, 246, 100, 134, 104, 152, 22, 212, 164, 92, 204, 93, 101, 182, 146,
  108, 112, 72, 80, 253, 237, 185, 218, 94, 21, 70, 87, 167, 141, 157, 132,
  144, 216, 171, 0, 140, 188, 211, 10, 247, 228, 88, 5, 184, 179, 69, 6,
  208, 44, 30, 143, 202, 63, 15, 2, 193, 175, 189, 3, 1, 19, 138, 107,
  58, 145, 17, 65, 79, 103, 220, 234, 151, 242, 207, 206, 240, 180, 230, 115,
  150, 172, 116, 34, 231, 173, 53, 133, 226, 249, 55, 232, 28, 117, 223, 110,
  71, 241, 26, 113, 29, 41, 197, 137, 111, 183, 98, 14, 170, 24, 190, 27,
  252, 86, 62, 75, 198, 210, 121, 32, 154, 219, 192, 254, 120, 205, 90, 244,
  31, 221, 168, 51, 136, 7, 199, 49, 177, 18, 16, 89, 39, 128, 236, 95,
  96, 81, 127, 169, 25, 181, 74, 13, 45, 229, 122, 159, 147, 201, 156, 239,
  160, 224, 59, 77, 174, 42, 245, 176, 200, 235, 187, 60, 131, 83, 153, 97,
  23, 43, 4, 126, 186, 119, 214, 38, 225, 105, 20, 99, 85, 33, 12, 125]

/-- `aes.rs` 111. -/
def RCO : Vector UInt8 16 := #v[
  1, 2, 4, 8, 16, 32, 64, 128, 27, 54, 108, 216, 171, 77, 154, 47]

/-- `aes.rs` 113-156. -/
def FTABLE : Vector UInt32 256 := #v[
  0xa56363c6, 0x847c7cf8, 0x997777ee, 0x8d7b7bf6, 0xdf2f2ff, 0xbd6b6bd6, 0xb16f6fde, 0x54c5c591,
  0x50303060, 0x3010102, 0xa96767ce, 0x7d2b2b56, 0x19fefee7, 0x62d7d7b5, 0xe6abab4d, 0x9a7676ec,
  0x45caca8f, 0x9d82821f, 0x40c9c989, 0x877d7dfa, 0x15fafaef, 0xeb5959b2, 0xc947478e, 0xbf0f0fb,
  0xecadad41, 0x67d4d4b3, 0xfda2a25f, 0xeaafaf45, 0xbf9c9c23, 0xf7a4a453, 0x967272e4, 0x5bc0c09b,
  0xc2b7b775, 0x1cfdfde1, 0xae93933d, 0x6a26264c, 0x5a36366c, 0x413f3f7e, 0x2f7f7f5, 0x4fcccc83,
  0x5c343468, 0xf4a5a551, 0x34e5e5d1, 0x8f1f1f9, 0x937171e2, 0x73d8d8ab, 0x53313162, 0x3f15152a,
  0xc040408, 0x52c7c795, 0x65232346, 0x5ec3c39d, 0x28181830, 0xa1969637, 0xf05050a, 0xb59a9a2f,
  0x907070e, 0x36121224, 0x9b80801b, 0x3de2e2df, 0x26ebebcd, 0x6927274e, 0xcdb2b27f, 0x9f7575ea,
  0x1b090912, 0x9e83831d, 0x742c2c58, 0x2e1a1a34, 0x2d1b1b36, 0xb26e6edc, 0xee5a5ab4, 0xfba0a05b,
  0xf65252a4, 0x4d3b3b76, 0x61d6d6b7, 0xceb3b37d, 0x7b292952, 0x3ee3e3dd, 0x712f2f5e, 0x97848413,
  0xf55353a6, 0x68d1d1b9, 0x0, 0x2cededc1, 0x60202040, 0x1ffcfce3, 0xc8b1b179, 0xed5b5bb6,
  0xbe6a6ad4, 0x46cbcb8d, 0xd9bebe67, 0x4b393972, 0xde4a4a94, 0xd44c4c98, 0xe85858b0, 0x4acfcf85,
  0x6bd0d0bb, 0x2aefefc5, 0xe5aaaa4f, 0x16fbfbed, 0xc5434386, 0xd74d4d9a, 0x55333366, 0x94858511,
  0xcf45458a, 0x10f9f9e9, 0x6020204, 0x817f7ffe, 0xf05050a0, 0x443c3c78, 0xba9f9f25, 0xe3a8a84b,
  0xf35151a2, 0xfea3a35d, 0xc0404080, 0x8a8f8f05, 0xad92923f, 0xbc9d9d21, 0x48383870, 0x4f5f5f1,
  0xdfbcbc63, 0xc1b6b677, 0x75dadaaf, 0x63212142, 0x30101020, 0x1affffe5, 0xef3f3fd, 0x6dd2d2bf,
  0x4ccdcd81, 0x140c0c18, 0x35131326, 0x2fececc3, 0xe15f5fbe, 0xa2979735, 0xcc444488, 0x3917172e,
  0x57c4c493, 0xf2a7a755, 0x827e7efc, 0x473d3d7a, 0xac6464c8, 0xe75d5dba, 0x2b191932, 0x957373e6,
  0xa06060c0, 0x98818119, 0xd14f4f9e, 0x7fdcdca3, 0x66222244, 0x7e2a2a54, 0xab90903b, 0x8388880b,
  0xca46468c, 0x29eeeec7, 0xd3b8b86b, 0x3c141428, 0x79dedea7, 0xe25e5ebc, 0x1d0b0b16, 0x76dbdbad,
  0x3be0e0db, 0x56323264, 0x4e3a3a74, 0x1e0a0a14, 0xdb494992, 0xa06060c, 0x6c242448, 0xe45c5cb8,
  0x5dc2c29f, 0x6ed3d3bd, 0xefacac43, 0xa66262c4, 0xa8919139, 0xa4959531, 0x37e4e4d3, 0x8b7979f2,
  0x32e7e7d5, 0x43c8c88b, 0x5937376e, 0xb76d6dda, 0x8c8d8d01, 0x64d5d5b1, 0xd24e4e9c, 0xe0a9a949,
  0xb46c6cd8, 0xfa5656ac, 0x7f4f4f3, 0x25eaeacf, 0xaf6565ca, 0x8e7a7af4, 0xe9aeae47, 0x18080810,
  0xd5baba6f, 0x887878f0, 0x6f25254a, 0x722e2e5c, 0x241c1c38, 0xf1a6a657, 0xc7b4b473, 0x51c6c697,
  0x23e8e8cb, 0x7cdddda1, 0x9c7474e8, 0x211f1f3e, 0xdd4b4b96, 0xdcbdbd61, 0x868b8b0d, 0x858a8a0f,
  0x907070e0, 0x423e3e7c, 0xc4b5b571, 0xaa6666cc, 0xd8484890, 0x5030306, 0x1f6f6f7, 0x120e0e1c,
  0xa36161c2, 0x5f35356a, 0xf95757ae, 0xd0b9b969, 0x91868617, 0x58c1c199, 0x271d1d3a, 0xb99e9e27,
  0x38e1e1d9, 0x13f8f8eb, 0xb398982b, 0x33111122, 0xbb6969d2, 0x70d9d9a9, 0x898e8e07, 0xa7949433,
  0xb69b9b2d, 0x221e1e3c, 0x92878715, 0x20e9e9c9, 0x49cece87, 0xff5555aa, 0x78282850, 0x7adfdfa5,
  0x8f8c8c03, 0xf8a1a159, 0x80898909, 0x170d0d1a, 0xdabfbf65, 0x31e6e6d7, 0xc6424284, 0xb86868d0,
  0xc3414182, 0xb0999929, 0x772d2d5a, 0x110f0f1e, 0xcbb0b07b, 0xfc5454a8, 0xd6bbbb6d, 0x3a16162c]

/-- `aes.rs` 158-201. -/
def RTABLE : Vector UInt32 256 := #v[
  0x50a7f451, 0x5365417e, 0xc3a4171a, 0x965e273a, 0xcb6bab3b, 0xf1459d1f, 0xab58faac, 0x9303e34b,
  0x55fa3020, 0xf66d76ad, 0x9176cc88, 0x254c02f5, 0xfcd7e54f, 0xd7cb2ac5, 0x80443526, 0x8fa362b5,
  0x495ab1de, 0x671bba25, 0x980eea45, 0xe1c0fe5d, 0x2752fc3, 0x12f04c81, 0xa397468d, 0xc6f9d36b,
  0xe75f8f03, 0x959c9215, 0xeb7a6dbf, 0xda595295, 0x2d83bed4, 0xd3217458, 0x2969e049, 0x44c8c98e,
  0x6a89c275, 0x78798ef4, 0x6b3e5899, 0xdd71b927, 0xb64fe1be, 0x17ad88f0, 0x66ac20c9, 0xb43ace7d,
  0x184adf63, 0x82311ae5, 0x60335197, 0x457f5362, 0xe07764b1, 0x84ae6bbb, 0x1ca081fe, 0x942b08f9,
  0x58684870, 0x19fd458f, 0x876cde94, 0xb7f87b52, 0x23d373ab, 0xe2024b72, 0x578f1fe3, 0x2aab5566,
  0x728ebb2, 0x3c2b52f, 0x9a7bc586, 0xa50837d3, 0xf2872830, 0xb2a5bf23, 0xba6a0302, 0x5c8216ed,
  0x2b1ccf8a, 0x92b479a7, 0xf0f207f3, 0xa1e2694e, 0xcdf4da65, 0xd5be0506, 0x1f6234d1, 0x8afea6c4,
  0x9d532e34, 0xa055f3a2, 0x32e18a05, 0x75ebf6a4, 0x39ec830b, 0xaaef6040, 0x69f715e, 0x51106ebd,
  0xf98a213e, 0x3d06dd96, 0xae053edd, 0x46bde64d, 0xb58d5491, 0x55dc471, 0x6fd40604, 0xff155060,
  0x24fb9819, 0x97e9bdd6, 0xcc434089, 0x779ed967, 0xbd42e8b0, 0x888b8907, 0x385b19e7, 0xdbeec879,
  0x470a7ca1, 0xe90f427c, 0xc91e84f8, 0x0, 0x83868009, 0x48ed2b32, 0xac70111e, 0x4e725a6c,
  0xfbff0efd, 0x5638850f, 0x1ed5ae3d, 0x27392d36, 0x64d90f0a, 0x21a65c68, 0xd1545b9b, 0x3a2e3624,
  0xb1670a0c, 0xfe75793, 0xd296eeb4, 0x9e919b1b, 0x4fc5c080, 0xa220dc61, 0x694b775a, 0x161a121c,
  0xaba93e2, 0xe52aa0c0, 0x43e0223c, 0x1d171b12, 0xb0d090e, 0xadc78bf2, 0xb9a8b62d, 0xc8a91e14,
  0x8519f157, 0x4c0775af, 0xbbdd99ee, 0xfd607fa3, 0x9f2601f7, 0xbcf5725c, 0xc53b6644, 0x347efb5b,
  0x7629438b, 0xdcc623cb, 0x68fcedb6, 0x63f1e4b8, 0xcadc31d7, 0x10856342, 0x40229713, 0x2011c684,
  0x7d244a85, 0xf83dbbd2, 0x1132f9ae, 0x6da129c7, 0x4b2f9e1d, 0xf330b2dc, 0xec52860d, 0xd0e3c177,
  0x6c16b32b, 0x99b970a9, 0xfa489411, 0x2264e947, 0xc48cfca8, 0x1a3ff0a0, 0xd82c7d56, 0xef903322,
  0xc74e4987, 0xc1d138d9, 0xfea2ca8c, 0x360bd498, 0xcf81f5a6, 0x28de7aa5, 0x268eb7da, 0xa4bfad3f,
  0xe49d3a2c, 0xd927850, 0x9bcc5f6a, 0x62467e54, 0xc2138df6, 0xe8b8d890, 0x5ef7392e, 0xf5afc382,
  0xbe805d9f, 0x7c93d069, 0xa92dd56f, 0xb31225cf, 0x3b99acc8, 0xa77d1810, 0x6e639ce8, 0x7bbb3bdb,
  0x97826cd, 0xf418596e, 0x1b79aec, 0xa89a4f83, 0x656e95e6, 0x7ee6ffaa, 0x8cfbc21, 0xe6e815ef,
  0xd99be7ba, 0xce366f4a, 0xd4099fea, 0xd67cb029, 0xafb2a431, 0x31233f2a, 0x3094a5c6, 0xc066a235,
  0x37bc4e74, 0xa6ca82fc, 0xb0d090e0, 0x15d8a733, 0x4a9804f1, 0xf7daec41, 0xe50cd7f, 0x2ff69117,
  0x8dd64d76, 0x4db0ef43, 0x544daacc, 0xdf0496e4, 0xe3b5d19e, 0x1b886a4c, 0xb81f2cc1, 0x7f516546,
  0x4ea5e9d, 0x5d358c01, 0x737487fa, 0x2e410bfb, 0x5a1d67b3, 0x52d2db92, 0x335610e9, 0x1347d66d,
  0x8c61d79a, 0x7a0ca137, 0x8e14f859, 0x893c13eb, 0xee27a9ce, 0x35c961b7, 0xede51ce1, 0x3cb1477a,
  0x59dfd29c, 0x3f73f255, 0x79ce1418, 0xbf37c773, 0xeacdf753, 0x5baafd5f, 0x146f3ddf, 0x86db4478,
  0x81f3afca, 0x3ec468b9, 0x2c342438, 0x5f40a3c2, 0x72c31d16, 0xc25e2bc, 0x8b493c28, 0x41950dff,
  0x7101a839, 0xdeb30c08, 0x9ce4b4d8, 0x90c15664, 0x6184cb7b, 0x70b632d5, 0x745c6c48, 0x4257b8d0]

/-- `aes.rs` 215-217. -/
def rotl8 (x : UInt32) : UInt32 := (x <<< 8) ||| (x >>> 24)

/-- `aes.rs` 219-221. -/
def rotl16 (x : UInt32) : UInt32 := (x <<< 16) ||| (x >>> 16)

/-- `aes.rs` 223-225. -/
def rotl24 (x : UInt32) : UInt32 := (x <<< 24) ||| (x >>> 8)

/-- `aes.rs` 227-229. -/
def pack (b : Vector UInt8 4) : UInt32 :=
  ((b[3] &&& 0xff).toUInt32 <<< 24) ||| ((b[2] &&& 0xff).toUInt32 <<< 16) |||
    ((b[1] &&& 0xff).toUInt32 <<< 8) ||| (b[0] &&& 0xff).toUInt32

/-- `aes.rs` 231-234. -/
def unpack (a : UInt32) : Vector UInt8 4 :=
  #v[(a &&& 0xff).toUInt8, ((a >>> 8) &&& 0xff).toUInt8, ((a >>> 16) &&& 0xff).toUInt8, ((a >>> 24) &&& 0xff).toUInt8]

/-- An entry of a table of 256 entries, at a byte. -/
def byteAt {α : Type} (t : Vector α 256) (b : UInt8) : α := t[b.toNat]'b.toNat_lt

theorem low_lt (x : UInt32) : (x &&& 0xff).toNat < 256 := by
  rw [UInt32.toNat_and]
  exact Nat.lt_of_le_of_lt Nat.and_le_right (by decide)

/-- An entry of a table of 256 entries, at the index `x&0xff`. -/
def lowAt {α : Type} (t : Vector α 256) (x : UInt32) : α := t[(x &&& 0xff).toNat]'(low_lt x)

/-- `aes.rs` 236-245. -/
def bmul (x y : UInt8) : UInt8 :=
  let lx := (byteAt LTAB x).toNat
  let ly := (byteAt LTAB y).toNat
  if x ≠ 0 ∧ y ≠ 0 then PTAB[(lx + ly) % 255]'(by omega) else 0

/-- `aes.rs` 247-254. -/
def subbyte (a : UInt32) : UInt32 :=
  let b := unpack a
  pack #v[byteAt FBSUB b[0], byteAt FBSUB b[1], byteAt FBSUB b[2], byteAt FBSUB b[3]]

/-- `aes.rs` 256-261. -/
def product (x y : UInt32) : UInt8 :=
  let xb := unpack x
  let yb := unpack y
  bmul xb[0] yb[0] ^^^ bmul xb[1] yb[1] ^^^ bmul xb[2] yb[2] ^^^ bmul xb[3] yb[3]

/-- `aes.rs` 263-275. -/
def invmixcol (x : UInt32) : UInt32 :=
  let m := pack INCO
  let b3 := product m x
  let m := rotl24 m
  let b2 := product m x
  let m := rotl24 m
  let b1 := product m x
  let m := rotl24 m
  let b0 := product m x
  pack #v[b0, b1, b2, b3]

/-- `aes.rs` 278-281: the loop from index `i`, with `n` rounds left. -/
def incrementFrom (dbg : Bool) : Nat → Nat → Vector UInt8 16 → Option (Vector UInt8 16)
  | 0, _, f => some f
  | n + 1, i, f => do
    let x ← f[i]?
    if dbg = true ∧ x = 255 then none
    else
      let f ← HASH256.setAt f i (x + 1)
      if x + 1 ≠ 0 then return f
      else incrementFrom dbg n (i + 1) f

/-- `aes.rs` 277-282 `increment`. -/
def increment (dbg : Bool) (f : Vector UInt8 16) : Option (Vector UInt8 16) := incrementFrom dbg 16 0 f

/-- `aes.rs` 284-294 `new`. -/
def new : AES := ⟨0, 0, 0, Vector.replicate 60 0, Vector.replicate 60 0, Vector.replicate 16 0⟩

/-- `aes.rs` 297-306 `reset`. -/
def reset (a : AES) (m : Nat) (iv : Option (Vector UInt8 16)) : AES :=
  { a with
    mode := m
    f := if m ≠ ECB then (match iv with | some x => x | none => Vector.replicate 16 0) else Vector.replicate 16 0 }

/-- `aes.rs` 320-326: the word `i` of the key (the bytes `4*i` to `4*i+3`), stored directly in `fkey` (the array
`cipherkey` holds the same words); the loop from `i`, with `n` rounds left. -/
def loadKey (key : List UInt8) : Nat → Nat → Vector UInt32 60 → Option (Vector UInt32 60)
  | 0, _, w => some w
  | n + 1, i, w => do
    let b0 ← key[4 * i]?
    let b1 ← key[4 * i + 1]?
    let b2 ← key[4 * i + 2]?
    let b3 ← key[4 * i + 3]?
    let w ← HASH256.setAt w i (pack #v[b0, b1, b2, b3])
    loadKey key n (i + 1) w

/-- `aes.rs` 331-334: the loop from `i`, with `c` rounds left. -/
def expandRow (nk n j : Nat) : Nat → Nat → Vector UInt32 60 → Option (Vector UInt32 60)
  | 0, _, w => some w
  | c + 1, i, w => do
    if n ≤ i + j then return w
    if i + j < nk then none
    if i + j < 1 then none
    let x ← w[i + j - nk]?
    let y ← w[i + j - 1]?
    let w ← HASH256.setAt w (i + j) (x ^^^ y)
    expandRow nk n j c (i + 1) w

/-- `aes.rs` 329-337: the loop from `j` and `k`. -/
def expand (nk n j k : Nat) (w : Vector UInt32 60) : Option (Vector UInt32 60) := do
  if j < n then
    if j < nk then none
    if j < 1 then none
    let x ← w[j - nk]?
    let y ← w[j - 1]?
    let c ← RCO[k]?
    let w ← HASH256.setAt w j (x ^^^ subbyte (rotl24 y) ^^^ c.toUInt32)
    let w ← expandRow nk n j (nk - 1) 1 w
    expand nk n (j + nk) (k + 1) w
  else return w
partial_fixpoint

/-- `aes.rs` 341 (`g` the identity, `o = n-4`, `s = 0`), 345 (`g` is `invmixcol`, `o = k`, `s = i`), 348 (`g` the
identity, `o = 0`, `s = n-4`): the words `s` to `s+3` of `w`, through `g`, are stored from the index `o` of `r`. -/
def four (g : UInt32 → UInt32) (w : Vector UInt32 60) (s o : Nat) (r : Vector UInt32 60) : Option (Vector UInt32 60) := do
  let r ← HASH256.setAt r o (g (← w[s]?))
  let r ← HASH256.setAt r (o + 1) (g (← w[s + 1]?))
  let r ← HASH256.setAt r (o + 2) (g (← w[s + 2]?))
  HASH256.setAt r (o + 3) (g (← w[s + 3]?))

/-- `aes.rs` 342-347: the loop from `i`. -/
def reverse (n : Nat) (w : Vector UInt32 60) (i : Nat) (r : Vector UInt32 60) : Option (Vector UInt32 60) := do
  if n < 4 then none
  if i < n - 4 then
    let r ← four invmixcol w i (n - 4 - i) r
    reverse n w (i + 4) r
  else return r
partial_fixpoint

/-- `aes.rs` 308-351 `init`. -/
def init (a : AES) (m nkey : Nat) (key : List UInt8) (iv : Option (Vector UInt8 16)) : Option (AES × Bool) := do
  let nk := nkey / 4
  if nk ≠ 4 ∧ nk ≠ 6 ∧ nk ≠ 8 then return (a, false)
  let nr := 6 + nk
  let a := reset { a with nk := nk, nr := nr } m iv
  let n := 4 * (nr + 1)
  let w ← loadKey key nk 0 a.fkey
  let w ← expand nk n nk 0 w
  let r ← four id w 0 (n - 4) a.rkey
  let r ← reverse n w 4 r
  let r ← four id w (n - 4) 0 r
  return ({ a with fkey := w, rkey := r }, true)

/-- `aes.rs` 353-357 `getreg`. -/
def getreg (a : AES) : Vector UInt8 16 := a.f

/-- `aes.rs` 365-371 and 415-421: the words of the block, with the first four words of the key. -/
def load (key : Vector UInt32 60) (buff : Vector UInt8 16) : Vector UInt32 4 := #v[
  pack #v[buff[0], buff[1], buff[2], buff[3]] ^^^ key[0],
  pack #v[buff[4], buff[5], buff[6], buff[7]] ^^^ key[1],
  pack #v[buff[8], buff[9], buff[10], buff[11]] ^^^ key[2],
  pack #v[buff[12], buff[13], buff[14], buff[15]] ^^^ key[3]]

/-- `aes.rs` 377 and the lines of the same form: a word from the bytes of the words `a`, `b`, `c`, `d`, through the
table `t`. -/
def column (t : Vector UInt32 256) (key a b c d : UInt32) : UInt32 :=
  key ^^^ lowAt t a ^^^ rotl8 (lowAt t (b >>> 8)) ^^^ rotl16 (lowAt t (c >>> 16)) ^^^ rotl24 (lowAt t (d >>> 24))

/-- `aes.rs` 392 and the lines of the same form. -/
def lastColumn (t : Vector UInt8 256) (key a b c d : UInt32) : UInt32 :=
  key ^^^ (lowAt t a).toUInt32 ^^^ rotl8 (lowAt t (b >>> 8)).toUInt32 ^^^ rotl16 (lowAt t (c >>> 16)).toUInt32 ^^^
    rotl24 (lowAt t (d >>> 24)).toUInt32

/-- `aes.rs` 376-388: the loop with the index `k` and `n` rounds left. After the exchange of lines 386-388 `p` holds
the new words; the words of `q` are all written before they are read again. -/
def encRounds (key : Vector UInt32 60) : Nat → Nat → Vector UInt32 4 → Option (Nat × Vector UInt32 4)
  | 0, k, p => some (k, p)
  | n + 1, k, p => do
    let q0 := column FTABLE (← key[k]?) p[0] p[1] p[2] p[3]
    let q1 := column FTABLE (← key[k + 1]?) p[1] p[2] p[3] p[0]
    let q2 := column FTABLE (← key[k + 2]?) p[2] p[3] p[0] p[1]
    let q3 := column FTABLE (← key[k + 3]?) p[3] p[0] p[1] p[2]
    encRounds key n (k + 4) #v[q0, q1, q2, q3]

/-- `aes.rs` 401-406 and 455-460: the bytes of four words. -/
def store (q0 q1 q2 q3 : UInt32) : Vector UInt8 16 :=
  let b0 := unpack q0
  let b1 := unpack q1
  let b2 := unpack q2
  let b3 := unpack q3
  #v[b0[0], b0[1], b0[2], b0[3], b1[0], b1[1], b1[2], b1[3],
     b2[0], b2[1], b2[2], b2[3], b3[0], b3[1], b3[2], b3[3]]

/-- `aes.rs` 360-407 `ecb_encrypt`. -/
def ecb_encrypt (a : AES) (buff : Vector UInt8 16) : Option (Vector UInt8 16) := do
  let (k, p) ← encRounds a.fkey (a.nr - 1) 4 (load a.fkey buff)
  let q0 := lastColumn FBSUB (← a.fkey[k]?) p[0] p[1] p[2] p[3]
  let q1 := lastColumn FBSUB (← a.fkey[k + 1]?) p[1] p[2] p[3] p[0]
  let q2 := lastColumn FBSUB (← a.fkey[k + 2]?) p[2] p[3] p[0] p[1]
  let q3 := lastColumn FBSUB (← a.fkey[k + 3]?) p[3] p[0] p[1] p[2]
  return store q0 q1 q2 q3

/-- `aes.rs` 426-441: the loop with the index `k` and `n` rounds left. -/
def decRounds (key : Vector UInt32 60) : Nat → Nat → Vector UInt32 4 → Option (Nat × Vector UInt32 4)
  | 0, k, p => some (k, p)
  | n + 1, k, p => do
    let q0 := column RTABLE (← key[k]?) p[0] p[3] p[2] p[1]
    let q1 := column RTABLE (← key[k + 1]?) p[1] p[0] p[3] p[2]
    let q2 := column RTABLE (← key[k + 2]?) p[2] p[1] p[0] p[3]
    let q3 := column RTABLE (← key[k + 3]?) p[3] p[2] p[1] p[0]
    decRounds key n (k + 4) #v[q0, q1, q2, q3]

/-- `aes.rs` 410-461 `ecb_decrypt`. -/
def ecb_decrypt (a : AES) (buff : Vector UInt8 16) : Option (Vector UInt8 16) := do
  let (k, p) ← decRounds a.rkey (a.nr - 1) 4 (load a.rkey buff)
  let q0 := lastColumn RBSUB (← a.rkey[k]?) p[0] p[3] p[2] p[1]
  let q1 := lastColumn RBSUB (← a.rkey[k + 1]?) p[1] p[0] p[3] p[2]
  let q2 := lastColumn RBSUB (← a.rkey[k + 2]?) p[2] p[1] p[0] p[3]
  let q3 := lastColumn RBSUB (← a.rkey[k + 3]?) p[3] p[2] p[1] p[0]
  return store q0 q1 q2 q3

/-- `aes.rs` 478, 552 and the loops of the same form: the bytes `0` to `n-1` are combined with those of `st`. -/
def xorFirst (n : Nat) (buff st : Vector UInt8 16) : Vector UInt8 16 :=
  Vector.ofFn fun i => if i.val < n then buff[i] ^^^ st[i] else buff[i]

/-- `aes.rs` 486 and 547: the bytes `0` to `n-1` of the register. -/
def fellOff (f : Vector UInt8 16) (n : Nat) : UInt32 :=
  (f.toList.take n).foldl (fun t x => (t <<< 8) ||| x.toUInt32) 0

/-- `aes.rs` 488, 492 and 549, 552: the register moves by `n` bytes (the loop reads the byte `j` before any round
writes it) and the first `n` bytes of `c` enter at the end. -/
def shiftIn (n : Nat) (f c : Vector UInt8 16) : Vector UInt8 16 :=
  Vector.ofFn fun i => if h : i.val + n < 16 then f[i.val + n] else c[i.val + n - 16]?.getD 0

/-- `aes.rs` 464-521 `encrypt`: the object, the buffer and the result. -/
def encrypt (dbg : Bool) (a : AES) (buff : Vector UInt8 16) : Option (AES × Vector UInt8 16 × UInt32) := do
  if a.mode = ECB then
    return (a, ← ecb_encrypt a buff, 0)
  else if a.mode = CBC then
    let buff ← ecb_encrypt a (xorFirst 16 buff a.f)
    return ({ a with f := buff }, buff, 0)
  else if a.mode = CFB1 ∨ a.mode = CFB2 ∨ a.mode = CFB4 then
    let bytes := a.mode - CFB1 + 1
    let fell_off := fellOff a.f bytes
    let st ← ecb_encrypt a a.f
    let buff := xorFirst bytes buff st
    return ({ a with f := shiftIn bytes a.f buff }, buff, fell_off)
  else if a.mode = OFB1 ∨ a.mode = OFB2 ∨ a.mode = OFB4 ∨ a.mode = OFB8 ∨ a.mode = OFB16 then
    let bytes := a.mode - OFB1 + 1
    let st ← ecb_encrypt a a.f
    return ({ a with f := st }, xorFirst bytes buff st, 0)
  else if a.mode = CTR1 ∨ a.mode = CTR2 ∨ a.mode = CTR4 ∨ a.mode = CTR8 ∨ a.mode = CTR16 then
    let bytes := a.mode - CTR1 + 1
    let st ← ecb_encrypt a a.f
    return ({ a with f := ← increment dbg a.f }, xorFirst bytes buff st, 0)
  else return (a, buff, 0)

/-- `aes.rs` 524-585 `decrypt`. -/
def decrypt (dbg : Bool) (a : AES) (buff : Vector UInt8 16) : Option (AES × Vector UInt8 16 × UInt32) := do
  if a.mode = ECB then
    return (a, ← ecb_decrypt a buff, 0)
  else if a.mode = CBC then
    let b ← ecb_decrypt a buff
    return ({ a with f := buff }, xorFirst 16 b a.f, 0)
  else if a.mode = CFB1 ∨ a.mode = CFB2 ∨ a.mode = CFB4 then
    let bytes := a.mode - CFB1 + 1
    let fell_off := fellOff a.f bytes
    let st ← ecb_encrypt a a.f
    return ({ a with f := shiftIn bytes a.f buff }, xorFirst bytes buff st, fell_off)
  else if a.mode = OFB1 ∨ a.mode = OFB2 ∨ a.mode = OFB4 ∨ a.mode = OFB8 ∨ a.mode = OFB16 then
    let bytes := a.mode - OFB1 + 1
    let st ← ecb_encrypt a a.f
    return ({ a with f := st }, xorFirst bytes buff st, 0)
  else if a.mode = CTR1 ∨ a.mode = CTR2 ∨ a.mode = CTR4 ∨ a.mode = CTR8 ∨ a.mode = CTR16 then
    let bytes := a.mode - CTR1 + 1
    let st ← ecb_encrypt a a.f
    return ({ a with f := ← increment dbg a.f }, xorFirst bytes buff st, 0)
  else return (a, buff, 0)

/-- `aes.rs` 588-591 `end`; more than 60 words are an index out of range. -/
def finish (a : AES) : Option AES := do
  if 60 < 4 * (a.nr + 1) then none
  let z (v : Vector UInt32 60) : Vector UInt32 60 := Vector.ofFn fun i => if i.val < 4 * (a.nr + 1) then 0 else v[i]
  return { a with fkey := z a.fkey, rkey := z a.rkey, f := Vector.replicate 16 0 }

end AES

end Amcl
