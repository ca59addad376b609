import Verif.Spec.Modes
/-!
# CBC on byte strings with the padding of PKCS #7 (RFC 5652, 6.3)
-/

namespace Spec.Modes
open Spec.AES

/-- The string filled up to a multiple of 16 bytes; one to sixteen bytes are added, each with their number. -/
def pad (m : List UInt8) : List UInt8 := m ++ List.replicate (16 - m.length % 16) (UInt8.ofNat (16 - m.length % 16))

/-- The complete blocks of a string. -/
def blocksOf (l : List UInt8) : List Block := (List.range (l.length / 16)).map fun i j => (l.getD (16 * i + j.val) 0).toBitVec

end Spec.Modes
