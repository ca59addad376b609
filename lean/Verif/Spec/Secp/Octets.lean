import Verif.Spec.Secp.Groups
import Verif.Spec.Bytes
/-!
# Specification: the octet strings of a finite point (SEC 1, section 2.3.3)

A leading byte 4 and the two coordinates, or a leading byte 2 or 3 that gives the parity of the ordinate and
the abscissa alone. Numbers are big-endian on 32 bytes.
-/

namespace Spec.Secp

/-- The uncompressed string. -/
def octets (x y : Fp) : List UInt8 := 4 :: (toBE 32 x.val ++ toBE 32 y.val)

/-- The compressed string. -/
def octetsC (x y : Fp) : List UInt8 := UInt8.ofNat (2 + y.val % 2) :: toBE 32 x.val

end Spec.Secp
