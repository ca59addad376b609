import Verif.Spec.B383.Groups
import Verif.Spec.Bytes
/-!
# Specification: the octet strings of a finite point (SEC 1, section 2.3.3)

A leading byte 4 and the two coordinates, or a leading byte 2 or 3 that gives the parity of the ordinate and
the abscissa alone. Numbers are big-endian on 48 bytes.
-/

namespace Spec.B383

/-- The uncompressed string. -/
def octets (x y : Fp) : List UInt8 := 4 :: (toBE 48 x.val ++ toBE 48 y.val)

/-- The compressed string. -/
def octetsC (x y : Fp) : List UInt8 := UInt8.ofNat (2 + y.val % 2) :: toBE 48 x.val

end Spec.B383
