import Verif.Spec.B383.Mapit2
import Verif.Spec.B383.Tower
/-!
# Specification: the string of an element of the extension of degree 12
-/

set_option exponentiation.threshold 2000

namespace Spec.B383

/-- The element that twelve blocks of 48 bytes stand for: coordinates modulo `p`, on the basis `1, i` of `Fp2`, `1, V`
of `Fp4`, `1, W, W²` of `Fp12`. -/
noncomputable def block12 (b : List UInt8) : Fp12 :=
  ι4 ⟨block2 b 0, block2 b 96⟩ + ι4 ⟨block2 b 192, block2 b 288⟩ * W + ι4 ⟨block2 b 384, block2 b 480⟩ * W ^ 2

/-- The string of `a + b W + c W²`: the twelve coordinates, big-endian on 48 bytes each. -/
def octets12 (a b c : Fp4) : List UInt8 := octets2 a.re a.im ++ octets2 b.re b.im ++ octets2 c.re c.im

end Spec.B383
