import Verif.Spec.B383.Mpin
import Verif.Spec.B383.Trace
/-!
# Specification: the common key of the M-Pin protocol
-/

namespace Spec.B383

/-- `m` is the string hashed to the common key for the element `z` of the extension of degree 12 and the finite point
`U`: the four coordinates of the trace of `z` over `Fp4`, then the two coordinates of `U`. -/
def KeyMsg (m : List UInt8) (z : Fp12) (U : G1) : Prop :=
  ∃ c x y h, IsTrace c z ∧ U = Pt.mk x y h ∧ m = octets2 c.re c.im ++ (toBE 48 x.val ++ toBE 48 y.val)

/-- The key: the first 16 bytes of the digest. -/
noncomputable def mpinKey (sha : Nat) (m : List UInt8) : Option (List UInt8) := (mpinDigest sha m).map (List.take 16)

end Spec.B383
