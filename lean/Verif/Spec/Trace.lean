import Verif.Spec.Tower
/-!
# Specification: the trace from `Fp12` down to `Fp4`
-/

namespace Spec

/-- `c` is the trace of `z` over `Fp4`: the sum of its three conjugates. -/
def IsTrace (c : Fp4) (z : Fp12) : Prop := ι4 c = z + z ^ (p ^ 4) + z ^ (p ^ 8)

end Spec
