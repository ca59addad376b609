import Verif.Model.Ecp
/-!
# Model of `dadd` of `amcl/src/bls381/ecp.rs`
-/

namespace Amcl.ECP

/-- `ecp.rs` 752-779 `dadd`. The function is compiled for every curve; `mul` calls it for `CURVETYPE = MONTGOMERY`. `y` is left as
it is. -/
def dadd (P Q W : ECP) : Option ECP := do
  let a ← P.x.add P.z
  let b ← P.x.sub P.z
  let c ← Q.x.add Q.z
  let d ← Q.x.sub Q.z
  let a ← a.norm
  let d ← d.norm
  let da ← d.mul a
  let c ← c.norm
  let b ← b.norm
  let cb ← c.mul b
  let a ← da.add cb
  let a ← a.norm
  let a ← a.sqr
  let b ← da.sub cb
  let b ← b.norm
  let b ← b.sqr
  let z ← W.x.mul b
  return ⟨a, P.y, z⟩

end Amcl.ECP
