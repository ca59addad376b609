import Verif.Model.Rand
import Verif.Model.Secp.BigArith
/-!
# Model of `BIG::randomnum` of `amcl/src/secp256k1/big.rs`

The generator is the one of `Verif.Model.Rand`.
-/

namespace Amcl.Secp.BIG

/-- `big.rs` 660-669: `n` bits shifted into `d`. -/
def randomLoop : Nat → Nat → UInt8 → DBIG → RAND → Option (DBIG × RAND)
  | 0, _, _, d, g => some (d, g)
  | n + 1, j, r, d, g => do
    let (r, g) ← if j = 0 then g.getbyte else pure (r >>> 1, g)
    let b : Int := (r &&& 1).toNat
    let d ← d.shl 1
    let w ← add64 d.lo.w0 b
    let d : DBIG := ⟨{ d.lo with w0 := w }, d.hi⟩
    randomLoop n ((j + 1) % 8) r d g

/-- `big.rs` 655-671 `randomnum` (`j&=7` is written `% 8`). -/
def randomnum (q : BIG) (g : RAND) : Option (BIG × RAND) := do
  let nb ← q.nbits
  let (d, g) ← randomLoop (2 * nb) 0 0 DBIG.new g
  return (← d.dmod q, g)

end Amcl.Secp.BIG
