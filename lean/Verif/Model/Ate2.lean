import Verif.Model.Pair
/-!
# Model of the double pairing of `amcl/src/bls381/pair.rs`
-/

namespace Amcl

namespace pair

/-- `pair.rs` 261-284: the Miller loop of the double pairing for the bits `i, …, 1`. -/
def ate2Loop (n3 n : BIG) (P NP R NR : ECP2) (qx qy sx sy : FP) : Nat → FP12 → ECP2 → ECP2 → Option FP12
  | 0, r, _, _ => some r
  | i + 1, r, A, B => do
    let r ← r.sqr
    let (lv, A) ← linedbl A qx qy
    let r ← r.smul lv
    let (lv, B) ← linedbl B sx sy
    let r ← r.smul lv
    let b3 ← n3.bit (i + 1)
    let b1 ← n.bit (i + 1)
    if b3 - b1 = 1 then
      let (lv, A) ← lineadd A P qx qy
      let r ← r.smul lv
      let (lv, B) ← lineadd B R sx sy
      let r ← r.smul lv
      ate2Loop n3 n P NP R NR qx qy sx sy i r A B
    else if b3 - b1 = -1 then
      let (lv, A) ← lineadd A NP qx qy
      let r ← r.smul lv
      let (lv, B) ← lineadd B NR sx sy
      let r ← r.smul lv
      ate2Loop n3 n P NP R NR qx qy sx sy i r A B
    else ate2Loop n3 n P NP R NR qx qy sx sy i r A B

/-- `pair.rs` 214-317 `ate2`; `none` when `nb-1` underflows. -/
def ate2 (P : ECP2) (Q : ECP) (R : ECP2) (S : ECP) : Option FP12 := do
  let n ← rom.CURVE_BNX.norm
  let n3 ← n.pmul 3
  let n3 ← n3.norm
  let r ← FP12.new_int 1
  let NP ← P.neg
  let NR ← R.neg
  let nb ← n3.nbits
  if nb = 0 then none
  let r ← ate2Loop n3 n P NP R NR Q.x Q.y S.x S.y (nb - 2) r P R
  r.conj

end pair

end Amcl
