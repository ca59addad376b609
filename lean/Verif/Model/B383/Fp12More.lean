import Verif.Model.B383.Xtr
/-!
# Model of the strings of `amcl/src/bls383/fp12.rs`

The crate does not call these functions; `mpin.rs` and users of AMCL do.
-/

namespace Amcl.B383

namespace FP2

/-- One of the six pairs of blocks read by `FP12::frombytes`, `fp12.rs` 469-473 for the first: two blocks of 48 bytes
copied to `t` and given to `BIG::frombytes`. `none` for an index out of bounds. -/
def fromblocks (w : List UInt8) (k : Nat) : Option FP2 := do
  if w.length < k + 96 then none
  let a ← BIG.frombytes ((w.drop k).take 48)
  let b ← BIG.frombytes ((w.drop (k + 48)).take 48)
  new_bigs a b

/-- One of the six pairs of blocks written by `FP12::tobytes`, `fp12.rs` 522-525 for the first. -/
def toblocks (x : FP2) : Option (List UInt8) := do
  let a ← (← x.geta).tobytes
  let b ← (← x.getb).tobytes
  return a ++ b

end FP2

namespace FP12

/-- `fp12.rs` 465-515 `frombytes`. -/
def frombytes (w : List UInt8) : Option FP12 := do
  let c ← FP2.fromblocks w 0
  let d ← FP2.fromblocks w 96
  let e : FP4 := ⟨c, d⟩
  let c ← FP2.fromblocks w 192
  let d ← FP2.fromblocks w 288
  let f : FP4 := ⟨c, d⟩
  let c ← FP2.fromblocks w 384
  let d ← FP2.fromblocks w 480
  let g : FP4 := ⟨c, d⟩
  return ⟨e, f, g⟩

/-- `fp12.rs` 518-548 `tobytes`: the 576 bytes written (a caller must pass a buffer of at least 576 bytes). -/
def tobytes (x : FP12) : Option (List UInt8) := do
  let b1 ← x.a.a.toblocks
  let b2 ← x.a.b.toblocks
  let b3 ← x.b.a.toblocks
  let b4 ← x.b.b.toblocks
  let b5 ← x.c.a.toblocks
  let b6 ← x.c.b.toblocks
  return b1 ++ b2 ++ b3 ++ b4 ++ b5 ++ b6

end FP12

end Amcl.B383
