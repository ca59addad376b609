import Verif.Model.Hash256
import Verif.Model.Big
/-!
# Model of `amcl/src/rand.rs`, `src/rng.rs` and `BIG::randomnum`
-/

namespace Amcl

/-- `rand.rs` 28-34. -/
structure RAND where
  ira : Vector UInt32 21
  rndptr : Nat
  borrow : UInt32
  pool_ptr : Nat
  pool : Vector UInt8 32
deriving DecidableEq, Repr

namespace RAND

open HASH256 (setAt)

/-- `rand.rs` 38-46 `new` (48-53 `clean` sets the same values). -/
def new : RAND := ⟨Vector.replicate 21 0, 0, 0, 0, Vector.replicate 32 0⟩

/-- `rand.rs` 60-68: `n` steps of the loop of `sbrand` from indices `i`, `k`. -/
def sbrandLoop : Nat → Nat → Nat → RAND → Option RAND
  | 0, _, _, g => some g
  | n + 1, i, k, g => do
    let k := if k = 21 then 0 else k
    let t ← g.ira[k]?
    let pdiff := t - (← g.ira[i]?) - g.borrow
    let b := if pdiff < t then 0 else g.borrow
    let b := if pdiff > t then 1 else b
    let ira ← setAt g.ira i pdiff
    sbrandLoop n (i + 1) (k + 1) { g with ira := ira, borrow := b }

/-- `rand.rs` 55-70 `sbrand`. -/
def sbrand (g : RAND) : Option (UInt32 × RAND) := do
  let ptr := g.rndptr + 1
  if ptr < 21 then return (← g.ira[ptr]?, { g with rndptr := ptr })
  let g ← sbrandLoop 21 0 (21 - 6) { g with rndptr := 0 }
  return (← g.ira[0]?, g)

/-- `rand.rs` 78-84: `n` steps of the initialisation from index `i`. -/
def sirandLoop : Nat → Nat → UInt32 → UInt32 → Vector UInt32 21 → Option (Vector UInt32 21)
  | 0, _, _, _, ira => some ira
  | n + 1, i, m, sd, ira => do
    let inn := (8 * i) % 21
    let ira ← setAt ira inn ((← ira[inn]?) ^^^ m)
    sirandLoop n (i + 1) (sd - m) m ira

/-- `rand.rs` 85: `n` discarded outputs. -/
def warm : Nat → RAND → Option RAND
  | 0, g => some g
  | n + 1, g => do
    let (_, g) ← sbrand g
    warm n g

/-- `rand.rs` 72-86 `sirand`. -/
def sirand (g : RAND) (seed : UInt32) : Option RAND := do
  let ira ← setAt g.ira 0 ((← g.ira[0]?) ^^^ seed)
  let ira ← sirandLoop 20 1 1 seed ira
  warm 10000 { g with ira := ira, borrow := 0, rndptr := 0 }

/-- `rand.rs` 90: `n` output bytes into the hash. -/
def poolLoop : Nat → RAND → HASH256 → Option (RAND × HASH256)
  | 0, g, sh => some (g, sh)
  | n + 1, g, sh => do
    let (v, g) ← sbrand g
    let sh ← sh.process (v &&& 0xff).toUInt8
    poolLoop n g sh

/-- `rand.rs` 88-94 `fill_pool`. -/
def fill_pool (g : RAND) : Option RAND := do
  let (g, sh) ← poolLoop 128 g HASH256.new
  return { g with pool := ← sh.hash, pool_ptr := 0 }

/-- `rand.rs` 96-98 `pack`. -/
def pack (b0 b1 b2 b3 : UInt8) : UInt32 :=
  ((b3.toUInt32 &&& 0xff) <<< 24) ||| ((b2.toUInt32 &&& 0xff) <<< 16) |||
    ((b1.toUInt32 &&& 0xff) <<< 8) ||| (b0.toUInt32 &&& 0xff)

/-- `rand.rs` 114-117: seed with the digest words from `i` on. -/
def seedLoop (d : Vector UInt8 32) : Nat → Nat → RAND → Option RAND
  | 0, _, g => some g
  | n + 1, i, g => do
    let g ← sirand g (pack (← d[4 * i]?) (← d[4 * i + 1]?) (← d[4 * i + 2]?) (← d[4 * i + 3]?))
    seedLoop d n (i + 1) g

/-- `rand.rs` 101-121 `seed` with `rawlen = raw.len()` (the only call, `rng.rs` 16). -/
def seed (g : RAND) (raw : List UInt8) : Option RAND := do
  let g := { g with pool_ptr := 0, ira := Vector.replicate 21 0 }
  if raw.length > 0 then
    let sh ← raw.foldlM HASH256.process HASH256.new
    let d ← sh.hash
    let g ← seedLoop d 8 0 g
    fill_pool g
  else fill_pool g

/-- `rand.rs` 124-129 `getbyte`. -/
def getbyte (g : RAND) : Option (UInt8 × RAND) := do
  let r ← g.pool[g.pool_ptr]?
  let g := { g with pool_ptr := g.pool_ptr + 1 }
  let g ← if g.pool_ptr ≥ 32 then fill_pool g else pure g
  return (r &&& 0xff, g)

end RAND

/-- `rng.rs` 8-18 `get_seeded_rng`, as a function of the bytes obtained from the caller's generator. -/
def get_seeded_rng (entropy : List UInt8) : Option RAND := RAND.seed RAND.new entropy

namespace BIG

/-- `big.rs` 660-669: `n` bits shifted into `d`. -/
def randomLoop : Nat → Nat → UInt8 → DBIG → RAND → Option (DBIG × RAND)
  | 0, _, _, d, g => some (d, g)
  | n + 1, j, r, d, g => do
    let (r, g) ← if j = 0 then g.getbyte else pure (r >>> 1, g)
    let b : Int := (r &&& 1).toNat
    let d ← d.shl 1
    let w ← add64 d.lo.w0 b
    let d : DBIG := ⟨{ d.lo with w0 := w }, d.hi⟩
    randomLoop n ((j + 1) % 8) r d g

/-- `big.rs` 655-671 `randomnum` (`j&=7` is written `% 8`). -/
def randomnum (q : BIG) (g : RAND) : Option (BIG × RAND) := do
  let nb ← q.nbits
  let (d, g) ← randomLoop (2 * nb) 0 0 DBIG.new g
  return (← d.dmod q, g)

end BIG

end Amcl
