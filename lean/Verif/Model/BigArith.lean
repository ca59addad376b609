import Verif.Model.Big
/-!
# Model of the other functions of `amcl/src/bls381/big.rs` and `dbig.rs`

These are not reached by the `bls-aggregates` crate; `pair.rs`, `ecp.rs` and `mpin.rs` use them.
`get`, `set`, `xortop`, `ortop`, `copy`, `dcopy`, `zero`, `one` and the copying constructors are plain
assignments and have no definition of their own.
-/

namespace Amcl
namespace BIG

/-- `big.rs` 200-208 `cswap`, one limb: `t = c & (x ^ y)` with `c = !(d-1)`, which is `-d`. -/
def cswapW (x y d : Int) : Int × Int :=
  let t := and64 (-d) (xor64 x y)
  (xor64 x t, xor64 y t)

/-- `big.rs` 200-208 `cswap`; `d` is 0 or 1 at every call. -/
def cswap (a b : BIG) (d : Int) : BIG × BIG :=
  (⟨(cswapW a.w0 b.w0 d).1, (cswapW a.w1 b.w1 d).1, (cswapW a.w2 b.w2 d).1, (cswapW a.w3 b.w3 d).1,
    (cswapW a.w4 b.w4 d).1, (cswapW a.w5 b.w5 d).1, (cswapW a.w6 b.w6 d).1⟩,
   ⟨(cswapW a.w0 b.w0 d).2, (cswapW a.w1 b.w1 d).2, (cswapW a.w2 b.w2 d).2, (cswapW a.w3 b.w3 d).2,
    (cswapW a.w4 b.w4 d).2, (cswapW a.w5 b.w5 d).2, (cswapW a.w6 b.w6 d).2⟩)

/-- `big.rs` 320-326 `plus`. -/
def plus (a x : BIG) : Option BIG := zipM add64 a x

/-- `big.rs` 368-372 `imul`. -/
def imul (a : BIG) (c : Int) : Option BIG := zipM (fun x _ => mul64 x c) a a

/-- `big.rs` 416-426 `pxmul`. -/
def pxmul (a : BIG) (c : Int) : Option DBIG := do
  let (k, m0) ← muladd a.w0 c 0 0
  let (k, m1) ← muladd a.w1 c k 0
  let (k, m2) ← muladd a.w2 c k 0
  let (k, m3) ← muladd a.w3 c k 0
  let (k, m4) ← muladd a.w4 c k 0
  let (k, m5) ← muladd a.w5 c k 0
  let (k, m6) ← muladd a.w6 c k 0
  return ⟨⟨m0, m1, m2, m3, m4, m5, m6⟩, { new with w0 := k }⟩

/-- One round of `div3` (`big.rs` 435-437): quotient and remainder. -/
def div3W (carry w : Int) : Option (Int × Int) := do
  let ak ← mul64 carry (2 ^ 58)
  let ak ← add64 ak w
  return (Int.tdiv ak 3, Int.tmod ak 3)

/-- `big.rs` 429-440 `div3`: quotient and remainder. -/
def div3 (a : BIG) : Option (BIG × Int) := do
  let a ← norm a
  let (w6, k) ← div3W 0 a.w6
  let (w5, k) ← div3W k a.w5
  let (w4, k) ← div3W k a.w4
  let (w3, k) ← div3W k a.w3
  let (w2, k) ← div3W k a.w2
  let (w1, k) ← div3W k a.w1
  let (w0, k) ← div3W k a.w0
  return (⟨w0, w1, w2, w3, w4, w5, w6⟩, k)

/-- `big.rs` 443-455 `smul`, loops unrolled; the carry out of each row is dropped. -/
def smul (a b : BIG) : Option BIG := do
  let (k, c0) ← muladd a.w0 b.w0 0 0
  let (k, c1) ← muladd a.w0 b.w1 k 0
  let (k, c2) ← muladd a.w0 b.w2 k 0
  let (k, c3) ← muladd a.w0 b.w3 k 0
  let (k, c4) ← muladd a.w0 b.w4 k 0
  let (k, c5) ← muladd a.w0 b.w5 k 0
  let (_, c6) ← muladd a.w0 b.w6 k 0
  let (k, c1) ← muladd a.w1 b.w0 0 c1
  let (k, c2) ← muladd a.w1 b.w1 k c2
  let (k, c3) ← muladd a.w1 b.w2 k c3
  let (k, c4) ← muladd a.w1 b.w3 k c4
  let (k, c5) ← muladd a.w1 b.w4 k c5
  let (_, c6) ← muladd a.w1 b.w5 k c6
  let (k, c2) ← muladd a.w2 b.w0 0 c2
  let (k, c3) ← muladd a.w2 b.w1 k c3
  let (k, c4) ← muladd a.w2 b.w2 k c4
  let (k, c5) ← muladd a.w2 b.w3 k c5
  let (_, c6) ← muladd a.w2 b.w4 k c6
  let (k, c3) ← muladd a.w3 b.w0 0 c3
  let (k, c4) ← muladd a.w3 b.w1 k c4
  let (k, c5) ← muladd a.w3 b.w2 k c5
  let (_, c6) ← muladd a.w3 b.w3 k c6
  let (k, c4) ← muladd a.w4 b.w0 0 c4
  let (k, c5) ← muladd a.w4 b.w1 k c5
  let (_, c6) ← muladd a.w4 b.w2 k c6
  let (k, c5) ← muladd a.w5 b.w0 0 c5
  let (_, c6) ← muladd a.w5 b.w1 k c6
  let (_, c6) ← muladd a.w6 b.w0 0 c6
  return ⟨c0, c1, c2, c3, c4, c5, c6⟩

/-- Keep limbs below `wd`, mask limb `wd`, clear the rest (`big.rs` 470-475), for limb `i`. -/
def mod2mW (wd bt i : Nat) (w : Int) : Int :=
  if i < wd then w else if i = wd then and64 w (shl64 1 bt - 1) else 0

/-- `big.rs` 468-475 `mod2m`; `none` (index panic) when `m/58 > 6`. -/
def mod2m (a : BIG) (m : Nat) : Option BIG :=
  if m / 58 > 6 then none
  else
    let wd := m / 58
    let bt := m % 58
    some ⟨mod2mW wd bt 0 a.w0, mod2mW wd bt 1 a.w1, mod2mW wd bt 2 a.w2, mod2mW wd bt 3 a.w3,
      mod2mW wd bt 4 a.w4, mod2mW wd bt 5 a.w5, mod2mW wd bt 6 a.w6⟩

/-- `big.rs` 478-510 `invmod256`, for `0 ≤ a < 256` (the only call passes 8 bits). -/
def invmod256 (a : Int) : Int :=
  let c := and64 (sar a 1) 1
  let t1 := and64 c 1
  let t1 := shl64 (2 - t1) 1
  let u := t1 + 1
  let b := and64 a 3
  let t1 := sar (u * b) 2
  let c := and64 (sar a 2) 3
  let t2 := and64 (u * c) 3
  let t1 := t1 + t2
  let t1 := and64 (t1 * u) 3
  let t1 := shl64 (4 - t1) 2
  let u := u + t1
  let b := and64 a 15
  let t1 := sar (u * b) 4
  let c := and64 (sar a 4) 15
  let t2 := and64 (u * c) 15
  let t1 := t1 + t2
  let t1 := and64 (t1 * u) 15
  let t1 := shl64 (16 - t1) 4
  u + t1

/-- `big.rs` 606-610: the doubling loop of `div` on `(e, m, k)`. `k` is an `i32` in Rust; it stays
below 407 in every terminating run, so its overflow is not modelled. -/
def divUp (b m e : BIG) (k : Nat) : Option (BIG × BIG × Nat) := do
  if comp b m ≥ 0 then
    let e ← fshl e 1
    let m ← fshl m 1
    divUp b m e (k + 1)
  else return (m, e, k)
partial_fixpoint

/-- `big.rs` 612-633: the halving loop of `div` on `(self, b, m, e)`; the result is `self`. -/
def divDown : Nat → BIG → BIG → BIG → BIG → Option BIG
  | 0, s, _, _, _ => some s
  | k + 1, s, b, m, e => do
    let m ← fshr m 1
    let e ← fshr e 1
    let r ← sub b m
    let r ← norm r
    let d ← sub64 1 (and64 (sar r.w6 63) 1)
    let b := b.cmove r d
    let r ← add s e
    let r ← norm r
    divDown k (s.cmove r d) b m e

/-- `big.rs` 597-634 `div`. -/
def div (s n : BIG) : Option BIG := do
  let b ← norm s
  let (m, e, k) ← divUp b n (new_int 1) 0
  divDown k new b m e

/-- `big.rs` 723-726, 731-734: add `p` to an odd `x`. -/
def invAdd (p x : BIG) : Option BIG := if parity x ≠ 0 then (do let x ← add x p; norm x) else some x

/-- `big.rs` 721-728, 729-736: strip factors of two from `u`, halving `x` modulo `p` each time. -/
def invStrip (p u x : BIG) : Option (BIG × BIG) := do
  if parity u = 0 then
    let u ← fshr u 1
    let x ← invAdd p x
    let x ← fshr x 1
    invStrip p u x
  else return (u, x)
partial_fixpoint

/-- `big.rs` 740-747, 753-760: `x1 - x2` modulo `p`. -/
def invSub (p x1 x2 : BIG) : Option BIG := do
  if comp x1 x2 ≥ 0 then
    let x1 ← sub x1 x2
    norm x1
  else
    let t ← sub p x2
    let x1 ← add x1 t
    norm x1

/-- `big.rs` 720-764: main loop of `invmodp`; the result is `x1` or `x2`. -/
def invLoop (p u v x1 x2 : BIG) : Option BIG := do
  if comp u (new_int 1) ≠ 0 ∧ comp v (new_int 1) ≠ 0 then
    let (u, x1) ← invStrip p u x1
    let (v, x2) ← invStrip p v x2
    if comp u v ≥ 0 then
      let u ← sub u v
      let u ← norm u
      let x1 ← invSub p x1 x2
      invLoop p u v x1 x2
    else
      let v ← sub v u
      let v ← norm v
      let x2 ← invSub p x2 x1
      invLoop p u v x1 x2
  else return if comp u (new_int 1) = 0 then x1 else x2
partial_fixpoint

/-- `big.rs` 711-765 `invmodp`. -/
def invmodp (s p : BIG) : Option BIG := do
  let s ← rmod s p
  invLoop p s p (new_int 1) new

/-- `big.rs` 980-985 `modmul`: the result. `a` and `b` are also reduced in place; callers that read
them afterwards call `rmod` themselves in the model. -/
def modmul (a b m : BIG) : Option BIG := do
  let a ← rmod a m
  let b ← rmod b m
  let d ← mul a b
  d.dmod m

/-- `big.rs` 988-992 `modsqr`: the result. -/
def modsqr (a m : BIG) : Option BIG := do
  let a ← rmod a m
  let d ← sqr a
  d.dmod m

/-- `big.rs` 995-998 `modneg`: the result and the reduced `a`. The difference is not normalised. -/
def modneg (a m : BIG) : Option (BIG × BIG) := do
  let a ← rmod a m
  return (← sub m a, a)

/-- `big.rs` 1009: `a.copy(&modmul(a, s, m))` if the bit is 1. -/
def powMul (bt : Int) (a s m : BIG) : Option BIG := if bt = 1 then modmul a s m else some a

/-- `big.rs` 1007-1013: the loop of `powmod` on `(a, z, s)`. `modmul` also reduces `s`
in place; `modsqr` reduces it anyway. -/
def powLoop (m a z s : BIG) : Option BIG := do
  let bt := parity z
  let z ← fshr z 1
  let a ← powMul bt a s m
  if iszilch z then return a
  let s ← modsqr s m
  powLoop m a z s
partial_fixpoint

/-- `big.rs` 1001-1015 `powmod`. -/
def powmod (s e m : BIG) : Option BIG := do
  let s ← norm s
  let e ← norm e
  powLoop m (new_int 1) e s

end BIG

namespace DBIG

/-- `dbig.rs` 208-212: the doubling loop of `div`. -/
def divUp (s m : DBIG) (e : BIG) (k : Nat) : Option (DBIG × BIG × Nat) := do
  if comp s m ≥ 0 then
    let e ← e.fshl 1
    let m ← m.shl 1
    divUp s m e (k + 1)
  else return (m, e, k)
partial_fixpoint

/-- `dbig.rs` 214-235: the halving loop of `div`; the result is `a`. -/
def divDown : Nat → DBIG → DBIG → BIG → BIG → Option BIG
  | 0, _, _, _, a => some a
  | k + 1, s, m, e, a => do
    let m ← m.shr 1
    let e ← e.shr 1
    let dr ← s.sub m
    let dr ← dr.norm
    let d ← sub64 1 (and64 (sar dr.hi.w6 63) 1)
    let s := s.cmove dr d
    let r ← a.add e
    let r ← r.norm
    divDown k s m e (a.cmove r d)

/-- `dbig.rs` 199-237 `div`. -/
def div (s : DBIG) (c : BIG) : Option BIG := do
  let s ← norm s
  let (m, e, k) ← divUp s (new_scopy c) (BIG.new_int 1) 0
  divDown k s m e BIG.new

end DBIG
end Amcl
