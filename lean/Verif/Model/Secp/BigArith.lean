import Verif.Model.Secp.Big
/-!
# Model of the functions of `amcl/src/secp256k1/big.rs` and `dbig.rs` that only `ecdh.rs` and `ecp.rs` call

`one` and `copy` are plain assignments and have no definition of their own. The text of the functions is the one of the
directory `bls381`.
-/

namespace Amcl.Secp
namespace BIG

/-- `big.rs` 606-610: the doubling loop of `div` on `(e, m, k)`. `k` is an `i32` in Rust; it stays
below 281 in every terminating run, so its overflow is not modelled. -/
def divUp (b m e : BIG) (k : Nat) : Option (BIG × BIG × Nat) := do
  if comp b m ≥ 0 then
    let e ← fshl e 1
    let m ← fshl m 1
    divUp b m e (k + 1)
  else return (m, e, k)
partial_fixpoint

/-- `big.rs` 612-633: the halving loop of `div` on `(self, b, m, e)`; the result is `self`. -/
def divDown : Nat → BIG → BIG → BIG → BIG → Option BIG
  | 0, s, _, _, _ => some s
  | k + 1, s, b, m, e => do
    let m ← fshr m 1
    let e ← fshr e 1
    let r ← sub b m
    let r ← norm r
    let d ← sub64 1 (and64 (sar r.w4 63) 1)
    let b := b.cmove r d
    let r ← add s e
    let r ← norm r
    divDown k (s.cmove r d) b m e

/-- `big.rs` 597-634 `div`. -/
def div (s n : BIG) : Option BIG := do
  let b ← norm s
  let (m, e, k) ← divUp b n (new_int 1) 0
  divDown k new b m e

/-- `big.rs` 723-726, 731-734: add `p` to an odd `x`. -/
def invAdd (p x : BIG) : Option BIG := if parity x ≠ 0 then (do let x ← add x p; norm x) else some x

/-- `big.rs` 721-728, 729-736: strip factors of two from `u`, halving `x` modulo `p` each time. -/
def invStrip (p u x : BIG) : Option (BIG × BIG) := do
  if parity u = 0 then
    let u ← fshr u 1
    let x ← invAdd p x
    let x ← fshr x 1
    invStrip p u x
  else return (u, x)
partial_fixpoint

/-- `big.rs` 740-747, 753-760: `x1 - x2` modulo `p`. -/
def invSub (p x1 x2 : BIG) : Option BIG := do
  if comp x1 x2 ≥ 0 then
    let x1 ← sub x1 x2
    norm x1
  else
    let t ← sub p x2
    let x1 ← add x1 t
    norm x1

/-- `big.rs` 720-764: main loop of `invmodp`; the result is `x1` or `x2`. -/
def invLoop (p u v x1 x2 : BIG) : Option BIG := do
  if comp u (new_int 1) ≠ 0 ∧ comp v (new_int 1) ≠ 0 then
    let (u, x1) ← invStrip p u x1
    let (v, x2) ← invStrip p v x2
    if comp u v ≥ 0 then
      let u ← sub u v
      let u ← norm u
      let x1 ← invSub p x1 x2
      invLoop p u v x1 x2
    else
      let v ← sub v u
      let v ← norm v
      let x2 ← invSub p x2 x1
      invLoop p u v x1 x2
  else return if comp u (new_int 1) = 0 then x1 else x2
partial_fixpoint

/-- `big.rs` 711-765 `invmodp`. -/
def invmodp (s p : BIG) : Option BIG := do
  let s ← rmod s p
  invLoop p s p (new_int 1) new

/-- `big.rs` 980-985 `modmul`: the result and the reduced `a` and `b`. -/
def modmul (a b m : BIG) : Option (BIG × BIG × BIG) := do
  let a ← rmod a m
  let b ← rmod b m
  let d ← mul a b
  return (← d.dmod m, a, b)

/-- The limb `i`; an index out of range does not occur. -/
def limb (a : BIG) : Nat → Int
  | 0 => a.w0
  | 1 => a.w1
  | 2 => a.w2
  | 3 => a.w3
  | _ => a.w4

/-- `big.rs` 258-262: the limb `i` below the last one of the result of `shl`. -/
def shlW (a : BIG) (m n i : Nat) : Int :=
  if i < m then 0
  else if i = m then and64 (shl64 a.w0 n) BMASK
  else or64 (and64 (shl64 (a.limb (i - m)) n) BMASK) (sar (a.limb (i - m - 1)) (56 - n))

/-- `big.rs` 252-263 `shl`; `none` (index panic) for shifts of 280 bits or more. For `m = 4` line 261 writes the last limb
again. -/
def shl (a : BIG) (k : Nat) : Option BIG :=
  let n := k % 56
  let m := k / 56
  if m > 4 then none
  else
    let top := shl64 (a.limb (4 - m)) n
    let top := if 5 ≥ m + 2 then or64 top (sar (a.limb (3 - m)) (56 - n)) else top
    let top := if m = 4 then and64 (shl64 a.w0 n) BMASK else top
    some ⟨shlW a m n 0, shlW a m n 1, shlW a m n 2, shlW a m n 3, top⟩

end BIG
end Amcl.Secp
