import Verif.Model.Ecdh
import Verif.Model.Secp.EcpMore
import Verif.Model.Secp.Joint
import Verif.Model.Secp.Rand
/-!
# Model of `amcl/src/secp256k1/ecdh.rs`, the functions that use the curve

Key pairs, Diffie-Hellman, ECDSA and ECIES; the other functions of the file are in `Verif.Model.Ecdh`. As there, slices are
lists, a function that writes to a slice returns its new contents, and `none` stands for a panic or for a loop that does
not end. A panic gives no result, so the order of two writes of which one panics does not matter.
-/

namespace Amcl.Secp.ecdh

open NHS (copy)
open Amcl.ecdh (EFS EGS hashit kdf2 hmac cbc_iv0_encrypt cbc_iv0_decrypt inttobytes)

/-- `ecdh.rs` 34. -/
def INVALID_PUBLIC_KEY : Int := -2
/-- `ecdh.rs` 35. -/
def ERROR : Int := -3
/-- `ecdh.rs` 36. -/
def INVALID : Int := -4

/-- `ecp.rs` 49. -/
def AESKEY : Nat := 16

/-- The bytes `l` written at the beginning of `w`. -/
def put (l w : List UInt8) : Option (List UInt8) := copy 0 0 l l.length 0 w

/-- `ecdh.rs` 322-327: the secret number, from the generator or from `s`, and the new generator. -/
def secret (rng : Option RAND) (s : List UInt8) : Option (BIG × Option RAND) :=
  match rng with
  | some g => do
    let (sc, g) ← BIG.randomnum rom.CURVE_ORDER g
    return (sc, some g)
  | none => do
    let sc ← BIG.frombytes s
    let sc ← BIG.rmod sc rom.CURVE_ORDER
    return (sc, none)

/-- `ecdh.rs` 315-339 `key_pair_generate`: the new generator, the result, `s` and `w`. -/
def key_pair_generate (rng : Option RAND) (s w : List UInt8) : Option (Option RAND × Int × List UInt8 × List UInt8) := do
  let G ← ECP.generator
  let (sc, rng) ← secret rng s
  let s ← put (← sc.tobytes) s
  let WP ← G.mul sc
  let (b, _) ← WP.tobytes
  let w ← put b w
  return (rng, 0, s, w)

/-- `ecdh.rs` 352-356: the number `k`. -/
def cofactor : Option BIG := do
  let q := rom.MODULUS
  let nb ← q.nbits
  let k ← BIG.shl (BIG.new_int 1) ((nb + 4) / 2)
  let k ← k.add q
  k.div rom.CURVE_ORDER

/-- `ecdh.rs` 358-361: the loop on `k` and `WP`. -/
def halve (k : BIG) (W : ECP) : Option (BIG × ECP) := do
  if k.parity = 0 then
    let k ← k.shr 1
    let W ← W.dbl
    halve k W
  else return (k, W)
partial_fixpoint

/-- `ecdh.rs` 343-368 `public_key_validate`. -/
def public_key_validate (w : List UInt8) : Option Int := do
  let W ← ECP.frombytes w
  if ← W.is_infinity then return INVALID_PUBLIC_KEY
  let k ← cofactor
  let (k, W) ← halve k W
  let W ← if k.isunity then pure W else W.mul k
  if ← W.is_infinity then return INVALID_PUBLIC_KEY
  return 0

/-- `ecdh.rs` 372-393 `ecpsvdp_dh`: the result and `z`. -/
def ecpsvdp_dh (s wd z : List UInt8) : Option (Int × List UInt8) := do
  let sc ← BIG.frombytes s
  let W ← ECP.frombytes wd
  if ← W.is_infinity then return (ERROR, z)
  let sc ← BIG.rmod sc rom.CURVE_ORDER
  let W ← W.mul sc
  if ← W.is_infinity then return (ERROR, z)
  let (x, _) ← W.getx
  let z ← put (← x.tobytes) z
  return (0, z)

/-- `ecdh.rs` 417-440: one pass of the loop, on the generator and `sc` (the calls of `modmul` reduce it and `w`, `u`, `db`,
`cb` in place). Result: the generator, `sc`, and `cb` and `db` if the loop ends here. With `continue` in 427 `db` is still 0,
and the loop goes on. -/
def signAttempt (G : ECP) (fb sc : BIG) (rng : RAND) : Option (RAND × BIG × Option (BIG × BIG)) := do
  let r := rom.CURVE_ORDER
  let (u, rng) ← BIG.randomnum r rng
  let (w, rng) ← BIG.randomnum r rng
  let V ← G.mul u
  let (vx, _) ← V.getx
  let cb ← BIG.rmod vx r
  if cb.iszilch then return (rng, sc, none)
  let (u, _, w) ← BIG.modmul u w r
  let u ← BIG.invmodp u r
  let (db, sc, cb) ← BIG.modmul sc cb r
  let db ← db.add fb
  let (db, _, _) ← BIG.modmul db w r
  let (db, _, _) ← BIG.modmul u db r
  return (rng, sc, if db.iszilch then none else some (cb, db))

/-- `ecdh.rs` 416-441: the loop, while `db` is 0. Result: the generator, `cb` and `db`. -/
def signLoop (G : ECP) (fb sc : BIG) (rng : RAND) : Option (RAND × BIG × BIG) := do
  let (rng, sc, o) ← signAttempt G fb sc rng
  match o with
  | none => signLoop G fb sc rng
  | some (cb, db) => return (rng, cb, db)
partial_fixpoint

/-- `ecdh.rs` 397-448 `ecpsp_dsa`: the generator, the result, `c` and `d`. -/
def ecpsp_dsa (sha : Nat) (rng : RAND) (s f c d : List UInt8) : Option (RAND × Int × List UInt8 × List UInt8) := do
  let b ← hashit sha f 0 none 32 (List.replicate 32 0)
  let G ← ECP.generator
  let sc ← BIG.frombytes s
  let fb ← BIG.frombytes b
  let (rng, cb, db) ← signLoop G fb sc rng
  let c ← put (← cb.tobytes) c
  let d ← put (← db.tobytes) d
  return (rng, 0, c, d)

/-- `ecdh.rs` 452-499 `ecpvp_dsa`. -/
def ecpvp_dsa (sha : Nat) (w f c d : List UInt8) : Option Int := do
  let b ← hashit sha f 0 none 32 (List.replicate 32 0)
  let G ← ECP.generator
  let r := rom.CURVE_ORDER
  let cb ← BIG.frombytes c
  let db ← BIG.frombytes d
  let fb ← BIG.frombytes b
  if cb.iszilch ∨ cb.comp r ≥ 0 ∨ db.iszilch ∨ db.comp r ≥ 0 then return INVALID
  let db ← BIG.invmodp db r
  let (tb, _, db) ← BIG.modmul fb db r
  let (h2, cb, _) ← BIG.modmul cb db r
  let W ← ECP.frombytes w
  if ← W.is_infinity then return ERROR
  let P ← W.mul2 h2 G tb
  if ← P.is_infinity then return INVALID
  let (x, _) ← P.getx
  let db ← BIG.rmod x r
  if db.comp cb ≠ 0 then return INVALID
  return 0

/-- `ecdh.rs` 514-519 and 556-561: the keys `k1` and `k2` from `v` and `z`. -/
def eciesKeys (sha : Nat) (p1 v z : List UInt8) : Option (List UInt8 × List UInt8) := do
  let vz ← copy 0 0 v (2 * EFS + 1) 0 (List.replicate (3 * EFS + 1) 0)
  let vz ← copy (2 * EFS + 1) 0 z EFS 0 vz
  let k ← kdf2 sha vz (some p1) (2 * AESKEY) (List.replicate (2 * AESKEY) 0)
  let k1 ← copy 0 0 k AESKEY 0 (List.replicate AESKEY 0)
  let k2 ← copy 0 AESKEY k AESKEY 0 (List.replicate AESKEY 0)
  return (k1, k2)

/-- `ecdh.rs` 523-533 and 567-577: the bytes of which the tag is computed. They are appended to `c` and removed again. -/
def tagged (c p2 : List UInt8) : Option (List UInt8) := do
  let l2 ← inttobytes p2.length (List.replicate 8 0)
  return c ++ p2 ++ l2

/-- `ecdh.rs` 503-540 `ecies_encrypt`: the generator, `v`, `t` and the result. `key_pair_generate` returns 0. -/
def ecies_encrypt (sha : Nat) (p1 p2 : List UInt8) (rng : RAND) (w m v t : List UInt8) :
    Option (RAND × List UInt8 × List UInt8 × Option (List UInt8)) := do
  let (rng', _, u, v) ← key_pair_generate (some rng) (List.replicate EGS 0) v
  let rng ← rng'
  let (res, z) ← ecpsvdp_dh u w (List.replicate EFS 0)
  if res ≠ 0 then return (rng, v, t, none)
  let (k1, k2) ← eciesKeys sha p1 v z
  let c ← cbc_iv0_encrypt k1 m
  let (_, t) ← hmac sha (← tagged c p2) k2 t.length t
  return (rng, v, t, some c)

/-- `ecdh.rs` 544-591 `ecies_decrypt`. `c` has its old contents in the end. -/
def ecies_decrypt (sha : Nat) (p1 p2 v c t u : List UInt8) : Option (Option (List UInt8)) := do
  let tag ← put t (List.replicate 32 0)
  let (res, z) ← ecpsvdp_dh u v (List.replicate EFS 0)
  if res ≠ 0 then return none
  let (k1, k2) ← eciesKeys sha p1 v z
  let m ← cbc_iv0_decrypt k1 c
  if m = none then return none
  let (_, tag) ← hmac sha (← tagged c p2) k2 t.length tag
  if t ≠ tag.take t.length then return none
  return m

end Amcl.Secp.ecdh
