import Verif.Model.Fp12More
import Verif.Model.Fp4More
import Verif.Model.Ate2
import Verif.Model.Ecp2More
import Verif.Model.EcpMore
import Verif.Model.Hash512
import Verif.Model.Rand
import Verif.Model.Utils
/-!
# Model of `amcl/src/bls381/mpin.rs`, the M-Pin protocol

The crate does not call these functions. Conventions of this file:

* A status other than 0 becomes `.error status`, the buffers written become the value of `.ok`. (What a function
  has written to its buffers before it returns an error is dropped.)
* Output buffers are supposed to have exactly the length that is written.
* An optional output buffer (`Option<&mut [u8]>`) is a Boolean argument that says whether it is there, and an
  optional result.
* SHA-384 is the one of the release build; a debug build panics on it (see `Hash512`).
* `today` and `get_time` read the clock and are left out.
-/

namespace Amcl

/-- A Rust cast of `usize` to `i32`. -/
def asI32 (n : Nat) : Int := Int.bmod n (2 ^ 32)

/-- `hash256.rs` 138-143 `process_num`, the same in `hash384.rs` and `hash512.rs`: the four bytes processed. -/
def numBytes (n : Int) : List UInt8 :=
  [UInt8.ofNat ((n >>> 24) % 256).toNat, UInt8.ofNat ((n >>> 16) % 256).toNat, UInt8.ofNat ((n >>> 8) % 256).toNat,
    UInt8.ofNat (n % 256).toNat]

/-- `fp4.rs` 117-119 `equals` with short-circuit `&&`: answer, new `self`, new `x`. -/
def FP4.equalsM (f x : FP4) : Option (Bool × FP4 × FP4) := do
  let (ea, fa, xa) ← f.a.equals x.a
  if ea then
    let (eb, fb, xb) ← f.b.equals x.b
    return (eb, ⟨fa, fb⟩, ⟨xa, xb⟩)
  else return (false, ⟨fa, f.b⟩, ⟨xa, x.b⟩)

/-- `fp12.rs` 139-141 `equals` with short-circuit `&&`: answer, new `self`, new `x`. -/
def FP12.equalsM (f x : FP12) : Option (Bool × FP12 × FP12) := do
  let (ea, fa, xa) ← f.a.equalsM x.a
  if ea then
    let (eb, fb, xb) ← f.b.equalsM x.b
    if eb then
      let (ec, fc, xc) ← f.c.equalsM x.c
      return (ec, ⟨fa, fb, fc⟩, ⟨xa, xb, xc⟩)
    else return (false, ⟨fa, fb, f.c⟩, ⟨xa, xb, x.c⟩)
  else return (false, ⟨fa, f.b, f.c⟩, ⟨xa, x.b, x.c⟩)

/-- `fp12.rs` 133-136 `isunity` with short-circuit `&&`: answer and the new `self`. -/
def FP12.isunity (f : FP12) : Option (Bool × FP12) := do
  let one ← FP4.new_int 1
  let (ea, fa, _) ← f.a.equalsM one
  if ea then
    let (eb, fb) ← f.b.iszilch
    if eb then
      let (ec, fc) ← f.c.iszilch
      return (ec, ⟨fa, fb, fc⟩)
    else return (false, ⟨fa, fb, f.c⟩)
  else return (false, ⟨fa, f.b, f.c⟩)

namespace mpin

/-- `mpin.rs` 48. -/
def BAD_PARAMS : Int := -11
/-- `mpin.rs` 49. -/
def INVALID_POINT : Int := -14
/-- `mpin.rs` 51. -/
def BAD_PIN : Int := -19
/-- `mpin.rs` 58. -/
def MAXPIN : Int := 10000
/-- `mpin.rs` 59. -/
def PBLEN : Nat := 14
/-- `mpin.rs` 60. -/
def TS : Nat := 10
/-- `mpin.rs` 61. -/
def TRAP : Nat := 200

/-- The digest of `b` with the hash function `sha` names: `HASH256::new`, `process_array`, `hash` and so on, as in
`mpin.rs` 78-98 and 108-131. `none` inside for another name. -/
def digest (sha : Nat) (b : List UInt8) : Option (Option (List UInt8)) :=
  if sha = 32 then do
    let h ← HASH256.new.process_array b
    let d ← h.hash
    return some d.toList
  else if sha = 48 then do
    let h ← HASH384.process_array false HASH384.new b
    let d ← HASH384.hash false h
    return some d.1.toList
  else if sha = 64 then do
    let h ← HASH512.process_array HASH512.new b
    let d ← HASH512.hash h
    return some d.1.toList
  else return none

/-- `mpin.rs` 66-101 `hash`: the 16 bytes written, or `none` (inside) if `sha` is not a name. -/
def hash (sha : Nat) (c : FP4) (U : ECP) : Option (Option (List UInt8)) := do
  let t1 ← c.a.toblocks
  let t2 ← c.b.toblocks
  let (x, U) ← U.getx
  let t3 ← x.tobytes
  let (y, _) ← U.gety
  let t4 ← y.tobytes
  let d ← digest sha (t1 ++ t2 ++ t3 ++ t4)
  return d.map (List.take 16)

/-- `mpin.rs` 105-148 `hashit` on a buffer `w` of 48 bytes: whether it succeeded, and the new buffer. With `n > 0`
the four bytes of the number (cast to `i32`) come first. -/
def hashit (sha n : Nat) (id w : List UInt8) : Option (Bool × List UInt8) := do
  let d ← digest sha (if n > 0 then numBytes (asI32 n) ++ id else id)
  match d with
  | none => return (false, w)
  | some r => return (true, if sha > 48 then r.take 48 else List.replicate (48 - sha) 0 ++ r)

/-- `let mut h=[0;RM]; hashit(sha,n,id,&mut h);` as in `mpin.rs` 359-362: the buffer. -/
def hashed (sha n : Nat) (id : List UInt8) : Option (List UInt8) := do
  let (_, h) ← hashit sha n id (List.replicate 48 0)
  return h

/-- `mpin.rs` 189-191 `hash_id` on a buffer of 48 bytes. -/
def hash_id (sha : Nat) (id w : List UInt8) : Option (Bool × List UInt8) := hashit sha 0 id w

/-- `mpin.rs` 164-168: the search loop of `emap`. `none` if it does not end. -/
def emapLoop (x : BIG) (cb : Int) : Option ECP := do
  let P ← ECP.new_bigint x cb
  if ← P.is_infinity then
    let x ← x.inc 1
    let x ← x.norm
    emapLoop x cb
  else return P
partial_fixpoint

/-- `mpin.rs` 159-170 `emap`. -/
def emap (u : BIG) (cb : Int) : Option ECP := do
  let x ← u.rmod rom.MODULUS
  emapLoop x cb

/-- `mpin.rs` 180-185: the search loop of `unmap`; the result is `u` and `r`. `none` if it does not end. -/
def unmapLoop (u : BIG) (s : Int) (n : Nat) : Option (BIG × Nat) := do
  let u ← u.dec 1
  let u ← u.norm
  let R ← ECP.new_bigint u s
  if ← R.is_infinity then unmapLoop u s (n + 1)
  else return (u, n + 1)
partial_fixpoint

/-- `mpin.rs` 174-187 `unmap`: the number `u`, the number of steps, and the new `P`. -/
def unmap (P : ECP) : Option (BIG × Nat × ECP) := do
  let (s, P) ← P.gets
  let (x, P) ← P.getx
  let (u, n) ← unmapLoop x s 0
  return (u, n, P)

/-- `mpin.rs` 208-223, the part of `encoding` after the test: `P` is the point. The result is the new string. -/
def encodePoint (rng : RAND) (P : ECP) : Option (List UInt8 × RAND) := do
  let (u, rng) ← BIG.randomnum rom.MODULUS rng
  let (b, rng) ← rng.getbyte
  let su : Nat := b.toNat % 2
  let W ← emap u su
  let P ← P.sub W
  let (sv, P) ← P.gets
  let (v, rn, _) ← unmap P
  let (b, rng) ← rng.getbyte
  let m : Nat := b.toNat % rn
  let v ← v.inc (m + 1)
  let t ← u.tobytes
  let t' ← v.tobytes
  return (UInt8.ofNat (su + 2 * sv).toNat :: (t ++ t'), rng)

/-- `mpin.rs` 197-226 `encoding` on a buffer of 97 bytes. -/
def encoding (rng : RAND) (e : List UInt8) : Option (Except Int (List UInt8 × RAND)) := do
  if e.length < 97 then none
  let u ← BIG.frombytes ((e.drop 1).take 48)
  let v ← BIG.frombytes ((e.drop 49).take 48)
  let P ← ECP.new_bigs u v
  if ← P.is_infinity then return .error INVALID_POINT
  else return .ok (← encodePoint rng P)

/-- `mpin.rs` 234-250, the part of `decoding` after the test of the first byte `d0`. -/
def decodeBody (d0 : UInt8) (d : List UInt8) : Option (List UInt8) := do
  let u ← BIG.frombytes ((d.drop 1).take 48)
  let v ← BIG.frombytes ((d.drop 49).take 48)
  let su : Nat := (d0 &&& 1).toNat
  let sv : Nat := ((d0 >>> 1) &&& 1).toNat
  let W ← emap u su
  let P ← emap v sv
  let P ← P.add W
  let (u, P) ← P.getx
  let (v, _) ← P.gety
  let t ← u.tobytes
  let t' ← v.tobytes
  return 4 :: (t ++ t')

/-- `mpin.rs` 229-253 `decoding` on a buffer of 97 bytes. -/
def decoding (d : List UInt8) : Option (Except Int (List UInt8)) := do
  if d.length < 97 then none
  let d0 ← d.head?
  if d0 &&& 4 ≠ 0 then return .error INVALID_POINT
  else return .ok (← decodeBody d0 d)

/-- `mpin.rs` 257-267 `recombine_g1`. -/
def recombine_g1 (r1 r2 : List UInt8) : Option (Except Int (List UInt8)) := do
  let P ← ECP.frombytes r1
  let Q ← ECP.frombytes r2
  if (← P.is_infinity) || (← Q.is_infinity) then return .error INVALID_POINT
  else
    let P ← P.add Q
    let (b, _) ← P.tobytes
    return .ok b

/-- `mpin.rs` 271-281 `recombine_g2`. -/
def recombine_g2 (w1 w2 : List UInt8) : Option (Except Int (List UInt8)) := do
  let P ← ECP2.frombytes w1
  let Q ← ECP2.frombytes w2
  if (← P.is_infinity) || (← Q.is_infinity) then return .error INVALID_POINT
  else
    let P ← P.add Q
    return .ok (← P.tobytes)

/-- `mpin.rs` 284-292 `random_generate`. -/
def random_generate (rng : RAND) : Option (List UInt8 × RAND) := do
  let (sc, rng) ← BIG.randomnum rom.CURVE_ORDER rng
  return (← sc.tobytes, rng)

/-- `mpin.rs` 296-304 `get_server_secret`. -/
def get_server_secret (s : List UInt8) : Option (List UInt8) := do
  let Q ← ECP2.generator
  let sc ← BIG.frombytes s
  let Q ← pair.g2mul Q sc
  Q.tobytes

/-- `mpin.rs` 317-326, the same as 452-461: the scalar, taken from the buffer `x`, or drawn and written to it. -/
def pick (rng : Option RAND) (x : List UInt8) : Option (BIG × List UInt8 × Option RAND) :=
  match rng with
  | some rd => do
    let (sx, rd) ← BIG.randomnum rom.CURVE_ORDER rd
    return (sx, ← sx.tobytes, some rd)
  | none => do return (← BIG.frombytes x, x, none)

/-- `mpin.rs` 329-334: the point; `none` (inside) for infinity. -/
def base (typ : Nat) (g : List UInt8) : Option (Option ECP) :=
  if typ = 0 then do
    let P ← ECP.frombytes g
    if ← P.is_infinity then return none else return some P
  else do return some (← ECP.mapit g)

/-- `mpin.rs` 313-340 `get_g1_multiple`: the multiple, the new buffer `x`, the new generator. -/
def get_g1_multiple (rng : Option RAND) (typ : Nat) (x g : List UInt8) :
    Option (Except Int (List UInt8 × List UInt8 × Option RAND)) := do
  let (sx, x, rng) ← pick rng x
  match ← base typ g with
  | none => return .error INVALID_POINT
  | some P =>
    let R ← pair.g1mul P sx
    let (w, _) ← R.tobytes
    return .ok (w, x, rng)

/-- `mpin.rs` 345-347 `get_client_secret`. -/
def get_client_secret (s cid : List UInt8) : Option (Except Int (List UInt8)) := do
  let r ← get_g1_multiple none 1 s cid
  return r.map Prod.fst

/-- `mpin.rs` 357-371 `extract_factor`. -/
def extract_factor (sha : Nat) (cid : List UInt8) (factor : Int) (facbits : Nat) (token : List UInt8) :
    Option (Except Int (List UInt8)) := do
  let P ← ECP.frombytes token
  if ← P.is_infinity then return .error INVALID_POINT
  else
    let h ← hashed sha 0 cid
    let R ← ECP.mapit h
    let R ← R.pinmul factor facbits
    let P ← P.sub R
    let (b, _) ← P.tobytes
    return .ok b

/-- `mpin.rs` 375-389 `restore_factor`. -/
def restore_factor (sha : Nat) (cid : List UInt8) (factor : Int) (facbits : Nat) (token : List UInt8) :
    Option (Except Int (List UInt8)) := do
  let P ← ECP.frombytes token
  if ← P.is_infinity then return .error INVALID_POINT
  else
    let h ← hashed sha 0 cid
    let R ← ECP.mapit h
    let R ← R.pinmul factor facbits
    let P ← P.add R
    let (b, _) ← P.tobytes
    return .ok b

/-- `mpin.rs` 351-353 `extract_pin`; the remainder has the sign of `pin`. -/
def extract_pin (sha : Nat) (cid : List UInt8) (pin : Int) (token : List UInt8) : Option (Except Int (List UInt8)) :=
  extract_factor sha cid (pin.tmod MAXPIN) PBLEN token

/-- `mpin.rs` 413-430 `precompute`. -/
def precompute (token cid : List UInt8) : Option (Except Int (List UInt8 × List UInt8)) := do
  let T ← ECP.frombytes token
  if ← T.is_infinity then return .error INVALID_POINT
  else
    let P ← ECP.mapit cid
    let Q ← ECP2.generator
    let g ← pair.ate Q T
    let g ← pair.fexp g
    let g1 ← g.tobytes
    let g ← pair.ate Q P
    let g ← pair.fexp g
    let g2 ← g.tobytes
    return .ok (g1, g2)

/-- `mpin.rs` 434-443 `get_client_permit`. -/
def get_client_permit (sha date : Nat) (s cid : List UInt8) : Option (List UInt8) := do
  let h ← hashed sha date cid
  let P ← ECP.mapit h
  let sc ← BIG.frombytes s
  let R ← pair.g1mul P sc
  let (b, _) ← R.tobytes
  return b

/-- What `client_1` writes. -/
structure Client1 where
  x : List UInt8
  sec : List UInt8
  xid : Option (List UInt8)
  xcid : Option (List UInt8)
  rng : Option RAND

/-- `mpin.rs` 481-489: the commitments for a date; the point `P` at the end and the string `xid`. -/
def commit (sx : BIG) (P W : ECP) (xid : Bool) : Option (ECP × Option (List UInt8)) :=
  if xid then do
    let P ← pair.g1mul P sx
    let (b, P) ← P.tobytes
    let W ← pair.g1mul W sx
    let P ← P.add W
    return (P, some b)
  else do
    let P ← P.add W
    let P ← pair.g1mul P sx
    return (P, none)

/-- `mpin.rs` 475-490: the permit, the date, and the two commitments; `T`, `xid`, `xcid`. -/
def client1Date (sha date : Nat) (h : List UInt8) (sx : BIG) (P T W : ECP) (xid xcid : Bool) (permit : Option (List UInt8)) :
    Option (Except Int (ECP × Option (List UInt8) × Option (List UInt8))) := do
  let W ← match permit with
    | some b => ECP.frombytes b
    | none => some W
  if ← W.is_infinity then return .error INVALID_POINT
  else
    let T ← T.add W
    let h2 ← hashed sha date h
    let W ← ECP.mapit h2
    let (P, b) ← commit sx P W xid
    if xcid then
      let (c, _) ← P.tobytes
      return .ok (T, b, some c)
    else return .ok (T, b, none)

/-- `mpin.rs` 492-495: the commitment without date. -/
def client1Plain (sx : BIG) (P T : ECP) (xid : Bool) :
    Option (Except Int (ECP × Option (List UInt8) × Option (List UInt8))) :=
  if xid then do
    let P ← pair.g1mul P sx
    let (b, _) ← P.tobytes
    return .ok (T, some b, none)
  else return .ok (T, none, none)

/-- `mpin.rs` 447-500 `client_1`; `xid` and `xcid` say which optional buffers are there. -/
def client_1 (sha date : Nat) (client_id : List UInt8) (rng : Option RAND) (x : List UInt8) (pin : Nat)
    (token : List UInt8) (xid xcid : Bool) (permit : Option (List UInt8)) : Option (Except Int Client1) := do
  let (sx, x, rng) ← pick rng x
  let h ← hashed sha 0 client_id
  let P ← ECP.mapit h
  let T ← ECP.frombytes token
  if ← T.is_infinity then return .error INVALID_POINT
  else
    let W ← P.pinmul ((asI32 pin).tmod MAXPIN) PBLEN
    let T ← T.add W
    let r ← if date ≠ 0 then client1Date sha date h sx P T W xid xcid permit else client1Plain sx P T xid
    match r with
    | .error e => return .error e
    | .ok (T, b, c) =>
      let (sec, _) ← T.tobytes
      return .ok ⟨x, sec, b, c, rng⟩

/-- `mpin.rs` 504-520 `server_1`: `hid`, and `htid` if the buffer is there (`want`) and there is a date. -/
def server_1 (sha date : Nat) (cid : List UInt8) (want : Bool) : Option (List UInt8 × Option (List UInt8)) := do
  let h ← hashed sha 0 cid
  let P ← ECP.mapit h
  let (hid, P) ← P.tobytes
  if date ≠ 0 then
    let h2 ← hashed sha date h
    let R ← ECP.mapit h2
    let P ← P.add R
    if want then
      let (htid, _) ← P.tobytes
      return (hid, some htid)
    else return (hid, none)
  else return (hid, none)

/-- `mpin.rs` 524-540 `client_2`: the new `sec`. -/
def client_2 (x y sec : List UInt8) : Option (Except Int (List UInt8)) := do
  let P ← ECP.frombytes sec
  if ← P.is_infinity then return .error INVALID_POINT
  else
    let px ← BIG.frombytes x
    let py ← BIG.frombytes y
    let px ← px.add py
    let px ← px.rmod rom.CURVE_ORDER
    let P ← pair.g1mul P px
    let P ← P.neg
    let (b, _) ← P.tobytes
    return .ok b

/-- `mpin.rs` 549-562 `get_y`. -/
def get_y (sha timevalue : Nat) (xcid : List UInt8) : Option (List UInt8) := do
  let h ← hashed sha timevalue xcid
  let sy ← BIG.frombytes h
  let sy ← sy.rmod rom.CURVE_ORDER
  sy.tobytes

/-- Decoding of a string that may be missing: `BAD_PARAMS` if it is missing, `INVALID_POINT` for infinity, as in
`mpin.rs` 574-581 and 585-592. -/
def decodeOpt (b : Option (List UInt8)) : Option (Except Int ECP) :=
  match b with
  | none => return .error BAD_PARAMS
  | some b => do
    let R ← ECP.frombytes b
    if ← R.is_infinity then return .error INVALID_POINT else return .ok R

/-- `mpin.rs` 612-619: the point for the second string after a failure. `none` (inside) for infinity. -/
def failPoint (date : Nat) (hid xid : List UInt8) (sy : BIG) (P : ECP) : Option (Option ECP) :=
  if date ≠ 0 then do
    let P ← ECP.frombytes hid
    if ← P.is_infinity then return none
    else
      let R ← ECP.frombytes xid
      if ← R.is_infinity then return none
      else
        let P ← pair.g1mul P sy
        let P ← P.add R
        let P ← P.affine
        return some P
  else return some P

/-- `mpin.rs` 607-628: the strings `e` and `f` written after a failure, and the status. -/
def failure (date : Nat) (hid : List UInt8) (xid : Option (List UInt8)) (sy : BIG) (Q : ECP2) (P : ECP) (g : FP12)
    (wantE wantF : Bool) : Option (Int × Option (List UInt8 × List UInt8)) :=
  match xid with
  | some xid =>
    if wantE && wantF then do
      let e ← g.tobytes
      match ← failPoint date hid xid sy P with
      | none => return (INVALID_POINT, none)
      | some P =>
        let g ← pair.ate Q P
        let g ← pair.fexp g
        let f ← g.tobytes
        return (BAD_PIN, some (e, f))
    else return (BAD_PIN, none)
  | none => return (BAD_PIN, none)

/-- `mpin.rs` 566-632 `server_2`: the status, and the strings `e`, `f` if they were written. -/
def server_2 (date : Nat) (hid : List UInt8) (htid : Option (List UInt8)) (y sst : List UInt8)
    (xid xcid : Option (List UInt8)) (msec : List UInt8) (wantE wantF : Bool) :
    Option (Int × Option (List UInt8 × List UInt8)) := do
  let Q ← ECP2.generator
  let sQ ← ECP2.frombytes sst
  if ← sQ.is_infinity then return (INVALID_POINT, none)
  else
    match ← decodeOpt (if date ≠ 0 then xcid else xid) with
    | .error c => return (c, none)
    | .ok R =>
      let sy ← BIG.frombytes y
      match ← decodeOpt (if date ≠ 0 then htid else some hid) with
      | .error c => return (c, none)
      | .ok P =>
        let P ← pair.g1mul P sy
        let P ← P.add R
        let P ← P.affine
        let R ← ECP.frombytes msec
        if ← R.is_infinity then return (INVALID_POINT, none)
        else
          let g ← pair.ate2 Q R sQ P
          let g ← pair.fexp g
          let (u, g) ← g.isunity
          if u then return (0, none)
          else failure date hid xid sy Q P g wantE wantF

/-- `mpin.rs` 641-648: the table, for `n` further entries; `t` and the distances double. -/
def kanTable : Nat → FP12 → Int → Option (List (FP12 × Int))
  | 0, _, _ => some []
  | n + 1, t, s => do
    let t' ← t.usqr
    return (t, s) :: (← kanTable n t' (s * 2))

/-- `mpin.rs` 653 and 663: the index of the next jump. -/
def kanIndex (t : FP12) : Option Nat := do
  let a ← t.a.a.geta
  let (l, _) ← a.lastbits 20
  return (l % TS).toNat

/-- `mpin.rs` 652-656: `n` jumps of the tame kangaroo. -/
def kanTame (table : List (FP12 × Int)) : Nat → FP12 → Int → Option (FP12 × Int)
  | 0, t, dn => some (t, dn)
  | n + 1, t, dn => do
    let i ← kanIndex t
    let (m, d) ← table[i]?
    let t ← t.mul m
    kanTame table n t (dn + d)

/-- `mpin.rs` 660-675: the wild kangaroo, with `k` steps to go. The result is `res` and `dm`; `none` for `res` if the
loop ends because of its bounds. -/
def kanWild (table : List (FP12 × Int)) (dn : Int) : Nat → FP12 → FP12 → FP12 → Int → Option (Option Int × Int)
  | 0, _, _, _, dm => some (none, dm)
  | k + 1, ge, t, gf, dm =>
    if dm - dn < MAXPIN then do
      let i ← kanIndex ge
      let (m, d) ← table[i]?
      let ge ← ge.mul m
      let dm := dm + d
      let (b, ge, t) ← ge.equalsM t
      if b then return (some (dm - dn), dm)
      else
        let (b, ge, gf) ← ge.equalsM gf
        if b then return (some (dn - dm), dm)
        else kanWild table dn k ge t gf dm
    else some (none, dm)

/-- `mpin.rs` 635-678 `kangaroo`. The counter `steps` exceeds `4*TRAP` if and only if `4*TRAP` rounds are over and the
distance has not reached the bound; in both cases the result is 0. -/
def kangaroo (e f : List UInt8) : Option Int := do
  let ge ← FP12.frombytes e
  let gf ← FP12.frombytes f
  let table ← kanTable TS gf 1
  let t ← FP12.new_int 1
  let (t, dn) ← kanTame table TRAP t 0
  let gf ← t.conj
  let (res, dm) ← kanWild table dn (4 * TRAP) ge t gf 0
  match res with
  | none => return 0
  | some n => return if dm - dn ≥ MAXPIN then 0 else n

/-- `mpin.rs` 682-709 `hash_all` on a buffer of 48 bytes. `none` for an index out of bounds. -/
def hash_all (sha : Nat) (hid xid : List UInt8) (xcid : Option (List UInt8)) (sec y r w h : List UInt8) :
    Option (Bool × List UInt8) :=
  let t := hid ++ xcid.getD xid ++ sec ++ y ++ r ++ w
  if t.length > 484 then none
  else if t.length ≠ 484 then return (false, h)
  else hashit sha 0 t h

/-- `mpin.rs` 714-766 `client_key`: the key; `none` inside if `sha` is not a name (the buffer is then unchanged). -/
def client_key (sha : Nat) (g1 g2 : List UInt8) (pin : Nat) (r x h wcid : List UInt8) :
    Option (Except Int (Option (List UInt8))) := do
  let g1 ← FP12.frombytes g1
  let g2 ← FP12.frombytes g2
  let z ← BIG.frombytes r
  let x ← BIG.frombytes x
  let h ← BIG.frombytes h
  let W ← ECP.frombytes wcid
  if ← W.is_infinity then return .error INVALID_POINT
  else
    let W ← pair.g1mul W x
    let z ← z.add h
    let z ← z.rmod rom.CURVE_ORDER
    let g2 ← g2.pinpow (asI32 pin) PBLEN
    let g1 ← g1.mul g2
    let c ← g1.compow z rom.CURVE_ORDER
    return .ok (← hash sha c W)

/-- `mpin.rs` 771-802 `server_key`: the key; `none` inside if `sha` is not a name (the buffer is then unchanged). -/
def server_key (sha : Nat) (z sst w h hid xid : List UInt8) (xcid : Option (List UInt8)) :
    Option (Except Int (Option (List UInt8))) := do
  let sQ ← ECP2.frombytes sst
  if ← sQ.is_infinity then return .error INVALID_POINT
  else
    let R ← ECP.frombytes z
    if ← R.is_infinity then return .error INVALID_POINT
    else
      let A ← ECP.frombytes hid
      if ← A.is_infinity then return .error INVALID_POINT
      else
        let U ← ECP.frombytes (xcid.getD xid)
        if ← U.is_infinity then return .error INVALID_POINT
        else
          let w ← BIG.frombytes w
          let h ← BIG.frombytes h
          let A ← pair.g1mul A h
          let R ← R.add A
          let R ← R.affine
          let U ← pair.g1mul U w
          let g ← pair.ate sQ R
          let g ← pair.fexp g
          let c ← g.trace
          return .ok (← hash sha c U)

end mpin

end Amcl
