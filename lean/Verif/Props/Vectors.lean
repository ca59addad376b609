import Verif.Props.Sha3
import Verif.Props.Gcm
import Verif.Props.Ecdh
/-!
# Published test vectors of the specifications

The specifications of hash functions, ciphers and derivation functions are trusted to be the standards they cite. Each
theorem here says that such a specification has the value of a published test vector. The value is found by evaluating
the model and carried over by the theorem that the model computes the specification, so it also is one more check of
the model. These are checks of single values: they guard the trusted base, they are not the claims.
-/

namespace Props
open Amcl Amcl.AES Amcl.GCM Amcl.ecdh Spec.Keccak

/-! ## Evaluation

The kernel does not evaluate the loops of the model that are fixed points. The definitions here are the same loops with
a bound on the number of rounds. `Below` says that what they return the model returns. -/

/-- What `a` returns `b` returns. -/
structure Below {α : Type} (a b : Option α) : Prop where
  get : ∀ {y}, a = some y → b = some y

theorem Below.same {α : Type} (a : Option α) : Below a a := ⟨fun h => h⟩

theorem Below.none {α : Type} (b : Option α) : Below none b := ⟨fun h => nomatch h⟩

theorem Below.bind {α β : Type} {a b : Option α} {f g : α → Option β} (h : Below a b) (h' : ∀ x, Below (f x) (g x)) :
    Below (a >>= f) (b >>= g) := by
  refine ⟨fun {y} hy => ?_⟩
  obtain ⟨x, e, e'⟩ := Option.bind_eq_some_iff.1 hy
  exact Option.bind_eq_some_iff.2 ⟨x, h.get e, (h' x).get e'⟩

/-- Two computations of the same shape. -/
macro "below" "[" i:term,* "]" : tactic => do
  let ts := i.getElems
  `(tactic| repeat' (first
    | with_reducible exact Below.none _ | with_reducible exact Below.same _ $[| with_reducible exact $ts]*
    | (with_reducible apply Below.bind) | (rintro ⟨_, _, _, _⟩) | (rintro ⟨_, _, _⟩) | (rintro ⟨_, _⟩) | (intro _) | dsimp only | split))

/-- `SHA3.padLoop` with at most `n` rounds. -/
def padFuel : Nat → SHA3 → Option SHA3
  | 0, _ => none
  | n + 1, t => do
    if t.rate = 0 then none
    if t.length % t.rate = t.rate - 1 then return t
    let t ← SHA3.process t 0x00
    padFuel n t

theorem padFuel_below : ∀ n t, Below (padFuel n t) (SHA3.padLoop t)
  | 0, _ => Below.none _
  | n + 1, t => by
    rw [SHA3.padLoop, padFuel]
    below [padFuel_below n _]

/-- `SHA3.squeezeLoop` with at most `n` rounds. -/
def squeezeFuel (olen : Nat) : Nat → SHA3 → List UInt8 → Nat → Option (List UInt8 × SHA3)
  | 0, _, _, _ => none
  | n + 1, t, buff, m => do
    let (buff, m) ← SHA3.squeezeAll t.s t.rate olen 5 0 buff m
    if olen ≤ m then return (buff, t)
    let t ← SHA3.transform t
    squeezeFuel olen n t buff m

theorem squeezeFuel_below (olen : Nat) : ∀ n t b m, Below (squeezeFuel olen n t b m) (SHA3.squeezeLoop t olen b m)
  | 0, _, _, _ => Below.none _
  | n + 1, t, b, m => by
    rw [SHA3.squeezeLoop, squeezeFuel]
    below [squeezeFuel_below olen n _ _ _]

/-- `SHA3.hash` and `SHA3.shake` with at most 200 rounds of padding. -/
def finalFuel (t : SHA3) (one two : UInt8) (buff : List UInt8) (olen : SHA3 → Nat) : Option (List UInt8 × SHA3) := do
  let t ← (do
    if t.rate = 0 then none
    let q := t.rate - t.length % t.rate
    if q = 1 then SHA3.process t one
    else
      let t ← SHA3.process t two
      let t ← padFuel 200 t
      SHA3.process t 0x80)
  squeezeFuel (olen t) 4 t buff 0

theorem finalFuel_below (t : SHA3) (one two : UInt8) (buff : List UInt8) (olen : SHA3 → Nat) :
    Below (finalFuel t one two buff olen) (do
      let t ← SHA3.pad t one two
      SHA3.squeeze t buff (olen t)) := by
  unfold finalFuel SHA3.squeeze SHA3.pad
  below [padFuel_below 200 _, squeezeFuel_below _ 4 _ _ _]

/-- `AES.expand` with at most `c` rounds. -/
def expandFuel (nk n : Nat) : Nat → Nat → Nat → Vector UInt32 60 → Option (Vector UInt32 60)
  | 0, _, _, _ => none
  | f + 1, j, k, w => do
    if j < n then
      if j < nk then none
      if j < 1 then none
      let x ← w[j - nk]?
      let y ← w[j - 1]?
      let c ← RCO[k]?
      let w ← HASH256.setAt w j (x ^^^ subbyte (rotl24 y) ^^^ c.toUInt32)
      let w ← expandRow nk n j (nk - 1) 1 w
      expandFuel nk n f (j + nk) (k + 1) w
    else return w

theorem expandFuel_below (nk n : Nat) : ∀ f j k w, Below (expandFuel nk n f j k w) (expand nk n j k w)
  | 0, _, _, _ => Below.none _
  | f + 1, j, k, w => by
    rw [expand, expandFuel]
    below [expandFuel_below nk n f _ _ _]

/-- `AES.reverse` with at most `f` rounds. -/
def reverseFuel (n : Nat) (w : Vector UInt32 60) : Nat → Nat → Vector UInt32 60 → Option (Vector UInt32 60)
  | 0, _, _ => none
  | f + 1, i, r => do
    if n < 4 then none
    if i < n - 4 then
      let r ← four invmixcol w i (n - 4 - i) r
      reverseFuel n w f (i + 4) r
    else return r

theorem reverseFuel_below (n : Nat) (w : Vector UInt32 60) : ∀ f i r, Below (reverseFuel n w f i r) (reverse n w i r)
  | 0, _, _ => Below.none _
  | f + 1, i, r => by
    rw [AES.reverse, reverseFuel]
    below [reverseFuel_below n w f _ _]

/-- `AES.init` with at most 16 rounds. -/
def aesFuel (a : AES) (m nkey : Nat) (key : List UInt8) (iv : Option (Vector UInt8 16)) : Option (AES × Bool) := do
  let nk := nkey / 4
  if nk ≠ 4 ∧ nk ≠ 6 ∧ nk ≠ 8 then return (a, false)
  let nr := 6 + nk
  let a := reset { a with nk := nk, nr := nr } m iv
  let n := 4 * (nr + 1)
  let w ← loadKey key nk 0 a.fkey
  let w ← expandFuel nk n 16 nk 0 w
  let r ← four id w 0 (n - 4) a.rkey
  let r ← reverseFuel n w 16 4 r
  let r ← four id w (n - 4) 0 r
  return ({ a with fkey := w, rkey := r }, true)

theorem aesFuel_below (a : AES) (m nkey : Nat) (key : List UInt8) (iv : Option (Vector UInt8 16)) :
    Below (aesFuel a m nkey key iv) (AES.init a m nkey key iv) := by
  unfold aesFuel AES.init
  below [expandFuel_below _ _ _ _ _ _, reverseFuel_below _ _ _ _ _]

/-- `GCM.headerLoop` with at most `f` rounds. -/
def headerFuel (header : List UInt8) (len : Nat) : Nat → Nat → GCM → Option GCM
  | 0, _, _ => none
  | f + 1, j, g => do
    if j < len then
      let (j, s, l) ← absorbBlock false header len 16 0 j g.statex g.lena
      let g ← gf2mul false { g with statex := s, lena := l }
      headerFuel header len f j g
    else return g

theorem headerFuel_below (header : List UInt8) (len : Nat) : ∀ f j g, Below (headerFuel header len f j g) (headerLoop false header len j g)
  | 0, _, _ => Below.none _
  | f + 1, j, g => by
    rw [headerLoop, headerFuel]
    below [headerFuel_below header len f _ _]

/-- `GCM.plainLoop` with at most `f` rounds. -/
def plainFuel (plain : List UInt8) (len : Nat) : Nat → Nat → List UInt8 → GCM → Option (GCM × List UInt8)
  | 0, _, _, _ => none
  | f + 1, j, cipher, g => do
    if j < len then
      let (g, cb) ← keystream false g
      let (cipher, j, s, l) ← plainBlock false plain len cb 16 0 j cipher g.statex g.lenc
      let g ← gf2mul false { g with statex := s, lenc := l }
      plainFuel plain len f j cipher g
    else return (g, cipher)

theorem plainFuel_below (plain : List UInt8) (len : Nat) : ∀ f j c g, Below (plainFuel plain len f j c g) (plainLoop false plain len j c g)
  | 0, _, _, _ => Below.none _
  | f + 1, j, c, g => by
    rw [plainLoop, plainFuel]
    below [plainFuel_below plain len f _ _ _]

/-- `GCM.init` for an initialization vector of twelve bytes. -/
def gcmFuel (nk : Nat) (key : List UInt8) (niv : Nat) (iv : List UInt8) : Option GCM := do
  let g := { GCM.new with statex := Vector.replicate 16 0 }
  let (a, _) ← aesFuel AES.new AES.ECB nk key none
  let h ← AES.ecb_encrypt a (Vector.replicate 16 0)
  let g ← precompute { g with a := a } h
  let g := { g with lena := Vector.replicate 2 0, lenc := Vector.replicate 2 0 }
  if niv = 12 then
    let v ← take12 iv
    let b := GCM.unpack 1
    let f : Vector UInt8 16 := #v[v[0], v[1], v[2], v[3], v[4], v[5], v[6], v[7], v[8], v[9], v[10], v[11],
      b[0], b[1], b[2], b[3]]
    return { g with a := { g.a with f := f }, y_0 := f, status := ACCEPTING_HEADER }
  else none

theorem gcmFuel_below (nk : Nat) (key : List UInt8) (niv : Nat) (iv : List UInt8) :
    Below (gcmFuel nk key niv iv) (GCM.init false GCM.new nk key niv iv) := by
  unfold gcmFuel GCM.init
  below [aesFuel_below _ _ _ _ _]

/-- `encryptMsg` with one piece each, of at most seven blocks. -/
def msgFuel (nk : Nat) (key iv h p : List UInt8) : Option (List UInt8 × Vector UInt8 16) := do
  let g ← gcmFuel nk key iv.length iv
  let g ← (do
    let (g, ok) ← (do
      if g.status ≠ ACCEPTING_HEADER then return (g, false)
      let g ← headerFuel h h.length 8 0 g
      return (if h.length % 16 ≠ 0 then { g with status := ACCEPTING_CIPHER } else g, true))
    if ok then some g else none)
  let (g, c) ← (do
    let (g, c, ok) ← (do
      let g := if g.status = ACCEPTING_HEADER then { g with status := ACCEPTING_CIPHER } else g
      if g.status ≠ ACCEPTING_CIPHER then return (g, List.replicate p.length 0, false)
      let (g, cipher) ← plainFuel p p.length 8 0 (List.replicate p.length 0) g
      return (if p.length % 16 ≠ 0 then { g with status := NOT_ACCEPTING_MORE } else g, cipher, true))
    if ok then
      let (g, cs) ← some (g, [])
      return (g, c ++ cs)
    else none)
  let (_, t) ← finish false g true
  return (c, t)

theorem msgFuel_below (nk : Nat) (key iv h p : List UInt8) : Below (msgFuel nk key iv h p) (encryptMsg false nk key iv [h] [p]) := by
  unfold msgFuel encryptMsg addHeaders addHeaders addPlains addPlains add_header add_plain
  below [gcmFuel_below _ _ _ _, headerFuel_below _ _ _ _ _, plainFuel_below _ _ _ _ _ _]

/-! ## The vectors -/

/-- FIPS 202: `SHA3-256` of `abc`. -/
theorem vector_sha3 : sha3 256 [0x61, 0x62, 0x63] = bits [0x3a, 0x98, 0x5d, 0xa7, 0x4f, 0xe2, 0x25, 0xb2, 0x04, 0x5c, 0x17, 0x2d, 0x6b, 0xd3,
    0x90, 0xbd, 0x85, 0x5f, 0x08, 0x6e, 0x3e, 0x9d, 0x52, 0x5b, 0x46, 0xbf, 0xe2, 0x45, 0x11, 0x43, 0x15, 0x32] := by
  have h : (do
      let t ← SHA3.init ⟨0, 0, 0, Vector.replicate 5 (Vector.replicate 5 0)⟩ 32
      let t ← [0x61, 0x62, 0x63].foldlM SHA3.process t
      let (d, _) ← finalFuel t 0x86 0x06 (List.replicate 32 0) SHA3.len
      pure d) = some [0x3a, 0x98, 0x5d, 0xa7, 0x4f, 0xe2, 0x25, 0xb2, 0x04, 0x5c, 0x17, 0x2d, 0x6b, 0xd3, 0x90, 0xbd, 0x85, 0x5f, 0x08, 0x6e,
          0x3e, 0x9d, 0x52, 0x5b, 0x46, 0xbf, 0xe2, 0x45, 0x11, 0x43, 0x15, 0x32] := by decide +kernel
  obtain ⟨t1, t2, t3, d, e1, e2, e3, h1, -, h3⟩ := C60_hash ⟨0, 0, 0, Vector.replicate 5 (Vector.replicate 5 0)⟩ 32 (by decide)
    [0x61, 0x62, 0x63] (List.replicate 32 0) (by decide) (by decide)
  rw [e1, Option.bind_eq_bind, Option.bind_some, e2, Option.bind_eq_bind, Option.bind_some] at h
  obtain ⟨⟨d', t'⟩, e4, e5⟩ := Option.bind_eq_some_iff.1 h
  have e6 := (finalFuel_below _ _ _ _ _).get e4
  unfold SHA3.hash at e3
  rw [e3] at e6
  have hd : d = [0x3a, 0x98, 0x5d, 0xa7, 0x4f, 0xe2, 0x25, 0xb2, 0x04, 0x5c, 0x17, 0x2d, 0x6b, 0xd3, 0x90, 0xbd, 0x85, 0x5f, 0x08, 0x6e, 0x3e,
      0x9d, 0x52, 0x5b, 0x46, 0xbf, 0xe2, 0x45, 0x11, 0x43, 0x15, 0x32] := (congrArg Prod.fst (Option.some.inj e6)).trans (Option.some.inj e5)
  rw [← h1, hd]
  rfl

/-- FIPS 202: `SHAKE128` of the empty string, 256 bits. -/
theorem vector_shake : shake 128 [] 256 = bits [0x7f, 0x9c, 0x2b, 0xa4, 0xe8, 0x8f, 0x82, 0x7d, 0x61, 0x60, 0x45, 0x50, 0x76, 0x05, 0x85, 0x3e,
    0xd7, 0x3b, 0x80, 0x93, 0xf6, 0xef, 0xbc, 0x88, 0xeb, 0x1a, 0x6e, 0xac, 0xfa, 0x66, 0xef, 0x26] := by
  have h : (do
      let t ← SHA3.init ⟨0, 0, 0, Vector.replicate 5 (Vector.replicate 5 0)⟩ 16
      let t ← [].foldlM SHA3.process t
      let (d, _) ← finalFuel t 0x9f 0x1f (List.replicate 32 0) fun _ => 32
      pure d) = some [0x7f, 0x9c, 0x2b, 0xa4, 0xe8, 0x8f, 0x82, 0x7d, 0x61, 0x60, 0x45, 0x50, 0x76, 0x05, 0x85, 0x3e, 0xd7, 0x3b, 0x80, 0x93,
          0xf6, 0xef, 0xbc, 0x88, 0xeb, 0x1a, 0x6e, 0xac, 0xfa, 0x66, 0xef, 0x26] := by decide +kernel
  obtain ⟨t1, t2, t3, d, e1, e2, e3, h1, -, h3⟩ := C60_shake ⟨0, 0, 0, Vector.replicate 5 (Vector.replicate 5 0)⟩ 16 (by decide)
    [] (List.replicate 32 0) 32 (by decide) (by decide) (by decide)
  rw [e1, Option.bind_eq_bind, Option.bind_some, e2, Option.bind_eq_bind, Option.bind_some] at h
  obtain ⟨⟨d', t'⟩, e4, e5⟩ := Option.bind_eq_some_iff.1 h
  have e6 := (finalFuel_below _ _ _ _ _).get e4
  unfold SHA3.shake at e3
  rw [e3] at e6
  have hd : d = [0x7f, 0x9c, 0x2b, 0xa4, 0xe8, 0x8f, 0x82, 0x7d, 0x61, 0x60, 0x45, 0x50, 0x76, 0x05, 0x85, 0x3e, 0xd7, 0x3b, 0x80, 0x93, 0xf6,
      0xef, 0xbc, 0x88, 0xeb, 0x1a, 0x6e, 0xac, 0xfa, 0x66, 0xef, 0x26] := (congrArg Prod.fst (Option.some.inj e6)).trans (Option.some.inj e5)
  rw [← h1, hd]
  rfl

/-- The key bytes `00 01 02 …` of the examples of FIPS 197. -/
def fipsKey (n : Nat) : List UInt8 := (List.range n).map UInt8.ofNat

/-- The plaintext `00 11 22 … ff` of the examples of FIPS 197. -/
def fipsText : Vector UInt8 16 := Vector.ofFn fun i => UInt8.ofNat (17 * i)

/-- FIPS 197, appendix C.1: AES-128. -/
theorem vector_aes128 : Spec.AES.encrypt 4 (keyBytes (fipsKey 16)) (blk fipsText) =
    blk #v[0x69, 0xc4, 0xe0, 0xd8, 0x6a, 0x7b, 0x04, 0x30, 0xd8, 0xcd, 0xb7, 0x80, 0x70, 0xb4, 0xc5, 0x5a] := by
  have h : (do
      let (a, _) ← aesFuel AES.new 0 16 (fipsKey 16) none
      ecb_encrypt a fipsText) = some #v[0x69, 0xc4, 0xe0, 0xd8, 0x6a, 0x7b, 0x04, 0x30, 0xd8, 0xcd, 0xb7, 0x80, 0x70, 0xb4, 0xc5,
          0x5a] := by decide +kernel
  obtain ⟨a, e, -, -, h1⟩ := C61_aes AES.new 0 16 (fipsKey 16) none (by decide) (by decide)
  obtain ⟨⟨c, e1, h2⟩, -⟩ := h1 fipsText
  obtain ⟨⟨b, ok⟩, e4, e5⟩ := Option.bind_eq_some_iff.1 h
  have e6 := (aesFuel_below _ _ _ _ _).get e4
  rw [e] at e6
  dsimp only at e5
  obtain rfl := congrArg Prod.fst (Option.some.inj e6)
  rw [← h2, Option.some.inj (e1.symm.trans e5)]

/-- FIPS 197, appendix C.2: AES-192. -/
theorem vector_aes192 : Spec.AES.encrypt 6 (keyBytes (fipsKey 24)) (blk fipsText) =
    blk #v[0xdd, 0xa9, 0x7c, 0xa4, 0x86, 0x4c, 0xdf, 0xe0, 0x6e, 0xaf, 0x70, 0xa0, 0xec, 0x0d, 0x71, 0x91] := by
  have h : (do
      let (a, _) ← aesFuel AES.new 0 24 (fipsKey 24) none
      ecb_encrypt a fipsText) = some #v[0xdd, 0xa9, 0x7c, 0xa4, 0x86, 0x4c, 0xdf, 0xe0, 0x6e, 0xaf, 0x70, 0xa0, 0xec, 0x0d, 0x71,
          0x91] := by decide +kernel
  obtain ⟨a, e, -, -, h1⟩ := C61_aes AES.new 0 24 (fipsKey 24) none (by decide) (by decide)
  obtain ⟨⟨c, e1, h2⟩, -⟩ := h1 fipsText
  obtain ⟨⟨b, ok⟩, e4, e5⟩ := Option.bind_eq_some_iff.1 h
  have e6 := (aesFuel_below _ _ _ _ _).get e4
  rw [e] at e6
  dsimp only at e5
  obtain rfl := congrArg Prod.fst (Option.some.inj e6)
  rw [← h2, Option.some.inj (e1.symm.trans e5)]

/-- The Galois/Counter Mode of Operation (McGrew, Viega), test case 4: 60 bytes of plaintext, 20 of additional data. -/
theorem vector_gcm : Spec.GCM.authEnc (Spec.AES.encrypt 4 (keyBytes [0xfe, 0xff, 0xe9, 0x92, 0x86, 0x65, 0x73, 0x1c, 0x6d, 0x6a, 0x8f, 0x94,
    0x67, 0x30, 0x83, 0x08]))
      (bv [0xca, 0xfe, 0xba, 0xbe, 0xfa, 0xce, 0xdb, 0xad, 0xde, 0xca, 0xf8, 0x88]) (bv [0xfe, 0xed, 0xfa, 0xce, 0xde, 0xad, 0xbe, 0xef, 0xfe,
          0xed, 0xfa, 0xce, 0xde, 0xad, 0xbe, 0xef, 0xab, 0xad, 0xda, 0xd2])
      (bv [0xd9, 0x31, 0x32, 0x25, 0xf8, 0x84, 0x06, 0xe5, 0xa5, 0x59, 0x09, 0xc5, 0xaf, 0xf5, 0x26, 0x9a, 0x86, 0xa7, 0xa9, 0x53, 0x15, 0x34,
          0xf7, 0xda, 0x2e, 0x4c, 0x30, 0x3d, 0x8a, 0x31, 0x8a, 0x72, 0x1c, 0x3c, 0x0c, 0x95, 0x95, 0x68, 0x09, 0x53, 0x2f, 0xcf, 0x0e, 0x24,
          0x49, 0xa6, 0xb5, 0x25, 0xb1, 0x6a, 0xed, 0xf5, 0xaa, 0x0d, 0xe6, 0x57, 0xba, 0x63, 0x7b, 0x39]) =
    (bv [0x42, 0x83, 0x1e, 0xc2, 0x21, 0x77, 0x74, 0x24, 0x4b, 0x72, 0x21, 0xb7, 0x84, 0xd0, 0xd4, 0x9c, 0xe3, 0xaa, 0x21, 0x2f, 0x2c, 0x02,
        0xa4, 0xe0, 0x35, 0xc1, 0x7e, 0x23, 0x29, 0xac, 0xa1, 0x2e, 0x21, 0xd5, 0x14, 0xb2, 0x54, 0x66, 0x93, 0x1c, 0x7d, 0x8f, 0x6a, 0x5a, 0xac,
        0x84, 0xaa, 0x05, 0x1b, 0xa3, 0x0b, 0x39, 0x6a, 0x0a, 0xac, 0x97, 0x3d, 0x58, 0xe0, 0x91],
      blk #v[0x5b, 0xc9, 0x4f, 0xbc, 0x32, 0x21, 0xa5, 0xdb, 0x94, 0xfa, 0xe9, 0x5a, 0xe7, 0x12, 0x1a, 0x47]) := by
  have h : msgFuel 16 [0xfe, 0xff, 0xe9, 0x92, 0x86, 0x65, 0x73, 0x1c, 0x6d, 0x6a, 0x8f, 0x94, 0x67, 0x30, 0x83, 0x08] [0xca, 0xfe, 0xba, 0xbe,
      0xfa, 0xce, 0xdb, 0xad, 0xde, 0xca, 0xf8, 0x88]
      [0xfe, 0xed, 0xfa, 0xce, 0xde, 0xad, 0xbe, 0xef, 0xfe, 0xed, 0xfa, 0xce, 0xde, 0xad, 0xbe, 0xef, 0xab, 0xad, 0xda, 0xd2]
      [0xd9, 0x31, 0x32, 0x25, 0xf8, 0x84, 0x06, 0xe5, 0xa5, 0x59, 0x09, 0xc5, 0xaf, 0xf5, 0x26, 0x9a, 0x86, 0xa7, 0xa9, 0x53, 0x15, 0x34, 0xf7,
          0xda, 0x2e, 0x4c, 0x30, 0x3d, 0x8a, 0x31, 0x8a, 0x72, 0x1c, 0x3c, 0x0c, 0x95, 0x95, 0x68, 0x09, 0x53, 0x2f, 0xcf, 0x0e, 0x24, 0x49,
          0xa6, 0xb5, 0x25, 0xb1, 0x6a, 0xed, 0xf5, 0xaa, 0x0d, 0xe6, 0x57, 0xba, 0x63, 0x7b, 0x39] =
    some ([0x42, 0x83, 0x1e, 0xc2, 0x21, 0x77, 0x74, 0x24, 0x4b, 0x72, 0x21, 0xb7, 0x84, 0xd0, 0xd4, 0x9c, 0xe3, 0xaa, 0x21, 0x2f, 0x2c, 0x02,
        0xa4, 0xe0, 0x35, 0xc1, 0x7e, 0x23, 0x29, 0xac, 0xa1, 0x2e, 0x21, 0xd5, 0x14, 0xb2, 0x54, 0x66, 0x93, 0x1c, 0x7d, 0x8f, 0x6a, 0x5a, 0xac,
        0x84, 0xaa, 0x05, 0x1b, 0xa3, 0x0b, 0x39, 0x6a, 0x0a, 0xac, 0x97, 0x3d, 0x58, 0xe0, 0x91],
      #v[0x5b, 0xc9, 0x4f, 0xbc, 0x32, 0x21, 0xa5, 0xdb, 0x94, 0xfa, 0xe9, 0x5a, 0xe7, 0x12, 0x1a, 0x47]) := by decide +kernel
  obtain ⟨c, t, e, h1⟩ := C63_aes_gcm 16 [0xfe, 0xff, 0xe9, 0x92, 0x86, 0x65, 0x73, 0x1c, 0x6d, 0x6a, 0x8f, 0x94, 0x67, 0x30, 0x83,
      0x08] (by decide) (by decide)
    [0xca, 0xfe, 0xba, 0xbe, 0xfa, 0xce, 0xdb, 0xad, 0xde, 0xca, 0xf8, 0x88] (hs := [[0xfe, 0xed, 0xfa, 0xce, 0xde, 0xad, 0xbe, 0xef, 0xfe, 0xed,
        0xfa, 0xce, 0xde, 0xad, 0xbe, 0xef, 0xab, 0xad, 0xda, 0xd2]])
    (ps := [[0xd9, 0x31, 0x32, 0x25, 0xf8, 0x84, 0x06, 0xe5, 0xa5, 0x59, 0x09, 0xc5, 0xaf, 0xf5, 0x26, 0x9a, 0x86, 0xa7, 0xa9, 0x53, 0x15, 0x34,
        0xf7, 0xda, 0x2e, 0x4c, 0x30, 0x3d, 0x8a, 0x31, 0x8a, 0x72, 0x1c, 0x3c, 0x0c, 0x95, 0x95, 0x68, 0x09, 0x53, 0x2f, 0xcf, 0x0e, 0x24, 0x49,
        0xa6, 0xb5, 0x25, 0xb1, 0x6a, 0xed, 0xf5, 0xaa, 0x0d, 0xe6, 0x57, 0xba, 0x63, 0x7b, 0x39]])
    (by unfold Chunked; decide) (by unfold Chunked; decide)
  have h := (msgFuel_below _ _ _ _ _).get h
  rw [e] at h
  have h2 := Option.some.inj h
  rw [Prod.mk.injEq] at h2
  rw [h2.1, h2.2] at h1
  exact h1.symm

/-- RFC 4231, 4.3: HMAC with SHA-256, SHA-384 and SHA-512. -/
theorem vector_hmac :
    Spec.Kdf.hmac 32 "Jefe".toUTF8.toList "what do ya want for nothing?".toUTF8.toList =
      [0x5b, 0xdc, 0xc1, 0x46, 0xbf, 0x60, 0x75, 0x4e, 0x6a, 0x04, 0x24, 0x26, 0x08, 0x95, 0x75, 0xc7, 0x5a, 0x00, 0x3f, 0x08, 0x9d, 0x27, 0x39,
          0x83, 0x9d, 0xec, 0x58, 0xb9, 0x64, 0xec, 0x38, 0x43] ∧
    Spec.Kdf.hmac 48 "Jefe".toUTF8.toList "what do ya want for nothing?".toUTF8.toList =
      [0xaf, 0x45, 0xd2, 0xe3, 0x76, 0x48, 0x40, 0x31, 0x61, 0x7f, 0x78, 0xd2, 0xb5, 0x8a, 0x6b, 0x1b, 0x9c, 0x7e, 0xf4, 0x64, 0xf5, 0xa0, 0x1b,
          0x47, 0xe4, 0x2e, 0xc3, 0x73, 0x63, 0x22, 0x44, 0x5e, 0x8e, 0x22, 0x40, 0xca, 0x5e, 0x69, 0xe2, 0xc7, 0x8b, 0x32, 0x39, 0xec, 0xfa,
          0xb2, 0x16, 0x49] ∧
    Spec.Kdf.hmac 64 "Jefe".toUTF8.toList "what do ya want for nothing?".toUTF8.toList =
      [0x16, 0x4b, 0x7a, 0x7b, 0xfc, 0xf8, 0x19, 0xe2, 0xe3, 0x95, 0xfb, 0xe7, 0x3b, 0x56, 0xe0, 0xa3, 0x87, 0xbd, 0x64, 0x22, 0x2e, 0x83, 0x1f,
          0xd6, 0x10, 0x27, 0x0c, 0xd7, 0xea, 0x25, 0x05, 0x54, 0x97, 0x58, 0xbf, 0x75, 0xc0, 0x5a, 0x99, 0x4a, 0x6d, 0x03, 0x4f, 0x65, 0xf8,
          0xf0, 0xe6, 0xfd, 0xca, 0xea, 0xb1, 0xa3, 0x4d, 0x4a, 0x6b, 0x4b, 0x63, 0x6e, 0x07, 0x0a, 0x38, 0xbc, 0xe7, 0x37] := by
  have f : ∀ {sha : Nat} {v : List UInt8}, (sha = 32 ∨ sha = 48 ∨ sha = 64) →
      ecdh.hmac sha "what do ya want for nothing?".toUTF8.toList "Jefe".toUTF8.toList sha (List.replicate sha 0) = some (true, v) →
      Spec.Kdf.hmac sha "Jefe".toUTF8.toList "what do ya want for nothing?".toUTF8.toList = v := by
    intro sha v hs h
    have hl := length_hmac hs (m := "what do ya want for nothing?".toUTF8.toList) (k := "Jefe".toUTF8.toList) (by decide +kernel) (by decide +kernel)
    rw [C67_hmac hs (by decide +kernel) (by decide +kernel) (by omega) (by rw [List.length_replicate]), Nat.sub_self, List.replicate_zero,
        List.nil_append,
      List.take_of_length_le (by omega), List.drop_of_length_le (by rw [List.length_replicate]), List.append_nil] at h
    exact (Prod.mk.inj (Option.some.inj h)).2
  exact ⟨f (by decide) (by decide +kernel), f (by decide) (by decide +kernel), f (by decide) (by decide +kernel)⟩

/-- PBKDF2 of `password` and `salt`: two iterations with SHA-512 and one with SHA-256, 32 bytes. -/
theorem vector_pbkdf2 :
    Spec.Kdf.pbkdf2 64 "password".toUTF8.toList "salt".toUTF8.toList 2 32 =
      [0xe1, 0xd9, 0xc1, 0x6a, 0xa6, 0x81, 0x70, 0x8a, 0x45, 0xf5, 0xc7, 0xc4, 0xe2, 0x15, 0xce, 0xb6, 0x6e, 0x01, 0x1a, 0x2e, 0x9f, 0x00, 0x40,
          0x71, 0x3f, 0x18, 0xae, 0xfd, 0xb8, 0x66, 0xd5, 0x3c] ∧
    Spec.Kdf.pbkdf2 32 "password".toUTF8.toList "salt".toUTF8.toList 1 32 =
      [0x12, 0x0f, 0xb6, 0xcf, 0xfc, 0xf8, 0xb3, 0x2c, 0x43, 0xe7, 0x22, 0x52, 0x56, 0xc4, 0xf8, 0x37, 0xa8, 0x65, 0x48, 0xc9, 0x2c, 0xcc, 0x35,
          0x48, 0x08, 0x05, 0x98, 0x7c, 0xb7, 0x0b, 0xe1, 0x7b] := by
  constructor
  · have h : ecdh.pbkdf2 64 "password".toUTF8.toList "salt".toUTF8.toList 2 32 (List.replicate 32 0) = some [0xe1, 0xd9, 0xc1, 0x6a, 0xa6, 0x81,
      0x70, 0x8a, 0x45, 0xf5, 0xc7, 0xc4, 0xe2, 0x15, 0xce, 0xb6, 0x6e, 0x01, 0x1a, 0x2e, 0x9f, 0x00, 0x40, 0x71, 0x3f, 0x18, 0xae, 0xfd, 0xb8,
          0x66, 0xd5, 0x3c] := by decide +kernel
    rw [C67_pbkdf2_512 (by decide +kernel) (by decide +kernel) 2 (by decide) (by decide), List.drop_of_length_le (by decide), List.append_nil] at h
    exact Option.some.inj h
  · have h : ecdh.pbkdf2 32 "password".toUTF8.toList "salt".toUTF8.toList 1 32 (List.replicate 32 0) = some [0x12, 0x0f, 0xb6, 0xcf, 0xfc, 0xf8,
      0xb3, 0x2c, 0x43, 0xe7, 0x22, 0x52, 0x56, 0xc4, 0xf8, 0x37, 0xa8, 0x65, 0x48, 0xc9, 0x2c, 0xcc, 0x35, 0x48, 0x08, 0x05, 0x98, 0x7c, 0xb7,
          0x0b, 0xe1, 0x7b] := by decide +kernel
    rw [C67_pbkdf2_256 (by decide +kernel) (by decide +kernel) (by decide), List.drop_of_length_le (by decide), List.append_nil] at h
    exact Option.some.inj h

end Props
