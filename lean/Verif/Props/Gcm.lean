import Verif.Proof.Gcm
import Verif.Props.AesModes
/-!
# C63: `gcm.rs` and GCM

The reference is SP 800-38D (`Verif/Spec/Gcm.lean`), for the block cipher `E` that the object uses. `Keyed nk key E` says
that `GCM::init` with the key `key` of length `nk` sets up `E`. The flag `false` stands for a build without checks of the
overflow, `true` for one with them.
-/

namespace Props
open Amcl Amcl.AES Amcl.GCM Spec.AES Spec.Modes Spec.GCM

set_option maxRecDepth 8000

/-- The zero block. -/
def zeroBlock : Block := fun _ => 0

/-- `GCM::init` uses the cipher `E`. -/
def Keyed (nk : Nat) (key : List UInt8) (E : Block → Block) : Prop :=
  ∃ a ok, AES.init AES.new ECB nk key none = some (a, ok) ∧ Enc a E ∧ a.nr ≤ 14

/-- The object has taken the header `A` and the ciphertext `C`, with `J₀ = J`. -/
structure Seen (g : GCM) (E : Block → Block) (J : Block) (A C : List Byte) : Prop where
  enc : Enc g.a E
  nr : g.a.nr ≤ 14
  tab : Tab g.table (toBits (E zeroBlock))
  y0 : blk g.y_0 = J
  f : blk g.a.f = iter inc32 ((C.length + 15) / 16) J
  st : blk g.statex = ghash (E zeroBlock) (blocks A ++ blocks C)
  la : cnt g.lena = A.length % 2 ^ 64
  lc : cnt g.lenc = C.length % 2 ^ 64

/-! ## The ciphers -/

/-- Keys of 16 to 19 and 24 to 27 bytes: AES-128 and AES-192. -/
theorem C63_keyed (nk : Nat) (key : List UInt8) (hnk : nk / 4 = 4 ∨ nk / 4 = 6) (hl : 4 * (nk / 4) ≤ key.length) :
    Keyed nk key (Spec.AES.encrypt (nk / 4) (keyBytes key)) := by
  obtain ⟨⟨a', ok⟩, e, h1, h2⟩ := init_wp AES.new ECB nk key none (by omega) hl (weak_sched (by omega) _)
  rw [weak_eq' (by omega)] at h2
  exact ⟨a', ok, e, fun b => (ready h2 (by omega) b).1, by rw [h2.nr]; omega⟩

/-- Keys of 32 to 35 bytes: not AES-256, but the cipher of `C61_eight_words`. -/
theorem C63_keyed_32 (nk : Nat) (key : List UInt8) (hnk : nk / 4 = 8) (hl : 32 ≤ key.length) :
    Keyed nk key (cipher 14 (weakExpansion 8 (keyBytes key))) := by
  obtain ⟨⟨a', ok⟩, e, h1, h2⟩ := init_wp AES.new ECB nk key none (by omega) (by omega) (weak_sched (by omega) _)
  rw [hnk] at h2
  exact ⟨a', ok, e, fun b => (ready h2 (by omega) b).1, by rw [h2.nr]⟩

theorem new_enc (b : Vector UInt8 16) : ∃ c, ecb_encrypt AES.new b = some c ∧ blk c = cipher 1 (fun _ _ => 0) (blk b) :=
  ecb_encrypt_wp { AES.new with nr := 1 } (w := fun _ _ => 0) (by
    intro i h _
    simp only [AES.new, Vector.getElem_replicate]
    funext r
    simp [byte]) (by decide) (by decide) b

/-- Every other length of the key: `AES::init` refuses it, `GCM::init` does not notice, and the cipher is one round of
AES with round keys 0, which everyone can compute. -/
theorem C63_keyed_bad (nk : Nat) (key : List UInt8) (hnk : ¬ (nk / 4 = 4 ∨ nk / 4 = 6 ∨ nk / 4 = 8)) :
    Keyed nk key (cipher 1 fun _ _ => 0) :=
  ⟨AES.new, false, (C61_init_refuses _ _ _ _ _).2 hnk, new_enc, by decide⟩

/-! ## The steps -/

theorem blk_zero : blk (Vector.replicate 16 0) = zeroBlock := by
  funext i
  simp [blk, zeroBlock]

theorem cnt_zero : cnt (Vector.replicate 2 0) = 0 := by decide

theorem take12_eq (iv : List UInt8) (h : 12 ≤ iv.length) : take12 iv = some (Vector.ofFn fun i => iv[i.val]) := dif_pos h

theorem ghash_wp (g : GCM) (iv : List UInt8) {niv : Nat} (hiv : niv ≤ iv.length) (hst : g.status = ACCEPTING_CIPHER) {h : Block}
    (ht : Tab g.table (toBits h)) : ∃ s l st, GCM.ghash false g iv niv = some ({ g with statex := s, lenc := l, status := st }, true) ∧
      blk s = ghashFrom h (blk g.statex) (blocks (bv (iv.take niv))) ∧
      (cnt g.lenc < 2 ^ 64 → cnt l = (cnt g.lenc + niv) % 2 ^ 64) := by
  obtain ⟨s, l, e1, hs, hl⟩ := ghashLoop_wp iv niv hiv (h := h) niv 0 g (by omega) (by omega) ht
  rw [List.drop_zero] at hs
  unfold GCM.ghash
  simp only [if_neg (show ¬ g.status = ACCEPTING_HEADER by rw [hst]; decide)]
  rw [if_neg (by simp [hst]), e1]
  simp only [Option.bind_eq_bind, Option.bind_some]
  by_cases h16 : niv % 16 = 0
  · rw [if_neg (by simp [h16])]
    exact ⟨s, l, g.status, rfl, hs, hl⟩
  · rw [if_pos (by simp [h16])]
    exact ⟨s, l, NOT_ACCEPTING_MORE, rfl, hs, hl⟩

theorem C63_init (g : GCM) {nk niv : Nat} {key iv : List UInt8} {E : Block → Block} (hE : Keyed nk key E) (hiv : niv ≤ iv.length) :
    ∃ g', GCM.init false g nk key niv iv = some g' ∧ g'.status = ACCEPTING_HEADER ∧
      Seen g' E (j0 (E zeroBlock) (bv (iv.take niv))) [] [] := by
  obtain ⟨a, ok, ea, henc, hnr⟩ := hE
  obtain ⟨h, eh, hh⟩ := henc (Vector.replicate 16 0)
  rw [blk_zero] at hh
  obtain ⟨t, et, ht⟩ := precompute_wp { g with statex := Vector.replicate 16 0, a := a } h
  rw [hh] at ht
  have hlen : (bv (iv.take niv)).length = niv := by rw [bv_length, List.length_take]; omega
  have hst : blk (Vector.replicate 16 0) = ghash (E zeroBlock) (blocks [] ++ blocks []) := by rw [blk_zero, blocks_nil]; rfl
  unfold GCM.init
  simp only [ea, eh, et, Option.bind_eq_bind, Option.bind_some]
  by_cases h12 : niv = 12
  · rw [if_pos h12, take12_eq iv (by omega)]
    refine ⟨_, rfl, rfl, henc, hnr, ht, ?_, ?_, hst, cnt_zero, cnt_zero⟩
    · rw [j0, if_pos (by omega)]
      subst h12
      funext i
      have hl : 12 ≤ iv.length := hiv
      rw [List.getD_eq_getElem?_getD]
      by_cases hi : i.val < 12
      · rw [List.getElem?_append_left (by omega), bv, List.getElem?_map, List.getElem?_take, if_pos hi, List.getElem?_eq_getElem (by omega)]
        obtain ⟨i, hi'⟩ := i
        simp only at hi
        interval_cases i <;> rfl
      · rw [List.getElem?_append_right (by omega), hlen]
        obtain ⟨i, hi'⟩ := i
        simp only at hi
        interval_cases i <;> rfl
    · rw [j0, if_pos (by omega)]
      subst h12
      funext i
      have hl : 12 ≤ iv.length := hiv
      show _ = (bv (List.take 12 iv) ++ [0, 0, 0, 1]).getD i 0
      rw [List.getD_eq_getElem?_getD]
      by_cases hi : i.val < 12
      · rw [List.getElem?_append_left (by omega), bv, List.getElem?_map, List.getElem?_take, if_pos hi, List.getElem?_eq_getElem (by omega)]
        obtain ⟨i, hi'⟩ := i
        simp only at hi
        interval_cases i <;> rfl
      · rw [List.getElem?_append_right (by omega), hlen]
        obtain ⟨i, hi'⟩ := i
        simp only at hi
        interval_cases i <;> rfl
  · rw [if_neg h12]
    obtain ⟨s, l, st, eg, hs, hl⟩ := ghash_wp { g with
      statex := Vector.replicate 16 0, a := a, table := t, lena := Vector.replicate 2 0, lenc := Vector.replicate 2 0,
      status := ACCEPTING_CIPHER } iv hiv rfl ht
    dsimp only at hs hl
    rw [cnt_zero] at hl
    obtain ⟨s', e2, hs'⟩ := wrap_wp { g with
      statex := s, a := a, table := t, lena := Vector.replicate 2 0, lenc := l, status := st } (h := E zeroBlock) ht
      (m := 0) (n := niv) cnt_zero (by have := hl (by decide); simpa using this)
    simp only [eg, Option.bind_some, e2]
    dsimp only at hs'
    rw [hs, blk_zero, ← ghashFrom_append] at hs'
    have hj : blk s' = j0 (E zeroBlock) (bv (iv.take niv)) := by
      rw [j0, if_neg (by omega), hlen]
      exact hs'
    exact ⟨_, rfl, rfl, henc, hnr, ht, hj, hj, hst, cnt_zero, cnt_zero⟩

/-- `add_header`, while the header so far is made of whole blocks. -/
theorem C63_header {g : GCM} {E : Block → Block} {J : Block} {A : List Byte} (hg : Seen g E J A []) (hs : g.status = ACCEPTING_HEADER)
    (hA : A.length % 16 = 0) (header : List UInt8) (len : Nat) (hlen : len ≤ header.length) :
    ∃ g', add_header false g header len = some (g', true) ∧ Seen g' E J (A ++ bv (header.take len)) [] ∧
      g'.status = if len % 16 = 0 then ACCEPTING_HEADER else ACCEPTING_CIPHER := by
  obtain ⟨s, l, e, h1, h2⟩ := headerLoop_wp header len hlen len 0 g (by omega) (by omega) hg.tab
  have hla := hg.la
  have h2 := h2 (by rw [hla]; omega)
  rw [List.drop_zero] at h1
  have hst : blk s = ghash (E zeroBlock) (blocks (A ++ bv (header.take len)) ++ blocks []) := by
    rw [h1, hg.st, blocks_nil, List.append_nil, List.append_nil, blocks_append _ _ _ (Nat.le_refl _) hA]
    exact (ghashFrom_append _ _ _ _).symm
  have hl : cnt l = (A ++ bv (header.take len)).length % 2 ^ 64 := by
    rw [h2, hla, List.length_append, bv_length, List.length_take]
    omega
  unfold add_header
  rw [if_neg (by simp [hs]), e]
  simp only [Option.bind_eq_bind, Option.bind_some]
  by_cases h16 : len % 16 = 0
  · rw [if_neg (by simp [h16]), if_pos h16]
    exact ⟨_, rfl, ⟨hg.enc, hg.nr, hg.tab, hg.y0, hg.f, hst, hl, hg.lc⟩, hs⟩
  · rw [if_pos (by simp [h16]), if_neg h16]
    exact ⟨_, rfl, ⟨hg.enc, hg.nr, hg.tab, hg.y0, hg.f, hst, hl, hg.lc⟩, rfl⟩

/-- In any other state `add_header` does nothing and says so. -/
theorem C63_header_refused (dbg : Bool) (g : GCM) (header : List UInt8) (len : Nat) (hs : g.status ≠ ACCEPTING_HEADER) :
    add_header dbg g header len = some (g, false) := by
  unfold add_header
  rw [if_pos hs]
  rfl

theorem ceil_step {c n : Nat} (h : c % 16 = 0) : (c + 15) / 16 + (n + 15) / 16 = (c + n + 15) / 16 := by omega

/-- `add_plain`, while the ciphertext so far is made of whole blocks: the first `len` bytes of the buffer `cipher` become
the next ciphertext, the others stay. -/
theorem C63_plain {g : GCM} {E : Block → Block} {J : Block} {A C : List Byte} (hg : Seen g E J A C)
    (hs : g.status = ACCEPTING_HEADER ∨ g.status = ACCEPTING_CIPHER)
    (hC : C.length % 16 = 0) (cipher plain : List UInt8) (len : Nat) (hp : len ≤ plain.length) (hc : len ≤ cipher.length) :
    ∃ g' o, add_plain false g cipher plain len = some (g', o ++ cipher.drop len, true) ∧ o.length = len ∧
      bv o = gctr E (iter inc32 (C.length / 16 + 1) J) (bv (plain.take len)) ∧ Seen g' E J A (C ++ bv o) ∧
      g'.status = if len % 16 = 0 then ACCEPTING_CIPHER else NOT_ACCEPTING_MORE := by
  obtain ⟨s, l, f, o, e, h1, h2, h3, h4, h5⟩ := plainLoop_wp plain len hp (h := E zeroBlock) (E := E) len 0 [] cipher
    { g with status := ACCEPTING_CIPHER } (by omega) (by omega) rfl (by omega) hg.tab hg.enc
  dsimp only at h1 h2 h3 h4 h5
  have hlc := hg.lc
  have h5 := h5 (by rw [hlc]; omega)
  rw [List.drop_zero, hg.f] at h1
  rw [hg.f, ← iter_add, Nat.sub_zero, ceil_step hC] at h4
  rw [Nat.sub_zero] at h2
  have hst : blk s = ghash (E zeroBlock) (blocks A ++ blocks (C ++ bv o)) := by
    rw [h3, hg.st, blocks_append _ _ _ (Nat.le_refl _) hC, ← List.append_assoc]
    exact (ghashFrom_append _ _ _ _).symm
  have hl : cnt l = (C ++ bv o).length % 2 ^ 64 := by
    rw [h5, hlc, List.length_append, bv_length, h2]
    omega
  have hf : blk f = iter inc32 (((C ++ bv o).length + 15) / 16) J := by
    rw [h4, List.length_append, bv_length, h2]
  have hout : bv o = gctr E (iter inc32 (C.length / 16 + 1) J) (bv (plain.take len)) := by
    rw [h1, show (C.length + 15) / 16 = C.length / 16 by omega]
    rfl
  have hgs : (if g.status = ACCEPTING_HEADER then { g with status := ACCEPTING_CIPHER } else g) = { g with status := ACCEPTING_CIPHER } := by
    rcases hs with h | h
    · rw [if_pos h]
    · rw [if_neg (by rw [h]; decide), ← h]
  rw [List.nil_append, Nat.sub_zero, List.nil_append] at e
  unfold add_plain
  simp only [hgs, ne_eq, not_true_eq_false, if_false, e, Option.bind_eq_bind, Option.bind_some]
  by_cases h16 : len % 16 = 0
  · rw [if_neg (by simp [h16]), if_pos h16]
    exact ⟨_, o, rfl, h2, hout, ⟨hg.enc.with_f f, hg.nr, hg.tab, hg.y0, hf, hst, hg.la, hl⟩, rfl⟩
  · rw [if_pos (by simp [h16]), if_neg h16]
    exact ⟨_, o, rfl, h2, hout, ⟨hg.enc.with_f f, hg.nr, hg.tab, hg.y0, hf, hst, hg.la, hl⟩, rfl⟩

/-- `add_cipher`: the same, in the other direction. -/
theorem C63_cipher {g : GCM} {E : Block → Block} {J : Block} {A C : List Byte} (hg : Seen g E J A C)
    (hs : g.status = ACCEPTING_HEADER ∨ g.status = ACCEPTING_CIPHER)
    (hC : C.length % 16 = 0) (plain cipher : List UInt8) (len : Nat) (hp : len ≤ plain.length) (hc : len ≤ cipher.length) :
    ∃ g' o, add_cipher false g plain cipher len = some (g', o ++ plain.drop len, true) ∧ o.length = len ∧
      bv o = gctr E (iter inc32 (C.length / 16 + 1) J) (bv (cipher.take len)) ∧ Seen g' E J A (C ++ bv (cipher.take len)) ∧
      g'.status = if len % 16 = 0 then ACCEPTING_CIPHER else NOT_ACCEPTING_MORE := by
  obtain ⟨s, l, f, o, e, h1, h2, h3, h4, h5⟩ := cipherLoop_wp cipher len hc (h := E zeroBlock) (E := E) len 0 [] plain
    { g with status := ACCEPTING_CIPHER } (by omega) (by omega) rfl (by omega) hg.tab hg.enc
  dsimp only at h1 h2 h3 h4 h5
  have hlc := hg.lc
  have h5 := h5 (by rw [hlc]; omega)
  rw [List.drop_zero, hg.f] at h1
  rw [hg.f, ← iter_add, Nat.sub_zero, ceil_step hC] at h4
  rw [Nat.sub_zero] at h2
  rw [List.drop_zero] at h3
  have hlen : (bv (cipher.take len)).length = len := by rw [bv_length, List.length_take]; omega
  have hst : blk s = ghash (E zeroBlock) (blocks A ++ blocks (C ++ bv (cipher.take len))) := by
    rw [h3, hg.st, blocks_append _ _ _ (Nat.le_refl _) hC, ← List.append_assoc]
    exact (ghashFrom_append _ _ _ _).symm
  have hl : cnt l = (C ++ bv (cipher.take len)).length % 2 ^ 64 := by
    rw [h5, hlc, List.length_append, hlen]
    omega
  have hf : blk f = iter inc32 (((C ++ bv (cipher.take len)).length + 15) / 16) J := by
    rw [h4, List.length_append, hlen]
  have hout : bv o = gctr E (iter inc32 (C.length / 16 + 1) J) (bv (cipher.take len)) := by
    rw [h1, show (C.length + 15) / 16 = C.length / 16 by omega]
    rfl
  have hgs : (if g.status = ACCEPTING_HEADER then { g with status := ACCEPTING_CIPHER } else g) = { g with status := ACCEPTING_CIPHER } := by
    rcases hs with h | h
    · rw [if_pos h]
    · rw [if_neg (by rw [h]; decide), ← h]
  rw [List.nil_append, Nat.sub_zero, List.nil_append] at e
  unfold add_cipher
  simp only [hgs, ne_eq, not_true_eq_false, if_false, e, Option.bind_eq_bind, Option.bind_some]
  by_cases h16 : len % 16 = 0
  · rw [if_neg (by simp [h16]), if_pos h16]
    exact ⟨_, o, rfl, h2, hout, ⟨hg.enc.with_f f, hg.nr, hg.tab, hg.y0, hf, hst, hg.la, hl⟩, rfl⟩
  · rw [if_pos (by simp [h16]), if_neg h16]
    exact ⟨_, o, rfl, h2, hout, ⟨hg.enc.with_f f, hg.nr, hg.tab, hg.y0, hf, hst, hg.la, hl⟩, rfl⟩

/-- After an incomplete block, and after `finish`, neither `add_plain` nor `add_cipher` does anything. -/
theorem C63_refused (dbg : Bool) (g : GCM) (x y : List UInt8) (len : Nat) (hs : g.status = NOT_ACCEPTING_MORE ∨ g.status = FINISHED) :
    add_plain dbg g x y len = some (g, x, false) ∧ add_cipher dbg g x y len = some (g, x, false) := by
  have h0 : ¬ g.status = ACCEPTING_HEADER := by rcases hs with h | h <;> rw [h] <;> decide
  have h1 : g.status ≠ ACCEPTING_CIPHER := by rcases hs with h | h <;> rw [h] <;> decide
  unfold add_plain add_cipher
  simp only [if_neg h0]
  rw [if_pos h1, if_pos h1]
  exact ⟨rfl, rfl⟩

/-- `finish(true)` returns the tag. -/
theorem C63_finish {g : GCM} {E : Block → Block} {J : Block} {A C : List Byte} (hg : Seen g E J A C) :
    ∃ g' t, finish false g true = some (g', t) ∧ g'.status = FINISHED ∧
      blk t = addBlock (E J) (Spec.GCM.ghash (E zeroBlock) (blocks A ++ blocks C ++ [lengths (8 * A.length) (8 * C.length)])) := by
  obtain ⟨s, e, hs⟩ := wrap_wp g hg.tab hg.la hg.lc
  obtain ⟨y, ey, hy⟩ := hg.enc g.y_0
  have hnr := hg.nr
  unfold GCM.finish
  rw [e]
  simp only [Option.bind_eq_bind, Option.bind_some, if_true, ey]
  unfold AES.finish
  rw [if_neg (by omega)]
  refine ⟨_, _, rfl, rfl, ?_⟩
  rw [blk_xor16, hy, hg.y0, hs, hg.st]
  congr 1
  exact (ghashFrom_append _ _ _ _).symm

/-- `finish(false)` returns zeros whatever was taken. -/
theorem C63_finish_zero (g g' : GCM) (dbg : Bool) (t : Vector UInt8 16) (h : finish dbg g false = some (g', t)) :
    t = Vector.replicate 16 0 := by
  unfold GCM.finish at h
  obtain ⟨g1, -, h⟩ := Option.bind_eq_some_iff.1 h
  rw [if_neg (by decide)] at h
  obtain ⟨a, -, h⟩ := Option.bind_eq_some_iff.1 h
  exact (congrArg Prod.snd (Option.some_inj.1 h)).symm

/-! ## Whole messages, in several calls -/

/-- One call of `add_header` for each piece. -/
def addHeaders (dbg : Bool) : GCM → List (List UInt8) → Option GCM
  | g, [] => some g
  | g, h :: hs => do
    let (g, ok) ← add_header dbg g h h.length
    if ok then addHeaders dbg g hs else none

/-- One call of `add_plain` for each piece, with a fresh buffer of its length. -/
def addPlains (dbg : Bool) : GCM → List (List UInt8) → Option (GCM × List UInt8)
  | g, [] => some (g, [])
  | g, p :: ps => do
    let (g, c, ok) ← add_plain dbg g (List.replicate p.length 0) p p.length
    if ok then
      let (g, cs) ← addPlains dbg g ps
      return (g, c ++ cs)
    else none

/-- One call of `add_cipher` for each piece, with a fresh buffer of its length. -/
def addCiphers (dbg : Bool) : GCM → List (List UInt8) → Option (GCM × List UInt8)
  | g, [] => some (g, [])
  | g, c :: cs => do
    let (g, p, ok) ← add_cipher dbg g (List.replicate c.length 0) c c.length
    if ok then
      let (g, ps) ← addCiphers dbg g cs
      return (g, p ++ ps)
    else none

/-- Encryption of a message: the ciphertext and the tag. -/
def encryptMsg (dbg : Bool) (nk : Nat) (key iv : List UInt8) (hs ps : List (List UInt8)) : Option (List UInt8 × Vector UInt8 16) := do
  let g ← GCM.init dbg GCM.new nk key iv.length iv
  let g ← addHeaders dbg g hs
  let (g, c) ← addPlains dbg g ps
  let (_, t) ← finish dbg g true
  return (c, t)

/-- Decryption of a message: the plaintext and the tag to compare. -/
def decryptMsg (dbg : Bool) (nk : Nat) (key iv : List UInt8) (hs cs : List (List UInt8)) : Option (List UInt8 × Vector UInt8 16) := do
  let g ← GCM.init dbg GCM.new nk key iv.length iv
  let g ← addHeaders dbg g hs
  let (g, p) ← addCiphers dbg g cs
  let (_, t) ← finish dbg g true
  return (p, t)

/-- All pieces but the last are made of whole blocks. -/
def Chunked (l : List (List UInt8)) : Prop := ∀ x ∈ l.dropLast, x.length % 16 = 0

theorem Chunked.tail {x y : List UInt8} {l : List (List UInt8)} (h : Chunked (x :: y :: l)) : x.length % 16 = 0 ∧ Chunked (y :: l) :=
  ⟨h x (by simp), fun z hz => h z (by simp at hz ⊢; exact Or.inr hz)⟩

theorem addHeaders_wp {E : Block → Block} {J : Block} : ∀ (hs : List (List UInt8)) {g : GCM} {A : List Byte}, Seen g E J A [] →
    g.status = ACCEPTING_HEADER → A.length % 16 = 0 → Chunked hs →
    ∃ g', addHeaders false g hs = some g' ∧ Seen g' E J (A ++ bv hs.flatten) [] ∧
      (g'.status = ACCEPTING_HEADER ∨ g'.status = ACCEPTING_CIPHER)
  | [], g, A, hg, hst, _, _ => ⟨g, rfl, by simpa [bv] using hg, Or.inl hst⟩
  | h :: hs, g, A, hg, hst, hA, hc => by
    obtain ⟨g1, e1, s1, st1⟩ := C63_header hg hst hA h h.length (Nat.le_refl _)
    rw [List.take_length] at s1
    cases hs with
    | nil =>
      refine ⟨g1, by simp [addHeaders, e1], by simpa using s1, ?_⟩
      rw [st1]
      split
      · exact Or.inl rfl
      · exact Or.inr rfl
    | cons h2 hs =>
      obtain ⟨h16, hc'⟩ := hc.tail
      rw [if_pos h16] at st1
      obtain ⟨g2, e2, s2, st2⟩ := addHeaders_wp (h2 :: hs) s1 st1 (by rw [List.length_append, bv_length]; omega) hc'
      refine ⟨g2, ?_, ?_, st2⟩
      · rw [addHeaders, e1]
        exact e2
      · rw [List.flatten_cons, bv_append, ← List.append_assoc]
        exact s2

theorem addPlains_wp {E : Block → Block} {J : Block} {A : List Byte} : ∀ (ps : List (List UInt8)) {g : GCM} {C : List Byte}, Seen g E J A C →
    (g.status = ACCEPTING_HEADER ∨ g.status = ACCEPTING_CIPHER) → C.length % 16 = 0 → Chunked ps →
    ∃ g' c, addPlains false g ps = some (g', c) ∧ bv c = gctr E (iter inc32 (C.length / 16 + 1) J) (bv ps.flatten) ∧
      Seen g' E J A (C ++ bv c)
  | [], g, C, hg, hst, _, _ => ⟨g, [], rfl, by rw [List.flatten_nil, bv, List.map_nil, gctr_nil], by simpa [bv] using hg⟩
  | p :: ps, g, C, hg, hst, hC, hc => by
    obtain ⟨g1, o, e1, hl, ho, s1, st1⟩ := C63_plain hg hst hC (List.replicate p.length 0) p p.length (Nat.le_refl _) (by simp)
    rw [List.drop_eq_nil_of_le (by simp), List.append_nil] at e1
    rw [List.take_length] at ho
    cases ps with
    | nil => exact ⟨g1, o, by simp [addPlains, e1], by simpa using ho, s1⟩
    | cons p2 ps =>
      obtain ⟨h16, hc'⟩ := hc.tail
      rw [if_pos h16] at st1
      obtain ⟨g2, c, e2, hc2, s2⟩ := addPlains_wp (p2 :: ps) s1 (Or.inr st1) (by rw [List.length_append, bv_length]; omega) hc'
      refine ⟨g2, o ++ c, ?_, ?_, ?_⟩
      · rw [addPlains, e1]
        simp only [Option.bind_eq_bind, Option.bind_some, if_true, e2]
        rfl
      · rw [List.flatten_cons, bv_append, bv_append, gctr_append E _ _ _ _ (Nat.le_refl _) (by rw [bv_length]; omega), ho, hc2, ← iter_add,
          List.length_append, bv_length, bv_length, hl]
        congr 3
        omega
      · rw [bv_append, ← List.append_assoc]
        exact s2

theorem addCiphers_wp {E : Block → Block} {J : Block} {A : List Byte} : ∀ (cs : List (List UInt8)) {g : GCM} {C : List Byte}, Seen g E J A C →
    (g.status = ACCEPTING_HEADER ∨ g.status = ACCEPTING_CIPHER) → C.length % 16 = 0 → Chunked cs →
    ∃ g' p, addCiphers false g cs = some (g', p) ∧ bv p = gctr E (iter inc32 (C.length / 16 + 1) J) (bv cs.flatten) ∧
      Seen g' E J A (C ++ bv cs.flatten)
  | [], g, C, hg, hst, _, _ => ⟨g, [], rfl, by rw [List.flatten_nil, bv, List.map_nil, gctr_nil], by simpa [bv] using hg⟩
  | c :: cs, g, C, hg, hst, hC, hc => by
    obtain ⟨g1, o, e1, hl, ho, s1, st1⟩ := C63_cipher hg hst hC (List.replicate c.length 0) c c.length (by simp) (Nat.le_refl _)
    rw [List.drop_eq_nil_of_le (by simp), List.append_nil] at e1
    rw [List.take_length] at ho s1
    cases cs with
    | nil => exact ⟨g1, o, by simp [addCiphers, e1], by simpa using ho, by simpa using s1⟩
    | cons c2 cs =>
      obtain ⟨h16, hc'⟩ := hc.tail
      rw [if_pos h16] at st1
      obtain ⟨g2, p, e2, hp2, s2⟩ := addCiphers_wp (c2 :: cs) s1 (Or.inr st1) (by rw [List.length_append, bv_length]; omega) hc'
      refine ⟨g2, o ++ p, ?_, ?_, ?_⟩
      · rw [addCiphers, e1]
        simp only [Option.bind_eq_bind, Option.bind_some, if_true, e2]
        rfl
      · rw [List.flatten_cons, bv_append, bv_append, gctr_append E _ _ _ _ (Nat.le_refl _) (by rw [bv_length]; omega), ho, hp2, ← iter_add,
          List.length_append, bv_length]
        congr 3
        omega
      · rw [List.flatten_cons, bv_append, ← List.append_assoc]
        exact s2

/-- For every key, initialization vector, header and plaintext, the last two in any number of pieces of which all but
the last are made of whole blocks: the result is the ciphertext and the tag of SP 800-38D. -/
theorem C63_encrypt {nk : Nat} {key : List UInt8} {E : Block → Block} (hE : Keyed nk key E) (iv : List UInt8)
    {hs ps : List (List UInt8)} (hh : Chunked hs) (hp : Chunked ps) :
    ∃ c t, encryptMsg false nk key iv hs ps = some (c, t) ∧ (bv c, blk t) = authEnc E (bv iv) (bv hs.flatten) (bv ps.flatten) := by
  obtain ⟨g0, e0, st0, s0⟩ := C63_init GCM.new hE (niv := iv.length) (iv := iv) (Nat.le_refl _)
  rw [List.take_length] at s0
  obtain ⟨g1, e1, s1, st1⟩ := addHeaders_wp hs s0 st0 rfl hh
  obtain ⟨g2, c, e2, hc, s2⟩ := addPlains_wp ps s1 st1 rfl hp
  obtain ⟨g3, t, e3, -, ht⟩ := C63_finish s2
  have hcr : bv c = crypt E (bv iv) (bv ps.flatten) := hc
  refine ⟨c, t, ?_, ?_⟩
  · unfold encryptMsg
    simp only [e0, e1, e2, e3, Option.bind_eq_bind, Option.bind_some]
    rfl
  · rw [ht, List.nil_append, List.nil_append, hcr]
    rfl

/-- The same for decryption. -/
theorem C63_decrypt {nk : Nat} {key : List UInt8} {E : Block → Block} (hE : Keyed nk key E) (iv : List UInt8)
    {hs cs : List (List UInt8)} (hh : Chunked hs) (hc : Chunked cs) :
    ∃ p t, decryptMsg false nk key iv hs cs = some (p, t) ∧ bv p = crypt E (bv iv) (bv cs.flatten) ∧
      blk t = tag E (bv iv) (bv hs.flatten) (bv cs.flatten) := by
  obtain ⟨g0, e0, st0, s0⟩ := C63_init GCM.new hE (niv := iv.length) (iv := iv) (Nat.le_refl _)
  rw [List.take_length] at s0
  obtain ⟨g1, e1, s1, st1⟩ := addHeaders_wp hs s0 st0 rfl hh
  obtain ⟨g2, p, e2, hp, s2⟩ := addCiphers_wp cs s1 st1 rfl hc
  obtain ⟨g3, t, e3, -, ht⟩ := C63_finish s2
  refine ⟨p, t, ?_, hp, ?_⟩
  · unfold decryptMsg
    simp only [e0, e1, e2, e3, Option.bind_eq_bind, Option.bind_some]
    rfl
  · rw [ht, List.nil_append, List.nil_append]
    rfl

/-- So the plaintext belongs to the message if and only if the caller finds the two tags equal. -/
theorem C63_accept {nk : Nat} {key : List UInt8} {E : Block → Block} (hE : Keyed nk key E) (iv : List UInt8)
    {hs cs : List (List UInt8)} (hh : Chunked hs) (hc : Chunked cs) (t : Vector UInt8 16) :
    ∃ p t', decryptMsg false nk key iv hs cs = some (p, t') ∧
      authDec E (bv iv) (bv hs.flatten) (bv cs.flatten) (blk t) = if t' = t then some (bv p) else none := by
  obtain ⟨p, t', e, h1, h2⟩ := C63_decrypt hE iv hh hc
  refine ⟨p, t', e, ?_⟩
  unfold authDec
  rw [← h1, ← h2]
  by_cases h : t' = t
  · rw [if_pos h, if_pos (by rw [h])]
  · rw [if_neg h, if_neg (fun h' => h (blk_inj (bytes_inj h')))]

theorem bv_inj {a b : List UInt8} (h : bv a = bv b) : a = b :=
  List.map_injective_iff.2 (fun _ _ h => UInt8.toBitVec_inj.1 h) h

/-- Decryption of what `encryptMsg` made, cut into any pieces, gives back the plaintext and the same tag. -/
theorem C63_roundtrip {nk : Nat} {key : List UInt8} {E : Block → Block} (hE : Keyed nk key E) {iv : List UInt8}
    {hs hs' ps cs : List (List UInt8)} (hh : Chunked hs) (hh' : Chunked hs') (hp : Chunked ps) (hc : Chunked cs) {c : List UInt8}
    {t : Vector UInt8 16} (he : encryptMsg false nk key iv hs ps = some (c, t)) (hcs : cs.flatten = c) (hhs : hs'.flatten = hs.flatten) :
    decryptMsg false nk key iv hs' cs = some (ps.flatten, t) := by
  obtain ⟨c', t', e, h⟩ := C63_encrypt hE iv hh hp
  rw [he, Option.some_inj] at e
  obtain ⟨rfl, rfl⟩ := Prod.mk.inj e
  obtain ⟨p, t', e', h1, h2⟩ := C63_decrypt hE iv hh' hc
  have ha := congrArg Prod.fst h
  have hb := congrArg Prod.snd h
  simp only [authEnc] at ha hb
  rw [hcs, ha, crypt, crypt, gctr_gctr E _ _ _ (Nat.le_refl _)] at h1
  rw [hcs, hhs, ha, ← hb] at h2
  rw [e', bv_inj h1, blk_inj h2]

/-- With keys of 16 and 24 bytes this is AES-GCM. -/
theorem C63_aes_gcm (nk : Nat) (key : List UInt8) (hnk : nk / 4 = 4 ∨ nk / 4 = 6) (hl : 4 * (nk / 4) ≤ key.length) (iv : List UInt8)
    {hs ps : List (List UInt8)} (hh : Chunked hs) (hp : Chunked ps) :
    ∃ c t, encryptMsg false nk key iv hs ps = some (c, t) ∧
      (bv c, blk t) = authEnc (Spec.AES.encrypt (nk / 4) (keyBytes key)) (bv iv) (bv hs.flatten) (bv ps.flatten) :=
  C63_encrypt (C63_keyed nk key hnk hl) iv hh hp

/-- With a key of any other length than 16, 24 and 32 (up to 3 more bytes) the ciphertext and the tag do not depend on
the key, and everyone can compute them. -/
theorem C63_bad_length (nk : Nat) (key : List UInt8) (hnk : ¬ (nk / 4 = 4 ∨ nk / 4 = 6 ∨ nk / 4 = 8)) (iv : List UInt8)
    {hs ps : List (List UInt8)} (hh : Chunked hs) (hp : Chunked ps) :
    ∃ c t, encryptMsg false nk key iv hs ps = some (c, t) ∧
      (bv c, blk t) = authEnc (cipher 1 fun _ _ => 0) (bv iv) (bv hs.flatten) (bv ps.flatten) :=
  C63_encrypt (C63_keyed_bad nk key hnk) iv hh hp

/-! ## With checks of the overflow -/

/-- The block that `wrap` adds to the state. -/
def lens (g : GCM) : Block := lengths (8 * cnt g.lena) (8 * cnt g.lenc)

/-- In a build with checks `gf2mul` negates a word by `(!c)+1`, which overflows for `c = 0`: it panics unless all 128
bits of the state are 1. -/
theorem C63_debug (g : GCM) : gf2mul true g = if ∀ i, blk g.statex i = 255 then gf2mul false g else none := gf2mul_debug g

theorem cnt_lt (l : Vector UInt32 2) : cnt l % 2 ^ 64 = cnt l := by
  have h0 := l[0].toNat_lt
  have h1 := l[1].toNat_lt
  unfold cnt
  omega

/-- So `finish` panics unless the state and the lengths add up to 1 in every bit. -/
theorem C63_debug_finish (g : GCM) (x : Bool) (h : ¬ ∀ i, addBlock (blk g.statex) (lens g) i = 255) : finish true g x = none := by
  unfold GCM.finish wrap
  simp only
  rw [gf2mul_debug]
  dsimp only
  rw [blk_xor16, lens_eq _ _ _ _ (m := cnt g.lena) (n := cnt g.lenc) (cnt_lt _).symm (cnt_lt _).symm]
  unfold lens at h
  rw [if_neg h]
  rfl

/-- For example with every key and every initialization vector of 12 bytes, without header and without plaintext. -/
theorem C63_debug_empty (nk : Nat) (key iv : List UInt8) (hiv : iv.length = 12) : encryptMsg true nk key iv [] [] = none := by
  unfold encryptMsg
  cases h : GCM.init true GCM.new nk key iv.length iv with
  | none => rfl
  | some g =>
    have hs : g.statex = Vector.replicate 16 0 ∧ g.lena = Vector.replicate 2 0 ∧ g.lenc = Vector.replicate 2 0 := by
      unfold GCM.init at h
      obtain ⟨⟨a, ok⟩, -, h⟩ := Option.bind_eq_some_iff.1 h
      obtain ⟨h0, -, h⟩ := Option.bind_eq_some_iff.1 h
      obtain ⟨g1, e1, h⟩ := Option.bind_eq_some_iff.1 h
      rw [if_pos hiv] at h
      obtain ⟨v, -, h⟩ := Option.bind_eq_some_iff.1 h
      obtain ⟨t, et, -⟩ := precompute_wp { GCM.new with statex := Vector.replicate 16 0, a := a } h0
      dsimp only at e1
      rw [et, Option.some_inj] at e1
      rw [← Option.some_inj.1 h, ← e1]
      exact ⟨rfl, rfl, rfl⟩
    have hf : finish true g true = none := by
      refine C63_debug_finish g true fun hi => ?_
      have := hi 0
      rw [hs.1, lens, hs.2.1, hs.2.2] at this
      exact absurd this (by decide +kernel)
    simp [addHeaders, addPlains, hf]

/-- And with every header that begins with a byte other than `ff`, on every object after `init`. -/
theorem C63_debug_header (g : GCM) (hs : g.status = ACCEPTING_HEADER) (h0 : g.statex = Vector.replicate 16 0) (x : UInt8) (l : List UInt8)
    (hx : x ≠ 255) : add_header true g (x :: l) (l.length + 1) = none := by
  unfold add_header
  rw [if_neg (by simp [hs])]
  suffices h : headerLoop true (x :: l) (l.length + 1) 0 g = none by rw [h]; rfl
  rw [headerLoop, if_pos (by omega)]
  cases e : absorbBlock true (x :: l) (l.length + 1) 16 0 0 g.statex g.lena with
  | none => rfl
  | some r =>
    obtain ⟨j, s, c⟩ := r
    have key : ∀ n i j (s s' : Vector UInt8 16) (c c' : Vector UInt32 2) j', 1 ≤ i →
        absorbBlock true (x :: l) (l.length + 1) n i j s c = some (j', s', c') → s'[0] = s[0] := by
      intro n
      induction n with
      | zero =>
        intro i j s s' c c' j' _ h
        simp only [absorbBlock, Option.some_inj, Prod.mk.injEq] at h
        rw [h.2.1]
      | succ n ih =>
        intro i j s s' c c' j' hi h
        rw [absorbBlock] at h
        split at h
        · have h := Option.some_inj.1 h
          simp only [Prod.mk.injEq] at h
          rw [h.2.1]
        · obtain ⟨a, ea, h⟩ := Option.bind_eq_some_iff.1 h
          obtain ⟨b, -, h⟩ := Option.bind_eq_some_iff.1 h
          obtain ⟨s1, es, h⟩ := Option.bind_eq_some_iff.1 h
          obtain ⟨c1, -, h⟩ := Option.bind_eq_some_iff.1 h
          rw [ih _ _ _ _ _ _ _ (by omega) h]
          unfold HASH256.setAt at es
          split at es
          · rw [← Option.some_inj.1 es, Vector.getElem_set_ne _ _ (by omega)]
          · exact absurd es (by simp)
    have hsx : s[0] = x := by
      rw [absorbBlock, if_neg (by omega)] at e
      obtain ⟨a, ea, e⟩ := Option.bind_eq_some_iff.1 e
      obtain ⟨b, eb, e⟩ := Option.bind_eq_some_iff.1 e
      obtain ⟨s1, es, e⟩ := Option.bind_eq_some_iff.1 e
      obtain ⟨c1, -, e⟩ := Option.bind_eq_some_iff.1 e
      rw [key _ _ _ _ _ _ _ _ (by omega) e]
      rw [setAt_eq g.statex (by decide), Option.some_inj] at es
      rw [← es, Vector.getElem_set_self]
      rw [Vector.getElem?_eq_getElem (by decide), Option.some_inj] at ea
      rw [List.getElem?_cons_zero, Option.some_inj] at eb
      rw [← ea, ← eb]
      simp [h0]
    simp only [Option.bind_eq_bind, Option.bind_some]
    rw [gf2mul_debug, if_neg]
    · rfl
    · intro h
      apply hx
      have := h 0
      rw [← hsx]
      exact UInt8.toBitVec_inj.1 this

/-! ## Keys of 32 bytes -/

/-- The block `00 … 00 02`. -/
def ctr2 : Vector UInt8 16 := #v[0, 0, 0, 0, 0, 0, 0, 0, 0, 0, 0, 0, 0, 0, 0, 2]

theorem ctr2_eq (h : Block) : inc32 (j0 h (bv (List.replicate 12 0))) = blk ctr2 := by
  rw [j0, if_pos (by decide)]
  funext i
  revert i
  decide +kernel

theorem crypt_zero (E : Block → Block) : crypt E (bv (List.replicate 12 0)) (bv (List.replicate 16 0)) = bytes (E (blk ctr2)) := by
  rw [crypt, ctr2_eq, gctr_ne _ _ (by decide), List.drop_eq_nil_of_le (by decide), gctr_nil, List.append_nil, mask_take]
  generalize E (blk ctr2) = b
  apply List.ext_getElem?
  intro i
  rw [mask, List.getElem?_zipWith]
  by_cases h : i < 16
  · rw [bytes_get _ _ h, bv, List.getElem?_map, List.getElem?_replicate, if_pos h]
    simp
  · rw [List.getElem?_eq_none (l := bytes b) (by rw [bytes_length]; omega)]
    cases (bv (List.replicate 16 0))[i]? <;> rfl

/-- With a key of 32 bytes the result is not that of AES-256-GCM: with the key `00 01 … 1f`, the initialization vector
zero, no header and the plaintext zero the ciphertexts differ. -/
theorem C63_not_aes256 : ∃ c t, encryptMsg false 32 key256 (List.replicate 12 0) [] [List.replicate 16 0] = some (c, t) ∧
    bv c ≠ (authEnc (Spec.AES.encrypt 8 (keyBytes key256)) (bv (List.replicate 12 0)) [] (bv (List.replicate 16 0))).1 := by
  obtain ⟨c, t, e, h⟩ := C63_encrypt (C63_keyed_32 32 key256 rfl (by decide)) (List.replicate 12 0) (hs := []) (ps := [List.replicate 16 0])
    (by simp [Chunked]) (by simp [Chunked])
  refine ⟨c, t, e, ?_⟩
  have h1 : bv c = bytes (cipher 14 (weakExpansion 8 (keyBytes key256)) (blk ctr2)) := by
    have := congrArg Prod.fst h
    simp only [authEnc, List.flatten_cons, List.flatten_nil, List.append_nil] at this
    rw [this, crypt_zero]
  have h2 : (authEnc (Spec.AES.encrypt 8 (keyBytes key256)) (bv (List.replicate 12 0)) [] (bv (List.replicate 16 0))).1 =
      bytes (Spec.AES.encrypt 8 (keyBytes key256) (blk ctr2)) := crypt_zero _
  rw [h1, h2]
  intro hb
  obtain ⟨c1, e1, g1⟩ := ecb_encrypt_wp good256 (w := expansion 8 (keyBytes key256))
    (fun i h _ => keys256 (by decide +kernel) (by decide +kernel) i h) (by decide) (by decide) ctr2
  obtain ⟨c2, e2, g2⟩ := ecb_encrypt_wp bad256 (w := weakExpansion 8 (keyBytes key256))
    (fun i h _ => weakKeys256 (by decide +kernel) (by decide +kernel) i h) (by decide) (by decide) ctr2
  have hc : c1 = c2 := blk_inj (g1.trans ((bytes_inj hb).symm.trans g2.symm))
  have hne : ecb_encrypt good256 ctr2 ≠ ecb_encrypt bad256 ctr2 := by decide +kernel
  exact hne (by rw [e1, e2, hc])

/-! ## Hexadecimal strings -/

/-- The digits of hexadecimal numbers, in either case: `c` is the character of the digit `d`. -/
def Digit (c : UInt8) (d : Nat) : Prop :=
  (d < 10 ∧ c.toNat = '0'.toNat + d) ∨ (10 ≤ d ∧ d < 16 ∧ (c.toNat + 10 = 'a'.toNat + d ∨ c.toNat + 10 = 'A'.toNat + d))

instance (c : UInt8) (d : Nat) : Decidable (Digit c d) := by unfold Digit; infer_instance

theorem hexDigit_table : ∀ x : Fin 256, ∀ d : Fin 16, Digit ⟨BitVec.ofFin x⟩ d ↔ (hexDigit ⟨BitVec.ofFin x⟩ = some d.val.toUInt8) := by
  decide +kernel

theorem hexDigit_small : ∀ x : Fin 256, ((hexDigit ⟨BitVec.ofFin x⟩).getD 0).toNat < 16 := by
  decide +kernel

theorem hexDigit_some {c : UInt8} {d : Nat} (h : Digit c d) : hexDigit c = some d.toUInt8 ∧ d < 16 := by
  have hd : d < 16 := by unfold Digit at h; omega
  exact ⟨(hexDigit_table c.toBitVec.toFin ⟨d, hd⟩).1 h, hd⟩

theorem hexDigit_none {c : UInt8} (h : ∀ d, ¬ Digit c d) : hexDigit c = none := by
  have hs := hexDigit_small c.toBitVec.toFin
  cases e : hexDigit c with
  | none => rfl
  | some d =>
    have e' : hexDigit ⟨BitVec.ofFin c.toBitVec.toFin⟩ = some d := e
    rw [e'] at hs
    have hs' : d.toNat < 16 := hs
    refine absurd ((hexDigit_table c.toBitVec.toFin ⟨d.toNat, hs'⟩).2 ?_) (h d.toNat)
    rw [e']
    simp

/-- One byte of the result. -/
def hexByte (c1 c2 : UInt8) : UInt8 :=
  let v : UInt8 := match hexDigit c1 with
    | some d => d
    | none => 0
  match hexDigit c2 with
  | some d => v <<< 4 + d
  | none => 0

theorem hexLoop_wp (hex : List UInt8) : ∀ n i (bin : List UInt8), 2 * (i + n) ≤ hex.length → i + n ≤ bin.length →
    Wp (hexLoop hex n i bin) fun r => r.length = bin.length ∧
      ∀ k, r[k]? = if i ≤ k ∧ k < i + n then some (hexByte (hex.getD (2 * k) 0) (hex.getD (2 * k + 1) 0)) else bin[k]?
  | 0, i, bin, _, _ => Wp.ret ⟨rfl, fun k => by rw [if_neg (by omega)]⟩
  | n + 1, i, bin, h1, h2 => by
    rw [hexLoop, getD_some (show 2 * i < hex.length by omega), getD_some (show 2 * i + 1 < hex.length by omega)]
    simp only [Option.bind_eq_bind, Option.bind_some]
    unfold SHA3.setB
    rw [if_pos (by omega), Option.bind_some]
    refine (hexLoop_wp hex n (i + 1) _ (by omega) (by rw [List.length_set]; omega)).mono ?_
    rintro r ⟨hl, hr⟩
    refine ⟨by rw [hl, List.length_set], fun k => ?_⟩
    rw [hr k]
    by_cases hk : k = i
    · subst hk
      rw [if_neg (by omega), if_pos (by omega), List.getElem?_set_self (by omega)]
      rfl
    · rw [List.getElem?_set_ne (by omega)]
      by_cases hk2 : i + 1 ≤ k ∧ k < i + 1 + n
      · rw [if_pos hk2, if_pos (by omega)]
      · rw [if_neg hk2, if_neg (by omega)]

/-- `hex2bytes`: every pair of digits becomes its byte; an invalid first digit counts as 0, but an invalid second digit
makes the whole byte 0; a last single digit is ignored; the bytes of the buffer beyond stay. -/
theorem C63_hex (hex bin : List UInt8) (h : hex.length / 2 ≤ bin.length) : ∃ r, hex2bytes hex bin = some r ∧ r.length = bin.length ∧
    (∀ k, hex.length / 2 ≤ k → r[k]? = bin[k]?) ∧
    ∀ k, k < hex.length / 2 →
      (∀ a b, Digit (hex.getD (2 * k) 0) a → Digit (hex.getD (2 * k + 1) 0) b → r[k]? = some (16 * a + b).toUInt8) ∧
      (∀ b, (∀ a, ¬ Digit (hex.getD (2 * k) 0) a) → Digit (hex.getD (2 * k + 1) 0) b → r[k]? = some b.toUInt8) ∧
      ((∀ b, ¬ Digit (hex.getD (2 * k + 1) 0) b) → r[k]? = some 0) := by
  obtain ⟨r, e, hl, hr⟩ := hexLoop_wp hex (hex.length / 2) 0 bin (by omega) (by omega)
  refine ⟨r, e, hl, fun k hk => by rw [hr, if_neg (by omega)], fun k hk => ⟨fun a b ha hb => ?_, fun b ha hb => ?_, fun hb => ?_⟩⟩
  · rw [hr, if_pos (by omega)]
    obtain ⟨e1, l1⟩ := hexDigit_some ha
    obtain ⟨e2, l2⟩ := hexDigit_some hb
    unfold hexByte
    rw [e1, e2]
    have : ∀ x y : Fin 16, (x.val.toUInt8 <<< 4 + y.val.toUInt8) = (16 * x.val + y.val).toUInt8 := by decide +kernel
    exact congrArg some (this ⟨a, l1⟩ ⟨b, l2⟩)
  · rw [hr, if_pos (by omega)]
    obtain ⟨e2, l2⟩ := hexDigit_some hb
    unfold hexByte
    rw [hexDigit_none ha, e2]
    exact congrArg some (by simp)
  · rw [hr, if_pos (by omega)]
    unfold hexByte
    rw [hexDigit_none hb]

/-- With too short a buffer it panics. -/
theorem C63_hex_short (hex bin : List UInt8) (h : bin.length < hex.length / 2) : hex2bytes hex bin = none := by
  have key : ∀ n i (bin : List UInt8), bin.length < i + n → i ≤ bin.length → hexLoop hex n i bin = none := by
    intro n
    induction n with
    | zero => intro i bin h1 h2; omega
    | succ n ih =>
      intro i bin h1 h2
      rw [hexLoop]
      cases hex[2 * i]? with
      | none => rfl
      | some c =>
        cases hex[2 * i + 1]? with
        | none => simp
        | some d =>
          simp only [Option.bind_eq_bind, Option.bind_some]
          unfold SHA3.setB
          split
          · rw [Option.bind_some, ih _ _ (by rw [List.length_set]; omega) (by rw [List.length_set]; omega)]
          · rfl
  exact key _ 0 bin (by omega) (by omega)

/-! ## Concrete cases -/

/-- A message in pieces: a header of 16 and 4 bytes, a plaintext of 32 and 1 bytes, an initialization vector of 8
bytes, a key of 16 bytes. -/
example (x y : UInt8) : ∃ c t, encryptMsg false 16 (key256.take 16) (List.replicate 8 x)
    [List.replicate 16 x, List.replicate 4 y] [List.replicate 32 y, [x]] = some (c, t) ∧
      (bv c, blk t) = authEnc (Spec.AES.encrypt 4 (keyBytes (key256.take 16))) (bv (List.replicate 8 x))
        (bv (List.replicate 16 x ++ List.replicate 4 y)) (bv (List.replicate 32 y ++ [x])) := by
  have := C63_aes_gcm 16 (key256.take 16) (by decide) (by decide) (List.replicate 8 x) (hs := [List.replicate 16 x, List.replicate 4 y])
    (ps := [List.replicate 32 y, [x]]) (by simp [Chunked]) (by simp [Chunked])
  simpa using this

/-- The product of the standard: the block `80 00 … 00` is 1, and `x^127 · x = x^128 = x^7 + x^2 + x + 1`. -/
example : bytes (Spec.GCM.mul (blk ctr2) fun i => if i = 0 then 0x80 else 0) = bytes (blk ctr2) ∧
    bytes (Spec.GCM.mul (fun i => if i = 15 then 1 else 0) fun i => if i = 0 then 0x40 else 0) = bytes fun i => if i = 0 then 0xe1 else 0 := by
  decide +kernel

/-- A key of 20 bytes: the result is the same with every key. -/
example (k1 k2 : List UInt8) : encryptMsg false 20 k1 (List.replicate 12 0) [] [[1, 2, 3]] = encryptMsg false 20 k2 (List.replicate 12 0) [] [[1, 2, 3]] := by
  obtain ⟨c, t, e, h⟩ := C63_bad_length 20 k1 (by decide) (List.replicate 12 0) (hs := []) (ps := [[1, 2, 3]]) (by simp [Chunked]) (by simp [Chunked])
  obtain ⟨c', t', e', h'⟩ := C63_bad_length 20 k2 (by decide) (List.replicate 12 0) (hs := []) (ps := [[1, 2, 3]]) (by simp [Chunked]) (by simp [Chunked])
  have hh := h.trans h'.symm
  rw [e, e', bv_inj (congrArg Prod.fst hh), blk_inj (congrArg Prod.snd hh)]

/-- `"4x"` gives 0, `"x4"` gives 4, and `"fF7"` gives `ff`. -/
example : hex2bytes [52, 120] [9] = some [0] ∧ hex2bytes [120, 52] [9, 9] = some [4, 9] ∧ hex2bytes [102, 70, 55] [9, 9] = some [255, 9] := by
  decide +kernel

end Props
