import Verif.Proof.AesModes
import Verif.Props.Aes
/-!
# C62: the modes of operation of `aes.rs`

The reference is SP 800-38A (`Verif/Spec/Modes.lean`). `Ciph a E D` says that the object `a` encrypts single blocks by
`E` and decrypts them by `D`; `C62_ready` gives this for every object after `init`. A message is a list of buffers of 16
bytes, one for each call; in a mode with segments of `n` bytes only the first `n` bytes of each buffer belong to the
message.
-/

namespace Props
open Amcl Amcl.AES Spec.AES Spec.Modes

set_option maxRecDepth 8000

/-- One call of `encrypt` for each buffer. -/
def encryptAll (dbg : Bool) : AES → List (Vector UInt8 16) → Option (AES × List (Vector UInt8 16))
  | a, [] => some (a, [])
  | a, b :: bs => do
    let (a, c, _) ← AES.encrypt dbg a b
    let (a, cs) ← encryptAll dbg a bs
    return (a, c :: cs)

/-- One call of `decrypt` for each buffer. -/
def decryptAll (dbg : Bool) : AES → List (Vector UInt8 16) → Option (AES × List (Vector UInt8 16))
  | a, [] => some (a, [])
  | a, b :: bs => do
    let (a, c, _) ← AES.decrypt dbg a b
    let (a, cs) ← decryptAll dbg a bs
    return (a, c :: cs)

theorem encryptAll_cons {dbg : Bool} {a a' : AES} {b c : Vector UInt8 16} {bs : List (Vector UInt8 16)} {x : UInt32}
    {P : AES × List (Vector UInt8 16) → Prop}
    (h : AES.encrypt dbg a b = some (a', c, x)) (h' : Wp (encryptAll dbg a' bs) fun r => P (r.1, c :: r.2)) :
    Wp (encryptAll dbg a (b :: bs)) P := by
  rw [encryptAll, h]
  obtain ⟨r, e, hr⟩ := h'
  exact ⟨_, by simp [e], hr⟩

theorem decryptAll_cons {dbg : Bool} {a a' : AES} {b c : Vector UInt8 16} {bs : List (Vector UInt8 16)} {x : UInt32}
    {P : AES × List (Vector UInt8 16) → Prop}
    (h : AES.decrypt dbg a b = some (a', c, x)) (h' : Wp (decryptAll dbg a' bs) fun r => P (r.1, c :: r.2)) :
    Wp (decryptAll dbg a (b :: bs)) P := by
  rw [decryptAll, h]
  obtain ⟨r, e, hr⟩ := h'
  exact ⟨_, by simp [e], hr⟩

/-- After `init` with any key that it accepts, the object encrypts and decrypts blocks by the cipher of C61, the mode is
set, and the register holds the initialization vector (0 without one, or in the mode ECB). -/
theorem C62_ready (a : AES) (m nkey : Nat) (key : List UInt8) (iv : Option (Vector UInt8 16))
    (hnk : nkey / 4 = 4 ∨ nkey / 4 = 6 ∨ nkey / 4 = 8) (hl : 4 * (nkey / 4) ≤ key.length) :
    ∃ a', AES.init a m nkey key iv = some (a', true) ∧ a'.mode = m ∧ a'.f = start m iv ∧
      Ciph a' (cipher (nkey / 4 + 6) (weakExpansion (nkey / 4) (keyBytes key)))
        (invCipher (nkey / 4 + 6) (weakExpansion (nkey / 4) (keyBytes key))) := by
  obtain ⟨⟨a', ok⟩, e, h1, h2⟩ := init_wp a m nkey key iv hnk hl (weak_sched (by omega) _)
  dsimp only at h1 h2
  subst h1
  exact ⟨a', e, h2.mode, h2.f, fun b => (ready h2 (by omega) b).1, fun b => (ready h2 (by omega) b).2⟩

/-- `reset` sets the mode and the register and keeps the keys. -/
theorem C62_reset (a : AES) (m : Nat) (iv : Option (Vector UInt8 16)) {E D : Block → Block} (h : Ciph a E D) :
    (reset a m iv).mode = m ∧ getreg (reset a m iv) = start m iv ∧ Ciph (reset a m iv) E D :=
  ⟨rfl, reset_f a m iv, h⟩

/-! ## ECB and CBC -/

theorem C62_ecb (dbg : Bool) {a : AES} {E D : Block → Block} (h : Ciph a E D) (hm : a.mode = ECB) (bs : List (Vector UInt8 16)) :
    (∃ cs, encryptAll dbg a bs = some (a, cs) ∧ cs.map blk = ecb E (bs.map blk)) ∧
      ∃ ps, decryptAll dbg a bs = some (a, ps) ∧ ps.map blk = ecb D (bs.map blk) := by
  induction bs with
  | nil => exact ⟨⟨[], rfl, rfl⟩, [], rfl, rfl⟩
  | cons b bs ih =>
    obtain ⟨⟨cs, e1, h1⟩, ps, e2, h2⟩ := ih
    obtain ⟨c, e3, h3⟩ := h.1 b
    obtain ⟨p, e4, h4⟩ := h.2 b
    constructor
    · refine ⟨c :: cs, ?_, ?_⟩
      · rw [encryptAll, encrypt_ecb dbg a hm, e3, Option.bind_some]
        simp [e1]
      · rw [List.map_cons, h1, h3]; rfl
    · refine ⟨p :: ps, ?_, ?_⟩
      · rw [decryptAll, decrypt_ecb dbg a hm, e4, Option.bind_some]
        simp [e2]
      · rw [List.map_cons, h2, h4]; rfl

theorem C62_cbc_encrypt (dbg : Bool) {E D : Block → Block} : ∀ (bs : List (Vector UInt8 16)) {a : AES}, Ciph a E D → a.mode = CBC →
    Wp (encryptAll dbg a bs) fun r => r.2.map blk = cbcEnc E (blk a.f) (bs.map blk)
  | [], _, _, _ => Wp.ret rfl
  | b :: bs, a, h, hm => by
    obtain ⟨c, e, hc⟩ := h.1 (xorFirst 16 b a.f)
    refine encryptAll_cons (by rw [encrypt_cbc dbg a hm, e, Option.bind_some]) ?_
    refine (C62_cbc_encrypt dbg bs (h.with_f c) hm).mono ?_
    intro r hr
    rw [blk_xor16] at hc
    rw [List.map_cons, List.map_cons, cbcEnc, hr, ← hc]

theorem C62_cbc_decrypt (dbg : Bool) {E D : Block → Block} : ∀ (bs : List (Vector UInt8 16)) {a : AES}, Ciph a E D → a.mode = CBC →
    Wp (decryptAll dbg a bs) fun r => r.2.map blk = cbcDec D (blk a.f) (bs.map blk)
  | [], _, _, _ => Wp.ret rfl
  | b :: bs, a, h, hm => by
    obtain ⟨c, e, hc⟩ := h.2 b
    refine decryptAll_cons (by rw [decrypt_cbc dbg a hm, e, Option.bind_some]) ?_
    refine (C62_cbc_decrypt dbg bs (h.with_f b) hm).mono ?_
    intro r hr
    rw [List.map_cons, List.map_cons, hr, blk_xor16, hc]
    rfl

/-! ## CFB -/

theorem cfb_le {m n : Nat} (h : Cfb m n) : n ≤ 16 := by rcases h with ⟨-, rfl⟩ | ⟨-, rfl⟩ | ⟨-, rfl⟩ <;> decide

theorem cfb_encrypt (dbg : Bool) {E D : Block → Block} {n : Nat} : ∀ (bs : List (Vector UInt8 16)) {a : AES} {hist : List Byte},
    Ciph a E D → Cfb a.mode n → 16 ≤ hist.length → blk a.f = last16 hist →
    Wp (encryptAll dbg a bs) fun r => r.2.map (seg n) = cfbEnc E hist (bs.map (seg n)) ∧ r.2.map (rest n) = bs.map (rest n)
  | [], _, _, _, _, _, _ => Wp.ret ⟨rfl, rfl⟩
  | b :: bs, a, hist, h, hm, hl, hf => by
    obtain ⟨st, e, hs⟩ := h.1 a.f
    refine encryptAll_cons (by rw [encrypt_cfb dbg a hm, e, Option.bind_some]) ?_
    refine (cfb_encrypt dbg bs (hist := hist ++ seg n (xorFirst n b st)) (h.with_f (shiftIn n a.f (xorFirst n b st))) hm
      (by rw [List.length_append]; omega) (shiftIn_last n (cfb_le hm) a.f (xorFirst n b st) hl hf)).mono ?_
    intro r hr
    rw [List.map_cons, List.map_cons, List.map_cons, List.map_cons, hr.1, hr.2, rest_xor, cfbEnc, ← hf, ← hs, seg_xor]
    trivial

theorem cfb_decrypt (dbg : Bool) {E D : Block → Block} {n : Nat} : ∀ (bs : List (Vector UInt8 16)) {a : AES} {hist : List Byte},
    Ciph a E D → Cfb a.mode n → 16 ≤ hist.length → blk a.f = last16 hist →
    Wp (decryptAll dbg a bs) fun r => r.2.map (seg n) = cfbDec E hist (bs.map (seg n)) ∧ r.2.map (rest n) = bs.map (rest n)
  | [], _, _, _, _, _, _ => Wp.ret ⟨rfl, rfl⟩
  | b :: bs, a, hist, h, hm, hl, hf => by
    obtain ⟨st, e, hs⟩ := h.1 a.f
    refine decryptAll_cons (by rw [decrypt_cfb dbg a hm, e, Option.bind_some]) ?_
    refine (cfb_decrypt dbg bs (hist := hist ++ seg n b) (h.with_f (shiftIn n a.f b)) hm
      (by rw [List.length_append]; omega) (shiftIn_last n (cfb_le hm) a.f b hl hf)).mono ?_
    intro r hr
    rw [List.map_cons, List.map_cons, List.map_cons, List.map_cons, hr.1, hr.2, rest_xor, cfbDec, ← hf, ← hs, seg_xor]
    trivial

/-- CFB with segments of 1, 2 or 4 bytes; the rest of each buffer stays as it is. -/
theorem C62_cfb (dbg : Bool) {a : AES} {E D : Block → Block} (h : Ciph a E D) {n : Nat} (hm : Cfb a.mode n)
    (bs : List (Vector UInt8 16)) :
    Wp (encryptAll dbg a bs) (fun r => r.2.map (seg n) = cfbEnc E (bytes (blk a.f)) (bs.map (seg n)) ∧ r.2.map (rest n) = bs.map (rest n)) ∧
      Wp (decryptAll dbg a bs) (fun r => r.2.map (seg n) = cfbDec E (bytes (blk a.f)) (bs.map (seg n)) ∧ r.2.map (rest n) = bs.map (rest n)) :=
  ⟨cfb_encrypt dbg bs h hm (by rw [bytes_length]) (last16_bytes _).symm,
    cfb_decrypt dbg bs h hm (by rw [bytes_length]) (last16_bytes _).symm⟩

theorem shl_or (t : UInt32) (ht : t.toNat < 2 ^ 24) (x : UInt8) : ((t <<< 8) ||| x.toUInt32).toNat = 256 * t.toNat + x.toNat := by
  have hx := x.toNat_lt
  rw [UInt32.toNat_or, UInt32.toNat_shiftLeft, UInt8.toNat_toUInt32, show (8 : UInt32).toNat % 32 = 8 by decide,
    Nat.mod_eq_of_lt (by rw [Nat.shiftLeft_eq]; omega), ← Nat.shiftLeft_add_eq_or_of_lt hx, Nat.shiftLeft_eq]
  omega

theorem fold_eq : ∀ (l : List UInt8) (t : UInt32), (t.toNat + 1) * 256 ^ l.length ≤ 2 ^ 32 →
    (l.foldl (fun (t : UInt32) (x : UInt8) => (t <<< 8) ||| x.toUInt32) t).toNat = l.foldl (fun t x => 256 * t + x.toNat) t.toNat
  | [], _, _ => rfl
  | x :: xs, t, h => by
    have hx := x.toNat_lt
    rw [List.length_cons, Nat.pow_succ] at h
    have h1 : (t.toNat + 1) * 256 ≤ 2 ^ 32 := by
      refine le_trans ?_ h
      rw [Nat.mul_comm (256 ^ xs.length), ← Nat.mul_assoc]
      exact Nat.le_mul_of_pos_right _ (Nat.pow_pos (by decide))
    have h2 := shl_or t (by omega) x
    rw [List.foldl_cons, List.foldl_cons, ← h2]
    apply fold_eq
    rw [h2]
    refine le_trans ?_ h
    rw [Nat.mul_comm (256 ^ xs.length), ← Nat.mul_assoc]
    exact Nat.mul_le_mul_right _ (by omega)

theorem seg_eq (n : Nat) (f : Vector UInt8 16) : seg n f = (f.toList.take n).map UInt8.toBitVec := by
  unfold seg
  rw [List.map_take]
  congr 1
  apply List.ext_getElem?
  intro i
  by_cases h : i < 16
  · rw [bytes_get _ _ h, List.getElem?_map, Vector.getElem?_toList, Vector.getElem?_eq_getElem h]
    rfl
  · rw [List.getElem?_eq_none (by rw [bytes_length]; omega), List.getElem?_eq_none (by simp; omega)]

/-- The result of a call in the mode CFB is the number of the bytes that leave the register, the first byte the most
significant. -/
theorem C62_cfb_result (dbg : Bool) {a : AES} {E D : Block → Block} (h : Ciph a E D) {n : Nat} (hm : Cfb a.mode n)
    (b : Vector UInt8 16) :
    (Wp (AES.encrypt dbg a b) fun r => r.2.2.toNat = (seg n a.f).foldl (fun t x => 256 * t + x.toNat) 0) ∧
      Wp (AES.decrypt dbg a b) fun r => r.2.2.toNat = (seg n a.f).foldl (fun t x => 256 * t + x.toNat) 0 := by
  have key : (fellOff a.f n).toNat = (seg n a.f).foldl (fun t x => 256 * t + x.toNat) 0 := by
    rw [seg_eq, List.foldl_map]
    refine fold_eq _ 0 ?_
    rw [List.length_take, Vector.length_toList]
    rcases hm with ⟨-, rfl⟩ | ⟨-, rfl⟩ | ⟨-, rfl⟩ <;> decide
  obtain ⟨st, e, -⟩ := h.1 a.f
  rw [encrypt_cfb dbg a hm, decrypt_cfb dbg a hm, e]
  exact ⟨⟨_, rfl, key⟩, ⟨_, rfl, key⟩⟩

/-! ## OFB -/

theorem iter_succ (E : Block → Block) : ∀ n b, iter E n (E b) = iter E (n + 1) b
  | 0, _ => rfl
  | n + 1, b => by rw [iter, iter_succ E n b]; rfl

theorem ofb_cons (E : Block → Block) (iv : Block) (p : List Byte) (ps : List (List Byte)) :
    ofb E iv (p :: ps) = mask p (E iv) :: ofb E (E iv) ps := by
  unfold ofb
  rw [List.mapIdx_cons]
  congr 1
  apply congrArg (fun f => List.mapIdx f ps)
  funext j p
  rw [← iter_succ]

theorem ofb_all (dbg : Bool) {E D : Block → Block} {n : Nat} : ∀ (bs : List (Vector UInt8 16)) {a : AES}, Ciph a E D → Ofb a.mode n →
    Wp (encryptAll dbg a bs) fun r => r.2.map (seg n) = ofb E (blk a.f) (bs.map (seg n)) ∧ r.2.map (rest n) = bs.map (rest n)
  | [], _, _, _ => Wp.ret ⟨rfl, rfl⟩
  | b :: bs, a, h, hm => by
    obtain ⟨st, e, hs⟩ := h.1 a.f
    refine encryptAll_cons (by rw [encrypt_ofb dbg a hm, e, Option.bind_some]) ?_
    refine (ofb_all dbg bs (h.with_f st) hm).mono ?_
    intro r hr
    rw [List.map_cons, List.map_cons, List.map_cons, List.map_cons, hr.1, hr.2, rest_xor, ofb_cons, ← hs, seg_xor]
    exact ⟨rfl, rfl⟩

theorem decryptAll_eq (dbg : Bool) (P : AES → Prop) (hP : ∀ a b r, P a → AES.encrypt dbg a b = some r → P r.1)
    (h : ∀ a b, P a → AES.decrypt dbg a b = AES.encrypt dbg a b) : ∀ bs a, P a → decryptAll dbg a bs = encryptAll dbg a bs
  | [], _, _ => rfl
  | b :: bs, a, ha => by
    rw [decryptAll, encryptAll, h a b ha]
    cases e : AES.encrypt dbg a b with
    | none => rfl
    | some r =>
      obtain ⟨a', c, x⟩ := r
      have := decryptAll_eq dbg P hP h bs a' (hP a b _ ha e)
      show (decryptAll dbg a' bs).bind _ = (encryptAll dbg a' bs).bind _
      rw [this]

theorem ofb_mode {dbg : Bool} {a : AES} {n : Nat} (hm : Ofb a.mode n) {b : Vector UInt8 16} {r : AES × Vector UInt8 16 × UInt32}
    (h : AES.encrypt dbg a b = some r) : r.1.mode = a.mode := by
  rw [encrypt_ofb dbg a hm] at h
  obtain ⟨st, -, h⟩ := Option.bind_eq_some_iff.1 h
  rw [← Option.some_inj.1 h]

theorem ctr_mode {dbg : Bool} {a : AES} {n : Nat} (hm : Ctr a.mode n) {b : Vector UInt8 16} {r : AES × Vector UInt8 16 × UInt32}
    (h : AES.encrypt dbg a b = some r) : r.1.mode = a.mode := by
  rw [encrypt_ctr dbg a hm] at h
  obtain ⟨st, -, h⟩ := Option.bind_eq_some_iff.1 h
  obtain ⟨f, -, h⟩ := Option.bind_eq_some_iff.1 h
  rw [← Option.some_inj.1 h]

/-- OFB with segments of 1, 2, 4, 8 or 16 bytes (with the whole output block fed back); decryption is encryption. -/
theorem C62_ofb (dbg : Bool) {a : AES} {E D : Block → Block} (h : Ciph a E D) {n : Nat} (hm : Ofb a.mode n)
    (bs : List (Vector UInt8 16)) :
    Wp (encryptAll dbg a bs) (fun r => r.2.map (seg n) = ofb E (blk a.f) (bs.map (seg n)) ∧ r.2.map (rest n) = bs.map (rest n)) ∧
      decryptAll dbg a bs = encryptAll dbg a bs :=
  ⟨ofb_all dbg bs h hm, decryptAll_eq dbg (fun a => Ofb a.mode n)
    (fun _ _ _ ha e => by rw [ofb_mode ha e]; exact ha) (fun a b ha => decrypt_ofb dbg a ha b) bs a hm⟩

/-! ## CTR -/

theorem ctr_cons (E : Block → Block) (v : Nat) (p : List Byte) (ps : List (List Byte)) :
    ctr E (fun j => ofValue ((v + j) % 2 ^ 128)) (p :: ps) =
      mask p (E (ofValue (v % 2 ^ 128))) :: ctr E (fun j => ofValue (((v + 1) % 2 ^ 128 + j) % 2 ^ 128)) ps := by
  unfold ctr
  rw [List.mapIdx_cons]
  congr 1
  apply congrArg (fun f => List.mapIdx f ps)
  funext j p
  dsimp only
  rw [Nat.mod_add_mod, show v + 1 + j = v + (j + 1) by omega]

theorem value_lt (f : Vector UInt8 16) : value (blk f) < 2 ^ 128 := by
  rw [value_blk]
  have := val_lt f.toList
  rw [Vector.length_toList] at this
  exact this

/-- CTR in a release build, with segments of 1, 2, 4, 8 or 16 bytes. The counters are the initialization vector plus 0,
1, 2, … modulo `2^128`, with the first byte as the least significant. -/
theorem ctr_all {E D : Block → Block} {n : Nat} : ∀ (bs : List (Vector UInt8 16)) {a : AES}, Ciph a E D → Ctr a.mode n →
    Wp (encryptAll false a bs) fun r =>
      r.2.map (seg n) = ctr E (fun j => ofValue ((value (blk a.f) + j) % 2 ^ 128)) (bs.map (seg n)) ∧ r.2.map (rest n) = bs.map (rest n)
  | [], _, _, _ => Wp.ret ⟨rfl, rfl⟩
  | b :: bs, a, h, hm => by
    obtain ⟨st, e, hs⟩ := h.1 a.f
    obtain ⟨f, ef, hf⟩ := increment_wp a.f
    refine encryptAll_cons (by rw [encrypt_ctr false a hm, e, Option.bind_some, ef, Option.bind_some]) ?_
    refine (ctr_all bs (h.with_f f) hm).mono ?_
    intro r hr
    dsimp only at hr
    rw [List.map_cons, List.map_cons, List.map_cons, List.map_cons, hr.1, hr.2, rest_xor, ctr_cons,
      Nat.mod_eq_of_lt (value_lt a.f), ofValue_value, ← hs, seg_xor, hf]
    exact ⟨rfl, rfl⟩

theorem C62_ctr {a : AES} {E D : Block → Block} (h : Ciph a E D) {n : Nat} (hm : Ctr a.mode n)
    (bs : List (Vector UInt8 16)) :
    (Wp (encryptAll false a bs) fun r =>
      r.2.map (seg n) = ctr E (fun j => ofValue ((value (blk a.f) + j) % 2 ^ 128)) (bs.map (seg n)) ∧
        r.2.map (rest n) = bs.map (rest n)) ∧
      ∀ dbg, decryptAll dbg a bs = encryptAll dbg a bs :=
  ⟨ctr_all bs h hm, fun dbg => decryptAll_eq dbg (fun a => Ctr a.mode n)
    (fun _ _ _ ha e => by rw [ctr_mode ha e]; exact ha) (fun a b ha => decrypt_ctr dbg a ha b) bs a hm⟩

/-- A build with overflow checks gives the same result as long as the first byte of the counter does not pass 255, and
panics otherwise: with the first byte `v` it handles `255 - v` segments. -/
theorem C62_ctr_debug {E D : Block → Block} {n : Nat} : ∀ (bs : List (Vector UInt8 16)) {a : AES}, Ciph a E D → Ctr a.mode n →
    encryptAll true a bs = if a.f[0].toNat + bs.length ≤ 255 then encryptAll false a bs else none
  | [], a, _, _ => by
    have := a.f[0].toNat_lt
    rw [if_pos (by rw [List.length_nil]; omega)]
    rfl
  | b :: bs, a, h, hm => by
    obtain ⟨st, e, hs⟩ := h.1 a.f
    obtain ⟨f, ef, hf⟩ := increment_eq a.f
    rw [encryptAll, encryptAll, encrypt_ctr true a hm, encrypt_ctr false a hm, e, Option.bind_some, Option.bind_some, increment_debug]
    by_cases h0 : a.f[0] = 255
    · rw [if_pos h0, if_neg (by rw [h0]; simp)]
      rfl
    · rw [if_neg h0, ef]
      have ih := C62_ctr_debug bs (h.with_f f) hm
      dsimp only at ih
      have hf0 : f[0].toNat = a.f[0].toNat + 1 := by
        have hl : a.f.toList = a.f[0] :: a.f.toList.drop 1 := by
          rw [← Vector.getElem_toList (xs := a.f) (i := 0) (by simp), ← List.drop_eq_getElem_cons, List.drop_zero]
        have h1 : f.toList[0]? = some f[0] := by rw [Vector.getElem?_toList, Vector.getElem?_eq_getElem]
        rw [hf, hl, incList, if_neg h0] at h1
        have : (a.f[0] : UInt8) + (1 : UInt8) = f[0] := by simpa using h1
        have hlt := a.f[0].toNat_lt
        have hne : a.f[0].toNat ≠ 255 := fun h => h0 (UInt8.toNat_inj.1 h)
        rw [← this, UInt8.toNat_add, show (1 : UInt8).toNat = 1 by decide]
        omega
      simp only [Option.bind_eq_bind, Option.bind_some, ih, hf0]
      by_cases hle : a.f[0].toNat + (b :: bs).length ≤ 255
      · rw [if_pos hle, if_pos (by simp at hle; omega)]
      · rw [if_neg hle, if_neg (by simp at hle; omega)]
        rfl

/-! ## Round trips and other values of the mode -/

theorem xorFirst_twice (n : Nat) (b st : Vector UInt8 16) : xorFirst n (xorFirst n b st) st = b := by
  apply Vector.ext
  intro i hi
  simp only [xorFirst, Vector.getElem_ofFn, Fin.getElem_fin]
  by_cases h : i < n
  · rw [if_pos h, if_pos h, UInt8.xor_assoc, UInt8.xor_self, UInt8.xor_zero]
  · rw [if_neg h, if_neg h]

/-- The fifteen modes. -/
def Mode (m : Nat) : Prop := m = ECB ∨ m = CBC ∨ ∃ n, Cfb m n ∨ Ofb m n ∨ Ctr m n

/-- A call of `decrypt` takes back what a call of `encrypt` in the same state did to the buffer, and ends in the same
state. -/
theorem step_inverse (dbg : Bool) {a : AES} {E D : Block → Block} (h : Ciph a E D) (hD : ∀ b, D (E b) = b) (hm : Mode a.mode)
    {b c : Vector UInt8 16} {a' : AES} {x : UInt32} (e : AES.encrypt dbg a b = some (a', c, x)) :
    (∃ y, AES.decrypt dbg a c = some (a', b, y)) ∧ Ciph a' E D ∧ a'.mode = a.mode := by
  rcases hm with hm | hm | ⟨n, hm | hm | hm⟩
  · rw [encrypt_ecb dbg a hm] at e
    obtain ⟨c', e1, e⟩ := Option.bind_eq_some_iff.1 e
    obtain ⟨rfl, rfl, rfl⟩ : a = a' ∧ c' = c ∧ (0 : UInt32) = x := by simpa using e
    obtain ⟨c1, e2, h2⟩ := h.1 b
    obtain ⟨p, e3, h3⟩ := h.2 c'
    rw [e1, Option.some_inj] at e2
    subst e2
    rw [decrypt_ecb dbg a hm, e3, blk_inj (a := p) (b := b) (by rw [h3, h2, hD])]
    exact ⟨⟨0, rfl⟩, h, rfl⟩
  · rw [encrypt_cbc dbg a hm] at e
    obtain ⟨c', e1, e⟩ := Option.bind_eq_some_iff.1 e
    obtain ⟨rfl, rfl, rfl⟩ : { a with f := c' } = a' ∧ c' = c ∧ (0 : UInt32) = x := by simpa using e
    obtain ⟨c1, e2, h2⟩ := h.1 (xorFirst 16 b a.f)
    obtain ⟨p, e3, h3⟩ := h.2 c'
    rw [e1, Option.some_inj] at e2
    subst e2
    rw [decrypt_cbc dbg a hm, e3, blk_inj (a := p) (b := xorFirst 16 b a.f) (by rw [h3, h2, hD]), Option.bind_some, xorFirst_twice]
    exact ⟨⟨0, rfl⟩, h.with_f _, rfl⟩
  · rw [encrypt_cfb dbg a hm] at e
    obtain ⟨st, e1, e⟩ := Option.bind_eq_some_iff.1 e
    obtain ⟨rfl, rfl, rfl⟩ : { a with f := shiftIn n a.f (xorFirst n b st) } = a' ∧ xorFirst n b st = c ∧ fellOff a.f n = x := by
      simpa using e
    rw [decrypt_cfb dbg a hm, e1, Option.bind_some, xorFirst_twice]
    exact ⟨⟨_, rfl⟩, h.with_f _, rfl⟩
  · rw [encrypt_ofb dbg a hm] at e
    obtain ⟨st, e1, e⟩ := Option.bind_eq_some_iff.1 e
    obtain ⟨rfl, rfl, rfl⟩ : { a with f := st } = a' ∧ xorFirst n b st = c ∧ (0 : UInt32) = x := by simpa using e
    rw [decrypt_ofb dbg a hm, encrypt_ofb dbg a hm, e1, Option.bind_some, xorFirst_twice]
    exact ⟨⟨_, rfl⟩, h.with_f _, rfl⟩
  · rw [encrypt_ctr dbg a hm] at e
    obtain ⟨st, e1, e⟩ := Option.bind_eq_some_iff.1 e
    obtain ⟨f, e2, e⟩ := Option.bind_eq_some_iff.1 e
    obtain ⟨rfl, rfl, rfl⟩ : { a with f := f } = a' ∧ xorFirst n b st = c ∧ (0 : UInt32) = x := by simpa using e
    rw [decrypt_ctr dbg a hm, encrypt_ctr dbg a hm, e1, Option.bind_some, e2, Option.bind_some, xorFirst_twice]
    exact ⟨⟨_, rfl⟩, h.with_f _, rfl⟩

/-- In every mode and every build: if the message can be encrypted, decryption from the same state gives it back, whole
buffers included, and ends in the same state. -/
theorem C62_roundtrip (dbg : Bool) {E D : Block → Block} (hD : ∀ b, D (E b) = b) : ∀ (bs : List (Vector UInt8 16)) {a a' : AES}
    {cs : List (Vector UInt8 16)}, Ciph a E D → Mode a.mode → encryptAll dbg a bs = some (a', cs) →
      decryptAll dbg a cs = some (a', bs)
  | [], a, a', cs, _, _, e => by
    obtain ⟨rfl, rfl⟩ : a = a' ∧ [] = cs := by simpa [encryptAll] using e
    rfl
  | b :: bs, a, a', cs, h, hm, e => by
    rw [encryptAll] at e
    obtain ⟨⟨a1, c, x⟩, e1, e⟩ := Option.bind_eq_some_iff.1 e
    dsimp only at e
    obtain ⟨⟨a2, cs'⟩, e2, e⟩ := Option.bind_eq_some_iff.1 e
    obtain ⟨rfl, rfl⟩ : a2 = a' ∧ c :: cs' = cs := by simpa using e
    obtain ⟨⟨y, e3⟩, h1, h2⟩ := step_inverse dbg h hD hm e1
    have := C62_roundtrip dbg hD bs h1 (by rw [h2]; exact hm) e2
    rw [decryptAll, e3]
    simp [this]

/-- With any other value of the mode, for example 4, the calls leave the buffer as it is: nothing is encrypted, and the
result does not tell. -/
theorem C62_other (dbg : Bool) (a : AES) (b : Vector UInt8 16) (h0 : a.mode ≠ ECB) (h1 : a.mode ≠ CBC)
    (h2 : ∀ n, ¬ (Cfb a.mode n ∨ Ofb a.mode n ∨ Ctr a.mode n)) :
    AES.encrypt dbg a b = some (a, b, 0) ∧ AES.decrypt dbg a b = some (a, b, 0) :=
  other_mode dbg a b h0 h1 (fun n h => h2 n (Or.inl h)) (fun n h => h2 n (Or.inr (Or.inl h))) (fun n h => h2 n (Or.inr (Or.inr h)))

/-! ## `end` -/

/-- `end` clears the register and the words of both keys that the last `init` wrote, and no others. -/
theorem C62_end {a : AES} (h : a.nr ≤ 14) : ∃ a', finish a = some a' ∧ (∀ i (hi : i < 16), a'.f[i] = 0) ∧
    (∀ i (hi : i < 60), i < 4 * (a.nr + 1) → a'.fkey[i] = 0 ∧ a'.rkey[i] = 0) ∧
    ∀ i (hi : i < 60), 4 * (a.nr + 1) ≤ i → a'.fkey[i] = a.fkey[i] ∧ a'.rkey[i] = a.rkey[i] := by
  unfold finish
  rw [if_neg (by omega)]
  refine ⟨_, rfl, ?_, ?_, ?_⟩
  · intro i hi
    simp
  · intro i hi h'
    simp [h']
  · intro i hi h'
    have : ¬ i < 4 * (a.nr + 1) := by omega
    simp [this]

/-- So the expanded key of an earlier, longer key survives: after `init` with a key of 32 bytes, `init` with a key of
16 bytes and `end`, the words 44 to 59 of the first expanded key are still in the object. -/
theorem C62_end_leaves (a : AES) (m1 m2 : Nat) (key1 key2 : List UInt8) (iv1 iv2 : Option (Vector UInt8 16))
    (h1 : 32 ≤ key1.length) (h2 : 16 ≤ key2.length) : ∃ a1 a2 a3, AES.init a m1 32 key1 iv1 = some (a1, true) ∧
      AES.init a1 m2 16 key2 iv2 = some (a2, true) ∧ finish a2 = some a3 ∧
      ∀ i (hi : i < 60), 44 ≤ i → byte a3.fkey[i] = weakExpansion 8 (keyBytes key1) i := by
  obtain ⟨⟨a1, ok1⟩, e1, r1, s1⟩ := init_wp a m1 32 key1 iv1 (by decide) h1 (weak_sched (by decide) _)
  dsimp only at r1 s1
  subst r1
  obtain ⟨⟨a2, ok2⟩, e2, r2, s2⟩ := init_wp a1 m2 16 key2 iv2 (by decide) h2 (weak_sched (by decide) _)
  dsimp only at r2 s2
  subst r2
  obtain ⟨a3, e3, -, -, h3⟩ := C62_end (a := a2) (by rw [s2.nr]; decide)
  refine ⟨a1, a2, a3, e1, e2, e3, fun i hi h44 => ?_⟩
  rw [(h3 i hi (by rw [s2.nr]; omega)).1, init_tail (by decide) e2 i hi (by omega)]
  exact s1.enc i hi (by omega)

/-! ## Concrete cases -/

/-- The mode CTR with segments of 16 bytes after `init` with the key `00 01 … 0f` and a counter of zeros: the second
block is combined with the encryption of the block `01 00 … 00`. -/
example : ∃ a, AES.init AES.new CTR16 16 (key256.take 16) (some (Vector.replicate 16 0)) = some (a, true) ∧
    Wp (encryptAll false a [plain, plain]) fun r => r.2.map (seg 16) =
      [mask (seg 16 plain) (Spec.AES.encrypt 4 (keyBytes (key256.take 16)) (ofValue 0)),
       mask (seg 16 plain) (Spec.AES.encrypt 4 (keyBytes (key256.take 16)) (ofValue 1))] := by
  obtain ⟨a, e, hm, hf, hc⟩ := C62_ready AES.new CTR16 16 (key256.take 16) (some (Vector.replicate 16 0)) (by decide) (by decide)
  have hv : value (blk a.f) = 0 := by rw [hf, value_blk]; decide
  refine ⟨a, e, ((C62_ctr hc (n := 16) (by rw [hm]; exact Or.inr (Or.inr (Or.inr (Or.inr ⟨rfl, rfl⟩)))) [plain, plain]).1).mono ?_⟩
  intro r hr
  rw [hr.1, hv, show weakExpansion (16 / 4) (keyBytes (key256.take 16)) = expansion 4 (keyBytes (key256.take 16)) from weak_eq' (by decide) _]
  rfl

/-- In a build with checks, the same object panics on the 256th block. -/
example : ∃ a, AES.init AES.new CTR16 16 (key256.take 16) (some (Vector.replicate 16 0)) = some (a, true) ∧
    encryptAll true a (List.replicate 256 plain) = none ∧ encryptAll true a (List.replicate 255 plain) ≠ none := by
  obtain ⟨a, e, hm, hf, hc⟩ := C62_ready AES.new CTR16 16 (key256.take 16) (some (Vector.replicate 16 0)) (by decide) (by decide)
  have hm' : Ctr a.mode 16 := by rw [hm]; exact Or.inr (Or.inr (Or.inr (Or.inr ⟨rfl, rfl⟩)))
  have h0 : a.f[0].toNat = 0 := by simp only [hf]; rfl
  refine ⟨a, e, ?_, ?_⟩
  · rw [C62_ctr_debug _ hc hm', h0, List.length_replicate]
    rfl
  · rw [C62_ctr_debug _ hc hm', h0, List.length_replicate, if_pos (by decide)]
    obtain ⟨r, e, -⟩ := (C62_ctr hc hm' (List.replicate 255 plain)).1
    rw [e]
    simp

/-- The value 4 of the mode: `init` accepts it and `encrypt` returns the plaintext. -/
example : ∃ a, AES.init AES.new 4 16 (key256.take 16) none = some (a, true) ∧ ∀ b, AES.encrypt false a b = some (a, b, 0) := by
  obtain ⟨a, e, hm, -, -⟩ := C62_ready AES.new 4 16 (key256.take 16) none (by decide) (by decide)
  refine ⟨a, e, fun b => (C62_other false a b (by rw [hm]; decide) (by rw [hm]; decide) ?_).1⟩
  rintro n h
  rw [hm] at h
  rcases h with h | h | h
  · rcases h with ⟨h, -⟩ | ⟨h, -⟩ | ⟨h, -⟩ <;> exact absurd h (by decide)
  · rcases h with ⟨h, -⟩ | ⟨h, -⟩ | ⟨h, -⟩ | ⟨h, -⟩ | ⟨h, -⟩ <;> exact absurd h (by decide)
  · rcases h with ⟨h, -⟩ | ⟨h, -⟩ | ⟨h, -⟩ | ⟨h, -⟩ | ⟨h, -⟩ <;> exact absurd h (by decide)

end Props
