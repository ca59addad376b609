import Verif.Proof.AesKey
/-!
# C61: `aes.rs` computes AES for keys of 16 and 24 bytes; for keys of 32 bytes it does not

The reference is FIPS 197 (`Verif/Spec/Aes.lean`).
-/

namespace Props
open Amcl Amcl.AES Spec.AES

set_option maxRecDepth 8000

/-- The specification of the field is sound: `inv` is the inverse, and `sbox`, `invSbox` are inverse to each other. -/
theorem C61_spec : (∀ b : Byte, b ≠ 0 → mul b (inv b) = 1) ∧ inv 0 = 0 ∧ (∀ b, invSbox (sbox b) = b) := by
  refine ⟨?_, by decide +kernel, invSbox_sbox⟩
  apply all_bytes
  decide +kernel

/-- The recursion of the code for all key lengths: Algorithm 2 of FIPS 197 without the step
`else if Nk > 6 and i mod Nk = 4 then temp ← SubWord(temp)`. -/
def weakExpansion (nk : Nat) (key : Nat → Byte) (i : Nat) : Word :=
  if h : i < nk ∨ nk = 0 then fun r => key (4 * i + r)
  else
    add (weakExpansion nk key (i - nk))
      (if i % nk = 0 then add (subWord (rotWord (weakExpansion nk key (i - 1)))) (rcon (i / nk))
       else weakExpansion nk key (i - 1))
termination_by i
decreasing_by all_goals omega

theorem weak_sched {nk : Nat} (h : 1 ≤ nk) (key : Nat → Byte) : Sched nk key (weakExpansion nk key) where
  first i hi := by rw [weakExpansion, dif_pos (Or.inl hi)]
  multiple t ht := by
    have : nk ≤ t * nk := Nat.le_mul_of_pos_left _ ht
    rw [weakExpansion, dif_neg (by omega), if_pos (Nat.mul_mod_left t nk), Nat.mul_div_cancel _ h]
  other i hi h0 := by
    rw [weakExpansion, dif_neg (by omega), if_neg h0]

/-- For keys of at most six words the missing step is never taken. -/
theorem weak_eq {nk : Nat} (h : nk ≤ 6) (key : Nat → Byte) (i : Nat) : weakExpansion nk key i = expansion nk key i := by
  induction i using Nat.strongRecOn with
  | ind i ih =>
    rw [weakExpansion, expansion]
    by_cases h0 : i < nk ∨ nk = 0
    · rw [dif_pos h0, dif_pos h0]
    · rw [dif_neg h0, dif_neg h0, ih _ (by omega), ih _ (by omega)]
      congr 1
      by_cases h1 : i % nk = 0
      · rw [if_pos h1, if_pos h1]
      · rw [if_neg h1, if_neg h1, if_neg (by omega)]

theorem weak_eq' {nk : Nat} (h : nk ≤ 6) (key : Nat → Byte) : weakExpansion nk key = expansion nk key :=
  funext (weak_eq h key)

theorem ready {a : AES} {nk m : Nat} {f : Vector UInt8 16} {W : Nat → Word} (h : Ready a nk m f W) (hnk : nk ≤ 8)
    (buff : Vector UInt8 16) :
    (∃ c, ecb_encrypt a buff = some c ∧ blk c = cipher (nk + 6) W (blk buff)) ∧
      (∃ p, ecb_decrypt a buff = some p ∧ blk p = invCipher (nk + 6) W (blk buff)) := by
  have e := ecb_encrypt_wp a (w := W) (by rw [h.nr]; exact h.enc) (by rw [h.nr]; omega) (by rw [h.nr]; omega) buff
  have d := ecb_decrypt_wp a (w := W) (by rw [h.nr]; exact h.dec) (by rw [h.nr]; omega) buff
  rw [h.nr] at e d
  exact ⟨e, d⟩

/-- With a key of four or six words, whatever the state of the object before: `init` accepts it, `ecb_encrypt` is the
encryption of AES-128 or AES-192, and `ecb_decrypt` is the decryption. -/
theorem C61_aes (a : AES) (m nkey : Nat) (key : List UInt8) (iv : Option (Vector UInt8 16))
    (hnk : nkey / 4 = 4 ∨ nkey / 4 = 6) (hl : 4 * (nkey / 4) ≤ key.length) :
    ∃ a', init a m nkey key iv = some (a', true) ∧ a'.mode = m ∧ a'.f = start m iv ∧
      ∀ buff, (∃ c, ecb_encrypt a' buff = some c ∧ blk c = Spec.AES.encrypt (nkey / 4) (keyBytes key) (blk buff)) ∧
        ∃ p, ecb_decrypt a' buff = some p ∧ blk p = Spec.AES.decrypt (nkey / 4) (keyBytes key) (blk buff) := by
  obtain ⟨⟨a', ok⟩, e, h1, h2⟩ := init_wp a m nkey key iv (by omega) hl (weak_sched (by omega) _)
  dsimp only at h1 h2
  subst h1
  rw [weak_eq' (by omega)] at h2
  exact ⟨a', e, h2.mode, h2.f, fun buff => ready h2 (by omega) buff⟩

/-- With a key of eight words the cipher is the one of FIPS 197 with the recursion that lacks a step. -/
theorem C61_eight_words (a : AES) (m nkey : Nat) (key : List UInt8) (iv : Option (Vector UInt8 16))
    (hnk : nkey / 4 = 8) (hl : 32 ≤ key.length) :
    ∃ a', init a m nkey key iv = some (a', true) ∧ a'.mode = m ∧ a'.f = start m iv ∧
      ∀ buff, (∃ c, ecb_encrypt a' buff = some c ∧ blk c = cipher 14 (weakExpansion 8 (keyBytes key)) (blk buff)) ∧
        ∃ p, ecb_decrypt a' buff = some p ∧ blk p = invCipher 14 (weakExpansion 8 (keyBytes key)) (blk buff) := by
  obtain ⟨⟨a', ok⟩, e, h1, h2⟩ := init_wp a m nkey key iv (by omega) (by omega) (weak_sched (by omega) _)
  dsimp only at h1 h2
  subst h1
  rw [hnk] at h2
  exact ⟨a', e, h2.mode, h2.f, fun buff => ready h2 (by omega) buff⟩

/-- With every key that `init` accepts, decryption undoes encryption and encryption undoes decryption. -/
theorem C61_inverse (a : AES) (m nkey : Nat) (key : List UInt8) (iv : Option (Vector UInt8 16))
    (hnk : nkey / 4 = 4 ∨ nkey / 4 = 6 ∨ nkey / 4 = 8) (hl : 4 * (nkey / 4) ≤ key.length) :
    ∃ a', init a m nkey key iv = some (a', true) ∧ ∀ buff,
      (ecb_encrypt a' buff).bind (ecb_decrypt a') = some buff ∧ (ecb_decrypt a' buff).bind (ecb_encrypt a') = some buff := by
  obtain ⟨⟨a', ok⟩, e, h1, h2⟩ := init_wp a m nkey key iv hnk hl (weak_sched (by omega) _)
  dsimp only at h1 h2
  subst h1
  refine ⟨a', e, fun buff => ⟨?_, ?_⟩⟩
  · obtain ⟨⟨c, ec, hc⟩, -⟩ := ready h2 (by omega) buff
    obtain ⟨-, p, ep, hp⟩ := ready h2 (by omega) c
    rw [ec, Option.bind_some, ep, blk_inj (a := p) (b := buff) (by rw [hp, hc, invCipher_cipher])]
  · obtain ⟨-, c, ec, hc⟩ := ready h2 (by omega) buff
    obtain ⟨⟨p, ep, hp⟩, -⟩ := ready h2 (by omega) c
    rw [ec, Option.bind_some, ep, blk_inj (a := p) (b := buff) (by rw [hp, hc, cipher_invCipher])]

/-- `init` refuses the key, and leaves the object as it is, if and only if `nkey/4` is not 4, 6 or 8. -/
theorem C61_init_refuses (a : AES) (m nkey : Nat) (key : List UInt8) (iv : Option (Vector UInt8 16)) :
    (init a m nkey key iv = some (a, false)) ↔ ¬ (nkey / 4 = 4 ∨ nkey / 4 = 6 ∨ nkey / 4 = 8) := by
  constructor
  · intro h hnk
    by_cases hl : 4 * (nkey / 4) ≤ key.length
    · obtain ⟨r, e, h1, -⟩ := init_wp a m nkey key iv hnk hl (weak_sched (by omega) _)
      rw [e, Option.some_inj] at h
      rw [h] at h1
      exact absurd h1 (by simp)
    · unfold init at h
      dsimp only at h
      rw [if_neg (by omega), loadKey_short key (nk := nkey / 4) (by omega) _ _ _ (by omega) (by omega)] at h
      exact absurd h (by simp)
  · intro hnk
    unfold init
    dsimp only
    rw [if_pos (by omega)]
    rfl

/-- With a length that it accepts and fewer bytes of key than `4·(nkey/4)`, `init` panics. -/
theorem C61_init_panics (a : AES) (m nkey : Nat) (key : List UInt8) (iv : Option (Vector UInt8 16))
    (hnk : nkey / 4 = 4 ∨ nkey / 4 = 6 ∨ nkey / 4 = 8) (hl : key.length < 4 * (nkey / 4)) : init a m nkey key iv = none := by
  unfold init
  dsimp only
  rw [if_neg (by omega), loadKey_short key (nk := nkey / 4) (by omega) _ _ _ (by omega) (by omega)]
  rfl

/-! ## AES-256 -/

theorem sbox_ne (b : Byte) : sbox b ≠ b := by
  rw [← fbsub_eq]
  revert b
  apply all_bytes
  decide +kernel

theorem early (key : Nat → Byte) (i : Nat) (h : i < 12) : weakExpansion 8 key i = expansion 8 key i := by
  induction i using Nat.strongRecOn with
  | ind i ih =>
    rw [weakExpansion, expansion]
    by_cases h0 : i < 8
    · rw [dif_pos (Or.inl h0), dif_pos (Or.inl h0)]
    · rw [dif_neg (by omega), dif_neg (by omega), ih _ (by omega) (by omega), ih _ (by omega) (by omega)]
      congr 1
      by_cases h1 : i % 8 = 0
      · rw [if_pos h1, if_pos h1]
      · rw [if_neg h1, if_neg h1, if_neg (by omega)]

/-- For every key of 32 bytes the expanded keys differ from the word 12 on: there all four bytes differ. -/
theorem C61_eight_words_differ (key : Nat → Byte) (r : Fin 4) : weakExpansion 8 key 12 r ≠ expansion 8 key 12 r := by
  rw [weakExpansion, expansion, dif_neg (by decide), dif_neg (by decide), if_neg (by decide), if_neg (by decide), if_pos (by decide)]
  rw [early key _ (by decide), early key _ (by decide)]
  show _ ^^^ _ ≠ _ ^^^ sbox _
  intro h
  have := congrArg (fun x => expansion 8 key (12 - 8) r ^^^ x) h
  simp only [← BitVec.xor_assoc, BitVec.xor_self, BitVec.zero_xor] at this
  exact sbox_ne _ this.symm

/-- The expanded key of the key `00 01 … 1f` (FIPS 197). -/
def words256 : Vector UInt32 60 := #v[
  0x03020100, 0x07060504, 0x0b0a0908, 0x0f0e0d0c, 0x13121110, 0x17161514, 0x1b1a1918, 0x1f1e1d1c, 0x9fc273a5, 0x98c476a1,
  0x93ce7fa9, 0x9cc072a5, 0xcda85116, 0xdabe4402, 0xc1a45d1a, 0xdeba4006, 0xf0df87ae, 0x681bf10f, 0xfbd58ea6, 0x6715fc03,
  0x48f1e16d, 0x924fa56f, 0x53ebf875, 0x8d51b873, 0x7f8256c6, 0x1799a7c9, 0xec4c296f, 0x8b59d56c, 0x753ae23d, 0xe7754752,
  0xb49ebf27, 0x39cf0754, 0x5f90dc0b, 0x48097bc2, 0xa44552ad, 0x2f1c87c1, 0x60a6f545, 0x87d3b217, 0x334d0d30, 0x0a820a64,
  0x1cf7cf7c, 0x54feb4be, 0xf0bbe613, 0xdfa761d2, 0xfefa1af0, 0x7929a8e7, 0x4a64a5d7, 0x40e6afb3, 0x71fe4125, 0x2500f59b,
  0xd5bb1388, 0x0a1c725a, 0x99665a4e, 0xe04ff2a9, 0xaa2b577e, 0xeacdf8cd, 0xcc79fc24, 0xe97909bf, 0x3cc21a37, 0x36de686d]

/-- The expanded key of the same key in the code. -/
def weak256 : Vector UInt32 60 := #v[
  0x03020100, 0x07060504, 0x0b0a0908, 0x0f0e0d0c, 0x13121110, 0x17161514, 0x1b1a1918, 0x1f1e1d1c, 0x9fc273a5, 0x98c476a1,
  0x93ce7fa9, 0x9cc072a5, 0x8fd263b5, 0x98c476a1, 0x83de6fb9, 0x9cc072a5, 0x991cc9e7, 0x01d8bf46, 0x9216c0ef, 0x0ed6b24a,
  0x8104d1ff, 0x19c0a75e, 0x9a1ec8e7, 0x06deba42, 0xb573d417, 0xb4ab6b51, 0x26bdabbe, 0x286b19f4, 0xa96fc80b, 0xb0af6f55,
  0x2ab1a7b2, 0x2c6f1df0, 0x39027cbb, 0x8da917ea, 0xab14bc54, 0x837fa5a0, 0x2a106dab, 0x9abf02fe, 0xb00ea54c, 0x9c61b8bc,
  0x5cdc93c7, 0xd175842d, 0x7a613879, 0xf91e9dd9, 0xd30ef072, 0x49b1f28c, 0xf9bf57c0, 0x65deef7c, 0x4c918e38, 0x9de40a15,
  0xe785326c, 0x1e9bafb5, 0xcd955fc7, 0x8424ad4b, 0x7d9bfa8b, 0x184515f7, 0x243ce021, 0xb9d8ea34, 0x5e5dd858, 0x40c677ed]

/-- The key of the example C.3 of FIPS 197. -/
def key256 : List UInt8 := [0x00, 0x01, 0x02, 0x03, 0x04, 0x05, 0x06, 0x07, 0x08, 0x09, 0x0a, 0x0b, 0x0c, 0x0d, 0x0e, 0x0f,
  0x10, 0x11, 0x12, 0x13, 0x14, 0x15, 0x16, 0x17, 0x18, 0x19, 0x1a, 0x1b, 0x1c, 0x1d, 0x1e, 0x1f]

/-- The plaintext of the examples in appendix C of FIPS 197. -/
def plain : Vector UInt8 16 :=
  #v[0x00, 0x11, 0x22, 0x33, 0x44, 0x55, 0x66, 0x77, 0x88, 0x99, 0xaa, 0xbb, 0xcc, 0xdd, 0xee, 0xff]

/-- One step of the recursion, on words as the code holds them. -/
def stepOk (full : Bool) (v : Vector UInt32 60) (i : Fin 52) : Prop :=
  v.get ⟨i + 8, by omega⟩ = v.get ⟨i, by omega⟩ ^^^
    (if (i.val + 8) % 8 = 0 then subbyte (rotl24 (v.get ⟨i + 7, by omega⟩)) ^^^ (RCO.get ⟨(i + 8) / 8 - 1, by omega⟩).toUInt32
     else if full = true ∧ (i.val + 8) % 8 = 4 then subbyte (v.get ⟨i + 7, by omega⟩) else v.get ⟨i + 7, by omega⟩)

instance (full : Bool) (v : Vector UInt32 60) (i : Fin 52) : Decidable (stepOk full v i) := by
  unfold stepOk; infer_instance

theorem rcon_byte (x : UInt32) (y : UInt8) (t : Nat) (hy : y.toBitVec = xpow 1 (t - 1)) :
    byte (subbyte (rotl24 x) ^^^ y.toUInt32) = add (subWord (rotWord (byte x))) (rcon t) := by
  funext r
  rw [byte_xor, subbyte_eq, byte_rotl24, byte_low, hy]
  unfold add subWord rotWord rcon
  rw [show r - 3 = r + 1 by omega]

theorem byte_add (x y : UInt32) : byte (x ^^^ y) = add (byte x) (byte y) := funext fun r => byte_xor x y r

theorem keys256 (hs : ∀ i, stepOk true words256 i) (h0 : ∀ i : Fin 8, ∀ r : Fin 4, byte (words256.get ⟨i, by omega⟩) r = keyBytes key256 (4 * i + r)) :
    ∀ i (h : i < 60), byte (words256.get ⟨i, h⟩) = expansion 8 (keyBytes key256) i := by
  intro i
  induction i using Nat.strongRecOn with
  | ind i ih =>
    intro h
    rw [expansion]
    by_cases hi : i < 8
    · rw [dif_pos (Or.inl hi)]
      funext r
      exact h0 ⟨i, hi⟩ r
    · obtain ⟨j, rfl⟩ : ∃ j, i = j + 8 := ⟨i - 8, by omega⟩
      have := hs ⟨j, by omega⟩
      unfold stepOk at this
      dsimp only at this
      rw [this, byte_add, dif_neg (by omega), ih j (by omega) (by omega), show j + 8 - 8 = j by omega]
      congr 1
      rw [show j + 8 - 1 = j + 7 by omega, ← ih (j + 7) (by omega) (by omega)]
      by_cases h1 : (j + 8) % 8 = 0
      · rw [if_pos h1, if_pos h1]
        exact rcon_byte _ _ _ (rco_all _)
      · rw [if_neg h1, if_neg h1]
        by_cases h2 : (j + 8) % 8 = 4
        · rw [if_pos ⟨rfl, h2⟩, if_pos ⟨by decide, h2⟩]
          exact funext fun r => subbyte_eq _ r
        · rw [if_neg (fun h => h2 h.2), if_neg (fun h => h2 h.2)]

theorem weakKeys256 (hs : ∀ i, stepOk false weak256 i) (h0 : ∀ i : Fin 8, ∀ r : Fin 4, byte (weak256.get ⟨i, by omega⟩) r = keyBytes key256 (4 * i + r)) :
    ∀ i (h : i < 60), byte (weak256.get ⟨i, h⟩) = weakExpansion 8 (keyBytes key256) i := by
  intro i
  induction i using Nat.strongRecOn with
  | ind i ih =>
    intro h
    rw [weakExpansion]
    by_cases hi : i < 8
    · rw [dif_pos (Or.inl hi)]
      funext r
      exact h0 ⟨i, hi⟩ r
    · obtain ⟨j, rfl⟩ : ∃ j, i = j + 8 := ⟨i - 8, by omega⟩
      have := hs ⟨j, by omega⟩
      unfold stepOk at this
      dsimp only at this
      rw [this, byte_add, dif_neg (by omega), ih j (by omega) (by omega), show j + 8 - 8 = j by omega]
      congr 1
      rw [show j + 8 - 1 = j + 7 by omega, ← ih (j + 7) (by omega) (by omega)]
      by_cases h1 : (j + 8) % 8 = 0
      · rw [if_pos h1, if_pos h1]
        exact rcon_byte _ _ _ (rco_all _)
      · rw [if_neg h1, if_neg h1, if_neg (by simp)]

/-- An object with the expanded key of FIPS 197. -/
def good256 : AES := ⟨8, 14, 0, words256, words256, Vector.replicate 16 0⟩
/-- An object with the expanded key of the code. -/
def bad256 : AES := ⟨8, 14, 0, weak256, weak256, Vector.replicate 16 0⟩

theorem good_out : ecb_encrypt good256 plain =
    some #v[0x8e, 0xa2, 0xb7, 0xca, 0x51, 0x67, 0x45, 0xbf, 0xea, 0xfc, 0x49, 0x90, 0x4b, 0x49, 0x60, 0x89] := by
  decide +kernel

theorem bad_out : ecb_encrypt bad256 plain =
    some #v[0xeb, 0xbb, 0x61, 0xb1, 0x87, 0x94, 0xd6, 0xe6, 0x7d, 0x2c, 0x1c, 0xf8, 0xee, 0xc9, 0x79, 0x3e] := by
  decide +kernel

/-- The example C.3 of FIPS 197: with the key `00 01 … 1f`, AES-256 sends `00 11 … ff` to `8e a2 … 89` (as the standard
says), and the code to `eb bb … 3e`. -/
theorem C61_example (a : AES) (m : Nat) (iv : Option (Vector UInt8 16)) :
    Spec.AES.encrypt 8 (keyBytes key256) (blk plain) =
        blk #v[0x8e, 0xa2, 0xb7, 0xca, 0x51, 0x67, 0x45, 0xbf, 0xea, 0xfc, 0x49, 0x90, 0x4b, 0x49, 0x60, 0x89] ∧
      ∃ a', init a m 32 key256 iv = some (a', true) ∧ ecb_encrypt a' plain =
        some #v[0xeb, 0xbb, 0x61, 0xb1, 0x87, 0x94, 0xd6, 0xe6, 0x7d, 0x2c, 0x1c, 0xf8, 0xee, 0xc9, 0x79, 0x3e] := by
  constructor
  · obtain ⟨c, e, h⟩ := ecb_encrypt_wp good256 (w := expansion 8 (keyBytes key256))
      (fun i h _ => keys256 (by decide +kernel) (by decide +kernel) i h) (by decide) (by decide) plain
    rw [good_out, Option.some_inj] at e
    rw [← e] at h
    exact h.symm
  · obtain ⟨a', e, -, -, h⟩ := C61_eight_words a m 32 key256 iv rfl (by decide)
    obtain ⟨⟨c, ec, hc⟩, -⟩ := h plain
    refine ⟨a', e, ?_⟩
    obtain ⟨c', e', h'⟩ := ecb_encrypt_wp bad256 (w := weakExpansion 8 (keyBytes key256))
      (fun i h _ => weakKeys256 (by decide +kernel) (by decide +kernel) i h) (by decide) (by decide) plain
    rw [bad_out, Option.some_inj] at e'
    rw [ec, blk_inj (a := c) (b := c') (hc.trans h'.symm), ← e']

/-- So there are a key of 32 bytes and a block that the code does not encrypt as AES-256 does. -/
theorem C61_not_aes256 : ∃ key : List UInt8, key.length = 32 ∧ ∃ buff, ∀ a m iv, ∃ a' c,
    init a m 32 key iv = some (a', true) ∧ ecb_encrypt a' buff = some c ∧ blk c ≠ Spec.AES.encrypt 8 (keyBytes key) (blk buff) := by
  refine ⟨key256, rfl, plain, fun a m iv => ?_⟩
  obtain ⟨h, a', e, ec⟩ := C61_example a m iv
  refine ⟨a', _, e, ec, fun hb => ?_⟩
  rw [h] at hb
  exact absurd (blk_inj hb) (by decide)

/-! ## Concrete cases -/

/-- The key `00 01 … 0f` meets the hypotheses of `C61_aes` and `C61_inverse`. -/
example : ∃ a', init new ECB 16 (key256.take 16) none = some (a', true) ∧ ∀ buff,
    (∃ c, ecb_encrypt a' buff = some c ∧ blk c = Spec.AES.encrypt 4 (keyBytes (key256.take 16)) (blk buff)) := by
  obtain ⟨a', e, -, -, h⟩ := C61_aes new ECB 16 (key256.take 16) none (Or.inl rfl) (by decide)
  exact ⟨a', e, fun buff => (h buff).1⟩

/-- FIPS 197, 5.1.1: `sbox 53 = ed`; 4.2: `57 · 13 = fe`. -/
example : sbox 0x53 = 0xed ∧ mul 0x57 0x13 = 0xfe := by decide +kernel

/-- A length that is no multiple of four is rounded down, and 20 is refused. -/
example : 19 / 4 = 4 ∧ init new ECB 20 key256 none = some (new, false) :=
  ⟨by decide, (C61_init_refuses _ _ _ _ _).2 (by decide)⟩

end Props
