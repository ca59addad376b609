import Verif.Proof.EcdhCbc
/-!
# C68: `cbc_iv0_encrypt` and `cbc_iv0_decrypt` of `ecdh.rs`

The reference is CBC (SP 800-38A, 6.2) with the initialization vector 0 and the padding of PKCS #7
(`Verif/Spec/CbcPad.lean`). `E` and `D` are the block cipher of C61: AES for keys of 4 or 6 words. The encryption is
right. The decryption decrypts and checks the padding, but then returns a wrong last block: copies of the padding byte
in the place of the bytes of the message.
-/

namespace Props
open Amcl Amcl.ecdh
open AES (blk Ciph keyBytes)
open Spec.AES (Block cipher invCipher)
open Spec.Modes (pad blocksOf cbcEnc cbcDec)

/-- The encryption of a block with the key `k`. -/
def E (k : List UInt8) : Block → Block := cipher (k.length / 4 + 6) (weakExpansion (k.length / 4) (keyBytes k))
/-- The decryption of a block with the key `k`. -/
def D (k : List UInt8) : Block → Block := invCipher (k.length / 4 + 6) (weakExpansion (k.length / 4) (keyBytes k))

/-- The lengths of keys that `init` accepts. -/
def GoodKey (k : List UInt8) : Prop := k.length / 4 = 4 ∨ k.length / 4 = 6 ∨ k.length / 4 = 8

/-- For keys of 4 or 6 words, this is AES. -/
theorem C68_aes {k : List UInt8} (h : k.length / 4 = 4 ∨ k.length / 4 = 6) :
    E k = Spec.AES.encrypt (k.length / 4) (keyBytes k) ∧ D k = Spec.AES.decrypt (k.length / 4) (keyBytes k) := by
  unfold E D
  rw [weak_eq' (by omega)]
  exact ⟨rfl, rfl⟩

theorem cbcReady {k : List UInt8} (h : GoodKey k) : ∃ a, AES.init AES.new AES.CBC k.length k none = some (a, true) ∧ a.mode = AES.CBC ∧
    a.nr ≤ 14 ∧ blk a.f = (fun _ => 0) ∧ Ciph a (E k) (D k) := by
  obtain ⟨⟨a', ok⟩, e, h1, h2⟩ := AES.init_wp AES.new AES.CBC k.length k none h (by omega) (weak_sched (by unfold GoodKey at h; omega) _)
  dsimp only at h1 h2
  subst h1
  unfold GoodKey at h
  refine ⟨a', e, h2.mode, by rw [h2.nr]; omega, ?_, fun b => (ready h2 (by omega) b).1, fun b => (ready h2 (by omega) b).2⟩
  rw [h2.f]
  funext i
  simp [AES.start, AES.CBC, AES.ECB, blk]

theorem encryptAll_nr : ∀ (bs : List (Vector UInt8 16)) {a a' : AES} {cs : List (Vector UInt8 16)}, a.mode = AES.CBC →
    encryptAll true a bs = some (a', cs) → a'.nr = a.nr ∧ cs.length = bs.length
  | [], a, a', cs, _, e => by
    obtain ⟨rfl, rfl⟩ : a = a' ∧ [] = cs := by simpa [encryptAll] using e
    exact ⟨rfl, rfl⟩
  | b :: bs, a, a', cs, hm, e => by
    rw [encryptAll, AES.encrypt_cbc true a hm] at e
    obtain ⟨⟨a1, c, x⟩, e1, e⟩ := Option.bind_eq_some_iff.1 e
    dsimp only at e
    obtain ⟨⟨a2, cs'⟩, e2, e⟩ := Option.bind_eq_some_iff.1 e
    obtain ⟨rfl, rfl⟩ : a2 = a' ∧ c :: cs' = cs := by simpa using e
    obtain ⟨c', -, e1⟩ := Option.bind_eq_some_iff.1 e1
    obtain ⟨rfl, rfl, rfl⟩ : { a with f := c' } = a1 ∧ c' = c ∧ (0 : UInt32) = x := by simpa using e1
    obtain ⟨h1, h2⟩ := encryptAll_nr bs (a := { a with f := c' }) hm e2
    exact ⟨h1, by rw [List.length_cons, List.length_cons, h2]⟩

theorem decryptAll_nr : ∀ (bs : List (Vector UInt8 16)) {a a' : AES} {cs : List (Vector UInt8 16)}, a.mode = AES.CBC →
    decryptAll true a bs = some (a', cs) → a'.nr = a.nr ∧ a'.mode = AES.CBC ∧ cs.length = bs.length
  | [], a, a', cs, hm, e => by
    obtain ⟨rfl, rfl⟩ : a = a' ∧ [] = cs := by simpa [decryptAll] using e
    exact ⟨rfl, hm, rfl⟩
  | b :: bs, a, a', cs, hm, e => by
    rw [decryptAll, AES.decrypt_cbc true a hm] at e
    obtain ⟨⟨a1, c, x⟩, e1, e⟩ := Option.bind_eq_some_iff.1 e
    dsimp only at e
    obtain ⟨⟨a2, cs'⟩, e2, e⟩ := Option.bind_eq_some_iff.1 e
    obtain ⟨rfl, rfl⟩ : a2 = a' ∧ c :: cs' = cs := by simpa using e
    obtain ⟨c', -, e1⟩ := Option.bind_eq_some_iff.1 e1
    obtain ⟨rfl, rfl, rfl⟩ : { a with f := b } = a1 ∧ AES.xorFirst 16 c' a.f = c ∧ (0 : UInt32) = x := by simpa using e1
    obtain ⟨h1, h2, h3⟩ := decryptAll_nr bs (a := { a with f := b }) hm e2
    exact ⟨h1, h2, by rw [List.length_cons, List.length_cons, h3]⟩

theorem blk_full {l : List UInt8} (h : l.length % 16 = 0) : (full l 0 (l.length / 16)).map blk = blocksOf l := by
  rw [← blocksOf_flat, flat_full _ _ (by omega), List.drop_zero, List.take_of_length_le (by omega)]

theorem encryptParts {k : List UInt8} (h : GoodKey k) (m : List UInt8) : ∃ a a' cs, AES.init AES.new AES.CBC k.length k none = some (a, true) ∧
    a.mode = AES.CBC ∧ a.nr ≤ 14 ∧ blk a.f = (fun _ => 0) ∧ Ciph a (E k) (D k) ∧ encryptAll true a (full (pad m) 0 (m.length / 16 + 1)) = some (a', cs) ∧
    cs.map blk = cbcEnc (E k) (fun _ => 0) (blocksOf (pad m)) ∧ cs.length = m.length / 16 + 1 ∧ cbc_iv0_encrypt k m = some (flat cs) := by
  obtain ⟨a, e, hm, hn, hf, hc⟩ := cbcReady h
  obtain ⟨⟨a', cs⟩, e1, h1⟩ := C62_cbc_encrypt true (full (pad m) 0 (m.length / 16 + 1)) hc hm
  obtain ⟨h2, h3⟩ := encryptAll_nr _ hm e1
  have hl := length_pad m
  rw [hf, show m.length / 16 + 1 = (pad m).length / 16 by omega, blk_full (by omega)] at h1
  rw [length_full] at h3
  obtain ⟨z, hz, -⟩ := C62_end (a := a') (by omega)
  exact ⟨a, a', cs, e, hm, hn, hf, hc, e1, h1, h3, encrypt_eq e e1 ⟨z, hz⟩⟩

/-- The encryption is CBC of the padded message. -/
theorem C68_encrypt {k : List UInt8} (h : GoodKey k) (m : List UInt8) : ∃ c, cbc_iv0_encrypt k m = some c ∧ c.length = (pad m).length ∧
    blocksOf c = cbcEnc (E k) (fun _ => 0) (blocksOf (pad m)) := by
  obtain ⟨a, a', cs, -, -, -, -, -, -, h1, h2, h3⟩ := encryptParts h m
  exact ⟨_, h3, by rw [length_flat, length_pad, h2], by rw [blocksOf_flat, h1]⟩

/-! ## Decryption -/

/-- `P` ends with a padding of `n` bytes. -/
def Padded (n : Nat) (P : List UInt8) : Prop := 1 ≤ n ∧ n ≤ 16 ∧ ∃ u, P = u ++ List.replicate n (UInt8.ofNat n)

theorem bt_last {u : List UInt8} {n i : Nat} {x : UInt8} (h1 : u.length ≤ i) (h2 : i < u.length + n) : NHS.bt (u ++ List.replicate n x) i = x := by
  rw [NHS.bt_append, if_neg (by omega), NHS.bt, List.getElem?_replicate, if_pos (by omega)]; rfl

theorem badPad_good {v : Vector UInt8 16} {n : Nat} (h1 : 1 ≤ n) (h2 : n ≤ 16) (h : ∀ j (hj : j < 16), 16 - n ≤ j → v[j] = UInt8.ofNat n) :
    badPad 15 v = false ∧ v[15].toNat = n := by
  have h15 : v[15].toNat = n := by
    rw [h 15 (by omega) (by omega), UInt8.toNat_ofNat']; omega
  refine ⟨?_, h15⟩
  unfold badPad
  dsimp only
  rw [h15, decide_eq_false_iff_not]
  rintro ((c | c | c) | ⟨-, -, j, c1, c2⟩)
  · exact c rfl
  · omega
  · omega
  · exact c2 (h j.val j.isLt c1)

theorem badPad_bad {v : Vector UInt8 16} (h : badPad 15 v = false) : 1 ≤ v[15].toNat ∧ v[15].toNat ≤ 16 ∧
    ∀ j (hj : j < 16), 16 - v[15].toNat ≤ j → v[j] = UInt8.ofNat v[15].toNat := by
  unfold badPad at h
  dsimp only at h
  rw [decide_eq_false_iff_not, not_or] at h
  obtain ⟨h1, h2⟩ := h
  have h1 : 1 ≤ v[15].toNat ∧ v[15].toNat ≤ 16 := by
    constructor <;> · by_contra c; exact h1 (by omega)
  refine ⟨h1.1, h1.2, fun j hj c => ?_⟩
  by_cases c1 : v[15].toNat = 1
  · have : j = 15 := by omega
    subst this
    rw [UInt8.ofNat_toNat]
  · by_contra c2
    exact h2 ⟨by omega, h1.2, ⟨j, hj⟩, c, c2⟩

theorem bt_flat_last (ps : List (Vector UInt8 16)) (d : Vector UInt8 16) {j : Nat} (hj : j < 16) : NHS.bt (flat (ps ++ [d])) (16 * ps.length + j) = d[j] := by
  rw [flat_append, NHS.bt_append, length_flat, if_neg (by omega), Nat.add_sub_cancel_left, flat_cons, NHS.bt_append, if_pos (by simpa using hj), bt_vec]

/-- Decryption of a string of complete blocks, in terms of the decrypted blocks. -/
theorem decryptParts {k c : List UInt8} (h : GoodKey k) (h0 : 0 < c.length) (h16 : c.length % 16 = 0) {a a2 : AES} {bs : List (Vector UInt8 16)}
    (hi : AES.init AES.new AES.CBC k.length k none = some (a, true)) (e : decryptAll true a (full c 0 (c.length / 16)) = some (a2, bs)) :
    ∃ ps d, bs = ps ++ [d] ∧ ps.length = c.length / 16 - 1 ∧
      cbc_iv0_decrypt k c = some (if badPad 15 d then none else some (flat ps ++ List.replicate (16 - d[15].toNat) d[15])) := by
  obtain ⟨a0, e0, hm, hn, hf, hc⟩ := cbcReady h
  obtain rfl : a0 = a := by rw [hi] at e0; simpa using e0.symm
  obtain ⟨q, hq⟩ : ∃ q, c.length / 16 = q + 1 := ⟨c.length / 16 - 1, by omega⟩
  obtain ⟨⟨a1, ps⟩, e1, -⟩ := C62_cbc_decrypt true (full c 0 q) hc hm
  obtain ⟨h1, h2, h3⟩ := decryptAll_nr _ hm e1
  obtain ⟨b, hb, hd⟩ := decLoop_eq c q a0 0 (Vector.replicate 16 0) [] (by omega) (by omega) e1
  have hb' : b = vecAt c (0 + 16 * q) := by
    apply Vector.ext
    intro j hj
    rw [hb j hj (by omega), vecAt, Vector.getElem_ofFn]
  obtain ⟨p, ep, -⟩ := hc.2 b
  have ea : AES.ecb_decrypt a1 b = some p := by
    rw [← ep]; exact decryptAll_ecb _ hm e1 b
  have e2 : AES.decrypt true a1 b = some ({ a1 with f := b }, AES.xorFirst 16 p a1.f, 0) := by
    rw [AES.decrypt_cbc true a1 h2, ea]; rfl
  rw [hq, full_append, ← hb', decryptAll_append e1 e2] at e
  obtain ⟨rfl, rfl⟩ : { a1 with f := b } = a2 ∧ ps ++ [AES.xorFirst 16 p a1.f] = bs := by simpa using e
  rw [length_full] at h3
  refine ⟨ps, _, rfl, by omega, ?_⟩
  obtain ⟨z, hz, -⟩ := C62_end (a := { a1 with f := b }) (by show a1.nr ≤ 14; omega)
  rw [cbc_iv0_decrypt, hi]
  simp only [sb']
  rw [if_neg (by omega), NHS.get_bt c h0]
  simp only [sb']
  have := hd e2
  rw [Nat.zero_add] at this
  rw [this]
  simp only [sb']
  rw [hz, show c.length - 0 - 16 * q - 1 = 15 by omega]
  simp only [sb']
  split
  · rfl
  · rw [Vector.getElem?_eq_getElem (by omega)]
    rfl
where
  decryptAll_ecb : ∀ (bs : List (Vector UInt8 16)) {a a' : AES} {cs : List (Vector UInt8 16)}, a.mode = AES.CBC →
      decryptAll true a bs = some (a', cs) → ∀ b, AES.ecb_decrypt a' b = AES.ecb_decrypt a b
    | [], a, a', cs, hm, e => by
      obtain ⟨rfl, rfl⟩ : a = a' ∧ [] = cs := by simpa [decryptAll] using e
      exact fun _ => rfl
    | b :: bs, a, a', cs, hm, e => by
      rw [decryptAll, AES.decrypt_cbc true a hm] at e
      obtain ⟨⟨a1, c, x⟩, e1, e⟩ := Option.bind_eq_some_iff.1 e
      dsimp only at e
      obtain ⟨⟨a2, cs'⟩, e2, e⟩ := Option.bind_eq_some_iff.1 e
      obtain ⟨rfl, rfl⟩ : a2 = a' ∧ c :: cs' = cs := by simpa using e
      obtain ⟨c', -, e1⟩ := Option.bind_eq_some_iff.1 e1
      obtain ⟨rfl, rfl, rfl⟩ : { a with f := b } = a1 ∧ AES.xorFirst 16 c' a.f = c ∧ (0 : UInt32) = x := by simpa using e1
      exact decryptAll_ecb bs (a := { a with f := b }) hm e2

/-- Decryption of a string of complete blocks. `P` is its CBC decryption. If `P` ends with a padding of `n` bytes, the
result is `P` without its last block, then `16 - n` times the byte `n`; otherwise the string is refused. -/
theorem C68_decrypt {k c : List UInt8} (h : GoodKey k) (h0 : 0 < c.length) (h16 : c.length % 16 = 0) : ∃ P : List UInt8, P.length = c.length ∧
    blocksOf P = cbcDec (D k) (fun _ => 0) (blocksOf c) ∧
    (∀ n, Padded n P → cbc_iv0_decrypt k c = some (some (P.take (P.length - 16) ++ List.replicate (16 - n) (UInt8.ofNat n)))) ∧
    ((∀ n, ¬ Padded n P) → cbc_iv0_decrypt k c = some none) := by
  obtain ⟨a, e0, hm, hn, hf, hc⟩ := cbcReady h
  obtain ⟨⟨a2, bs⟩, e, he⟩ := C62_cbc_decrypt true (full c 0 (c.length / 16)) hc hm
  obtain ⟨-, -, hl⟩ := decryptAll_nr _ hm e
  rw [length_full] at hl
  rw [hf, blk_full h16] at he
  obtain ⟨ps, d, rfl, hps, hr⟩ := decryptParts h h0 h16 e0 e
  have hP : (flat (ps ++ [d])).length = c.length := by rw [length_flat, hl]; omega
  have hfl : flat (ps ++ [d]) = flat ps ++ d.toList := by rw [flat_append]; simp [flat]
  refine ⟨flat (ps ++ [d]), hP, by rw [blocksOf_flat, he], fun n ⟨h1, h2, u, hu⟩ => ?_, fun hno => ?_⟩
  · have hul : u.length + n = c.length := by rw [← hP, hu]; simp
    obtain ⟨g1, g2⟩ := badPad_good (v := d) h1 h2 fun j hj hjn => by
      rw [← bt_flat_last ps d hj, hu, bt_last (by omega) (by omega)]
    rw [hr, g1, if_neg (by decide), hP, hfl, List.take_left' (by rw [length_flat]; omega), ← g2, UInt8.ofNat_toNat]
  · cases g : badPad 15 d with
    | true => rw [hr, g]; rfl
    | false =>
      obtain ⟨g1, g2, g3⟩ := badPad_bad g
      refine absurd ⟨g1, g2, (flat (ps ++ [d])).take (c.length - d[15].toNat), NHS.bt_ext (by simp; omega) fun i hi => ?_⟩ (hno d[15].toNat)
      rw [hP] at hi
      have hlt : ((flat (ps ++ [d])).take (c.length - d[15].toNat)).length = c.length - d[15].toNat := by rw [List.length_take]; omega
      by_cases ci : i < c.length - d[15].toNat
      · rw [NHS.bt_append, hlt, if_pos ci, NHS.bt_take _ ci]
      · rw [bt_last (by omega) (by omega), show i = 16 * ps.length + (i - 16 * ps.length) by omega, bt_flat_last ps d (by omega), g3 _ _ (by omega)]

/-- Strings that are not made of complete blocks are refused, and the empty one. -/
theorem C68_decrypt_length {k c : List UInt8} (h : GoodKey k) (hc : c.length = 0 ∨ c.length % 16 ≠ 0) : cbc_iv0_decrypt k c = some none := by
  obtain ⟨a, e0, hm, hn, hf, hC⟩ := cbcReady h
  rw [cbc_iv0_decrypt, e0]
  simp only [sb']
  by_cases h0 : c.length = 0
  · rw [if_pos h0]; rfl
  · have hc : c.length % 16 ≠ 0 := by omega
    rw [if_neg h0, NHS.get_bt c (by omega)]
    simp only [sb']
    obtain ⟨⟨a1, ps⟩, e1, -⟩ := C62_cbc_decrypt true (full c 0 (c.length / 16)) hC hm
    obtain ⟨h1, h2, h3⟩ := decryptAll_nr _ hm e1
    obtain ⟨b, hb, hd⟩ := decLoop_eq c (c.length / 16) a 0 (Vector.replicate 16 0) [] (by omega) (by omega) e1
    obtain ⟨p, ep, -⟩ := hC.2 b
    have e2 : AES.decrypt true a1 b = some ({ a1 with f := b }, AES.xorFirst 16 p a1.f, 0) := by
      rw [AES.decrypt_cbc true a1 h2, decryptParts.decryptAll_ecb _ hm e1 b, ep]; rfl
    obtain ⟨z, hz, -⟩ := C62_end (a := { a1 with f := b }) (by show a1.nr ≤ 14; omega)
    have := hd e2
    rw [Nat.zero_add] at this
    rw [this]
    simp only [sb']
    rw [hz]
    simp only [sb']
    have hbad : ∀ i v, i ≠ 15 → badPad i v = true := fun i v hi => by
      unfold badPad
      exact decide_eq_true (Or.inl (Or.inl hi))
    rw [hbad _ _ (by omega)]
    rfl

/-! ## Encryption followed by decryption -/

theorem ED (k : List UInt8) (b : Block) : D k (E k b) = b := Spec.AES.invCipher_cipher _ _ b

/-- Decryption of an encrypted message: the complete blocks of the message; the `r` bytes after them are lost, and `r`
bytes of value `16 - r` stand in their place. -/
theorem C68_roundtrip {k : List UInt8} (h : GoodKey k) (m : List UInt8) : ∃ c, cbc_iv0_encrypt k m = some c ∧
    cbc_iv0_decrypt k c = some (some (m.take (16 * (m.length / 16)) ++ List.replicate (m.length % 16) (UInt8.ofNat (16 - m.length % 16)))) := by
  obtain ⟨a, a', cs, e, hm, hn, hf, hc, e1, h1, h2, h3⟩ := encryptParts h m
  refine ⟨_, h3, ?_⟩
  have hl : (flat cs).length = 16 * (m.length / 16 + 1) := by rw [length_flat, h2]
  have e2 := C62_roundtrip true (ED k) _ hc (Or.inr (Or.inl hm)) e1
  have hcs : full (flat cs) 0 ((flat cs).length / 16) = cs := by
    apply List.map_injective_iff.2 (fun _ _ => AES.blk_inj)
    show List.map blk _ = List.map blk _
    rw [blk_full (by omega), blocksOf_flat]
  obtain ⟨ps, d, hbs, hps, hr⟩ := decryptParts (c := flat cs) h (by omega) (by omega) e (by rw [hcs]; exact e2)
  rw [full_append, full_pad m _ 0 (by omega)] at hbs
  obtain ⟨rfl, hd⟩ := List.append_inj' hbs rfl
  have hd : vecAt (pad m) (0 + 16 * (m.length / 16)) = d := by simpa using hd
  have hv : ∀ j (hj : j < 16), 16 - (16 - m.length % 16) ≤ j → d[j] = UInt8.ofNat (16 - m.length % 16) := fun j hj hjn => by
    rw [← hd, vecAt, Vector.getElem_ofFn]
    show NHS.bt (pad m) (0 + 16 * (m.length / 16) + j) = _
    rw [pad, bt_last (by omega) (by omega)]
  obtain ⟨g1, g2⟩ := badPad_good (v := d) (n := 16 - m.length % 16) (by omega) (by omega) hv
  rw [hr, g1, if_neg (by decide), g2, hv 15 (by omega) (by omega), flat_full _ _ (by omega), List.drop_zero, show 16 - (16 - m.length % 16) = m.length % 16 by omega]

/-- So the message comes back if and only if the bytes after its complete blocks happen to have that value, for instance if
there are none. -/
theorem C68_roundtrip_iff {k : List UInt8} (h : GoodKey k) (m : List UInt8) : (∃ c, cbc_iv0_encrypt k m = some c ∧ cbc_iv0_decrypt k c = some (some m)) ↔
    m.drop (16 * (m.length / 16)) = List.replicate (m.length % 16) (UInt8.ofNat (16 - m.length % 16)) := by
  obtain ⟨c, e, h1⟩ := C68_roundtrip h m
  constructor
  · rintro ⟨c', e', h2⟩
    obtain rfl : c = c' := by rw [e] at e'; exact Option.some.inj e'
    rw [h1] at h2
    have := Option.some.inj (Option.some.inj h2)
    have := congrArg (List.drop (16 * (m.length / 16))) this
    rw [List.drop_left' (by rw [List.length_take]; omega)] at this
    exact this.symm
  · intro hd
    refine ⟨c, e, ?_⟩
    rw [h1, ← hd, List.take_append_drop]

/-- A message of one byte is decrypted to the byte 15, whatever it was. -/
example (x : UInt8) : ∃ c, cbc_iv0_encrypt (List.replicate 16 7) [x] = some c ∧ cbc_iv0_decrypt (List.replicate 16 7) c = some (some [15]) := by
  have h := C68_roundtrip (k := List.replicate 16 7) (Or.inl (by decide)) [x]
  simpa using h

/-! ## Keys that `init` refuses -/

/-- The result of `init` is not used: with a key of another length the ciphertext does not depend on the key. -/
theorem C68_bad_key (m : List UInt8) : ∃ c, ∀ k, ¬ GoodKey k → cbc_iv0_encrypt k m = some c := by
  obtain ⟨r, e⟩ := all (full (pad m) 0 (m.length / 16 + 1))
  refine ⟨flat r, fun k hk => ?_⟩
  have hi : AES.init AES.new AES.CBC k.length k none = some (AES.new, false) := (C61_init_refuses _ _ _ _ _).2 hk
  obtain ⟨z, hz, -⟩ := C62_end (a := AES.new) (by decide)
  exact encrypt_eq hi e ⟨z, hz⟩
where
  all : ∀ bs, ∃ r, encryptAll true AES.new bs = some (AES.new, r)
    | [] => ⟨[], rfl⟩
    | b :: bs => by
      obtain ⟨r, e⟩ := all bs
      obtain ⟨c, hc⟩ : ∃ c, AES.ecb_encrypt AES.new b = some c := ⟨_, rfl⟩
      refine ⟨c :: r, ?_⟩
      rw [encryptAll, AES.encrypt_ecb true AES.new rfl, hc, Option.bind_some]
      simp [e]

end Props
