import Verif.Proof.AesKey
import Verif.Spec.Modes
import Mathlib.Data.List.GetD

namespace Amcl.AES
open Spec.AES Spec.Modes

set_option maxRecDepth 8000

/-- The object encrypts blocks by `E` and decrypts them by `D`. -/
def Ciph (a : AES) (E D : Block → Block) : Prop :=
  (∀ b, ∃ c, ecb_encrypt a b = some c ∧ blk c = E (blk b)) ∧ (∀ b, ∃ c, ecb_decrypt a b = some c ∧ blk c = D (blk b))

theorem Ciph.with_f {a : AES} {E D : Block → Block} (h : Ciph a E D) (f : Vector UInt8 16) : Ciph { a with f := f } E D := h

/-- `m` is the mode CFB with segments of `n` bytes. -/
def Cfb (m n : Nat) : Prop := (m = CFB1 ∧ n = 1) ∨ (m = CFB2 ∧ n = 2) ∨ (m = CFB4 ∧ n = 4)
/-- `m` is the mode OFB with segments of `n` bytes. -/
def Ofb (m n : Nat) : Prop :=
  (m = OFB1 ∧ n = 1) ∨ (m = OFB2 ∧ n = 2) ∨ (m = OFB4 ∧ n = 4) ∨ (m = OFB8 ∧ n = 8) ∨ (m = OFB16 ∧ n = 16)
/-- `m` is the mode CTR with segments of `n` bytes. -/
def Ctr (m n : Nat) : Prop :=
  (m = CTR1 ∧ n = 1) ∨ (m = CTR2 ∧ n = 2) ∨ (m = CTR4 ∧ n = 4) ∨ (m = CTR8 ∧ n = 8) ∨ (m = CTR16 ∧ n = 16)

/-! ## One call -/

theorem encrypt_ecb (dbg : Bool) (a : AES) (h : a.mode = ECB) (b : Vector UInt8 16) :
    encrypt dbg a b = (ecb_encrypt a b).bind fun c => some (a, c, 0) := by
  unfold encrypt; rw [if_pos h]; rfl

theorem decrypt_ecb (dbg : Bool) (a : AES) (h : a.mode = ECB) (b : Vector UInt8 16) :
    decrypt dbg a b = (ecb_decrypt a b).bind fun c => some (a, c, 0) := by
  unfold decrypt; rw [if_pos h]; rfl

theorem encrypt_cbc (dbg : Bool) (a : AES) (h : a.mode = CBC) (b : Vector UInt8 16) :
    encrypt dbg a b = (ecb_encrypt a (xorFirst 16 b a.f)).bind fun c => some ({ a with f := c }, c, 0) := by
  unfold encrypt; rw [if_neg (by rw [h]; decide), if_pos h]; rfl

theorem decrypt_cbc (dbg : Bool) (a : AES) (h : a.mode = CBC) (b : Vector UInt8 16) :
    decrypt dbg a b = (ecb_decrypt a b).bind fun c => some ({ a with f := b }, xorFirst 16 c a.f, 0) := by
  unfold decrypt; rw [if_neg (by rw [h]; decide), if_pos h]; rfl

theorem encrypt_cfb (dbg : Bool) (a : AES) {n : Nat} (h : Cfb a.mode n) (b : Vector UInt8 16) :
    encrypt dbg a b = (ecb_encrypt a a.f).bind fun st =>
      some ({ a with f := shiftIn n a.f (xorFirst n b st) }, xorFirst n b st, fellOff a.f n) := by
  unfold encrypt
  rcases h with ⟨h, rfl⟩ | ⟨h, rfl⟩ | ⟨h, rfl⟩ <;>
  · rw [if_neg (by rw [h]; decide), if_neg (by rw [h]; decide), if_pos (by rw [h]; decide), h]; rfl

theorem decrypt_cfb (dbg : Bool) (a : AES) {n : Nat} (h : Cfb a.mode n) (b : Vector UInt8 16) :
    decrypt dbg a b = (ecb_encrypt a a.f).bind fun st =>
      some ({ a with f := shiftIn n a.f b }, xorFirst n b st, fellOff a.f n) := by
  unfold decrypt
  rcases h with ⟨h, rfl⟩ | ⟨h, rfl⟩ | ⟨h, rfl⟩ <;>
  · rw [if_neg (by rw [h]; decide), if_neg (by rw [h]; decide), if_pos (by rw [h]; decide), h]; rfl

theorem encrypt_ofb (dbg : Bool) (a : AES) {n : Nat} (h : Ofb a.mode n) (b : Vector UInt8 16) :
    encrypt dbg a b = (ecb_encrypt a a.f).bind fun st => some ({ a with f := st }, xorFirst n b st, 0) := by
  unfold encrypt
  rcases h with ⟨h, rfl⟩ | ⟨h, rfl⟩ | ⟨h, rfl⟩ | ⟨h, rfl⟩ | ⟨h, rfl⟩ <;>
  · rw [if_neg (by rw [h]; decide), if_neg (by rw [h]; decide), if_neg (by rw [h]; decide), if_pos (by rw [h]; decide), h]; rfl

theorem decrypt_ofb (dbg : Bool) (a : AES) {n : Nat} (h : Ofb a.mode n) (b : Vector UInt8 16) :
    decrypt dbg a b = encrypt dbg a b := by
  rw [encrypt_ofb dbg a h]
  unfold decrypt
  rcases h with ⟨h, rfl⟩ | ⟨h, rfl⟩ | ⟨h, rfl⟩ | ⟨h, rfl⟩ | ⟨h, rfl⟩ <;>
  · rw [if_neg (by rw [h]; decide), if_neg (by rw [h]; decide), if_neg (by rw [h]; decide), if_pos (by rw [h]; decide), h]; rfl

theorem encrypt_ctr (dbg : Bool) (a : AES) {n : Nat} (h : Ctr a.mode n) (b : Vector UInt8 16) :
    encrypt dbg a b = (ecb_encrypt a a.f).bind fun st => (increment dbg a.f).bind fun f =>
      some ({ a with f := f }, xorFirst n b st, 0) := by
  unfold encrypt
  rcases h with ⟨h, rfl⟩ | ⟨h, rfl⟩ | ⟨h, rfl⟩ | ⟨h, rfl⟩ | ⟨h, rfl⟩ <;>
  · rw [if_neg (by rw [h]; decide), if_neg (by rw [h]; decide), if_neg (by rw [h]; decide), if_neg (by rw [h]; decide),
      if_pos (by rw [h]; decide), h]; rfl

theorem decrypt_ctr (dbg : Bool) (a : AES) {n : Nat} (h : Ctr a.mode n) (b : Vector UInt8 16) :
    decrypt dbg a b = encrypt dbg a b := by
  rw [encrypt_ctr dbg a h]
  unfold decrypt
  rcases h with ⟨h, rfl⟩ | ⟨h, rfl⟩ | ⟨h, rfl⟩ | ⟨h, rfl⟩ | ⟨h, rfl⟩ <;>
  · rw [if_neg (by rw [h]; decide), if_neg (by rw [h]; decide), if_neg (by rw [h]; decide), if_neg (by rw [h]; decide),
      if_pos (by rw [h]; decide), h]; rfl

theorem other_mode (dbg : Bool) (a : AES) (b : Vector UInt8 16) (h0 : a.mode ≠ ECB) (h1 : a.mode ≠ CBC)
    (h2 : ∀ n, ¬ Cfb a.mode n) (h3 : ∀ n, ¬ Ofb a.mode n) (h4 : ∀ n, ¬ Ctr a.mode n) :
    encrypt dbg a b = some (a, b, 0) ∧ decrypt dbg a b = some (a, b, 0) := by
  have h2' : ¬ (a.mode = CFB1 ∨ a.mode = CFB2 ∨ a.mode = CFB4) := by
    rintro (h | h | h)
    exacts [h2 1 (Or.inl ⟨h, rfl⟩), h2 2 (Or.inr (Or.inl ⟨h, rfl⟩)), h2 4 (Or.inr (Or.inr ⟨h, rfl⟩))]
  have h3' : ¬ (a.mode = OFB1 ∨ a.mode = OFB2 ∨ a.mode = OFB4 ∨ a.mode = OFB8 ∨ a.mode = OFB16) := by
    rintro (h | h | h | h | h)
    exacts [h3 1 (Or.inl ⟨h, rfl⟩), h3 2 (Or.inr (Or.inl ⟨h, rfl⟩)), h3 4 (Or.inr (Or.inr (Or.inl ⟨h, rfl⟩))),
      h3 8 (Or.inr (Or.inr (Or.inr (Or.inl ⟨h, rfl⟩)))), h3 16 (Or.inr (Or.inr (Or.inr (Or.inr ⟨h, rfl⟩))))]
  have h4' : ¬ (a.mode = CTR1 ∨ a.mode = CTR2 ∨ a.mode = CTR4 ∨ a.mode = CTR8 ∨ a.mode = CTR16) := by
    rintro (h | h | h | h | h)
    exacts [h4 1 (Or.inl ⟨h, rfl⟩), h4 2 (Or.inr (Or.inl ⟨h, rfl⟩)), h4 4 (Or.inr (Or.inr (Or.inl ⟨h, rfl⟩))),
      h4 8 (Or.inr (Or.inr (Or.inr (Or.inl ⟨h, rfl⟩)))), h4 16 (Or.inr (Or.inr (Or.inr (Or.inr ⟨h, rfl⟩))))]
  unfold encrypt decrypt
  rw [if_neg h0, if_neg h1, if_neg h2', if_neg h3', if_neg h4', if_neg h0, if_neg h1, if_neg h2']
  exact ⟨rfl, rfl⟩

/-! ## Buffers and segments -/

/-- The first `n` bytes of a buffer. -/
def seg (n : Nat) (b : Vector UInt8 16) : List Byte := (bytes (blk b)).take n

/-- The rest of a buffer. -/
def rest (n : Nat) (b : Vector UInt8 16) : List Byte := (bytes (blk b)).drop n

theorem bytes_length (b : Block) : (bytes b).length = 16 := by simp [bytes]

theorem bytes_get (b : Block) (i : Nat) (h : i < 16) : (bytes b)[i]? = some (b ⟨i, h⟩) := by
  unfold bytes
  rw [List.getElem?_ofFn, dif_pos h]

theorem bytes_inj {a b : Block} (h : bytes a = bytes b) : a = b := by
  funext i
  have := congrArg (·[i.val]?) h
  simpa [bytes_get] using this

theorem blk_xor16 (a b : Vector UInt8 16) : blk (xorFirst 16 a b) = addBlock (blk a) (blk b) := by
  funext i
  simp [blk, xorFirst, addBlock]

theorem seg_xor (n : Nat) (b st : Vector UInt8 16) : seg n (xorFirst n b st) = mask (seg n b) (blk st) := by
  apply List.ext_getElem?
  intro i
  unfold mask seg
  rw [List.getElem?_zipWith, List.getElem?_take, List.getElem?_take]
  by_cases h : i < n
  · rw [if_pos h, if_pos h]
    by_cases h16 : i < 16
    · rw [bytes_get _ _ h16, bytes_get _ _ h16, bytes_get _ _ h16]
      simp [blk, xorFirst, h]
    · rw [List.getElem?_eq_none (by rw [bytes_length]; omega), List.getElem?_eq_none (by rw [bytes_length]; omega)]
  · rw [if_neg h, if_neg h]

theorem rest_xor (n : Nat) (b st : Vector UInt8 16) : rest n (xorFirst n b st) = rest n b := by
  apply List.ext_getElem?
  intro i
  unfold rest
  rw [List.getElem?_drop, List.getElem?_drop]
  by_cases h16 : n + i < 16
  · rw [bytes_get _ _ h16, bytes_get _ _ h16]
    simp [blk, xorFirst]
  · rw [List.getElem?_eq_none (by rw [bytes_length]; omega), List.getElem?_eq_none (by rw [bytes_length]; omega)]

theorem seg_rest_inj {n : Nat} {a b : Vector UInt8 16} (h1 : seg n a = seg n b) (h2 : rest n a = rest n b) : a = b := by
  apply blk_inj
  apply bytes_inj
  rw [← List.take_append_drop n (bytes (blk a)), ← List.take_append_drop n (bytes (blk b))]
  exact congrArg₂ _ h1 h2

theorem seg_length {n : Nat} (h : n ≤ 16) (b : Vector UInt8 16) : (seg n b).length = n := by
  simp [seg, bytes_length, h]

theorem last16_bytes (b : Block) : last16 (bytes b) = b := by
  funext i
  unfold last16
  rw [bytes_length, Nat.sub_self, Nat.zero_add, List.getD_eq_getElem?_getD, bytes_get b i i.isLt]
  rfl

theorem shiftIn_last (n : Nat) (hn : n ≤ 16) (f c : Vector UInt8 16) {h : List Byte} (hl : 16 ≤ h.length)
    (hf : blk f = last16 h) : blk (shiftIn n f c) = last16 (h ++ seg n c) := by
  funext i
  unfold last16
  rw [List.length_append, seg_length hn, List.getD_eq_getElem?_getD]
  show (shiftIn n f c)[i].toBitVec = _
  by_cases hi : i.val + n < 16
  · rw [List.getElem?_append_left (by omega)]
    have := congrFun hf ⟨i.val + n, hi⟩
    unfold last16 at this
    rw [List.getD_eq_getElem?_getD] at this
    rw [show h.length + n - 16 + i.val = h.length - 16 + (i.val + n) by omega, ← this]
    simp [shiftIn, hi, blk]
  · rw [List.getElem?_append_right (by omega)]
    unfold seg
    rw [List.getElem?_take, if_pos (by omega), bytes_get _ _ (by omega)]
    simp only [Option.getD_some, blk, shiftIn]
    have e : h.length + n - 16 + i.val - h.length = i.val + n - 16 := by omega
    simp only [Fin.getElem_fin, Vector.getElem_ofFn, hi, dif_neg, not_false_eq_true, e]
    rw [Vector.getElem?_eq_getElem (by omega)]
    rfl

theorem mask_mask {n : Nat} (b : Vector UInt8 16) (o : Block) : mask (mask (seg n b) o) o = seg n b := by
  unfold mask
  apply List.ext_getElem?
  intro i
  rw [List.getElem?_zipWith, List.getElem?_zipWith]
  by_cases h16 : i < 16
  · rw [bytes_get _ _ h16]
    cases (seg n b)[i]? with
    | none => rfl
    | some x => simp [BitVec.xor_assoc]
  · have hs : (seg n b)[i]? = none := List.getElem?_eq_none (by
      unfold seg
      rw [List.length_take, bytes_length]
      omega)
    rw [hs]

/-! ## The counter -/

/-- The next counter, as a list. -/
def incList : List UInt8 → List UInt8
  | [] => []
  | x :: xs => if x = 255 then 0 :: incList xs else (x + 1) :: xs

theorem incrementFrom_eq : ∀ n i (f : Vector UInt8 16), i + n = 16 →
    Wp (incrementFrom false n i f) fun r => r.toList = f.toList.take i ++ incList (f.toList.drop i) := by
  intro n
  induction n with
  | zero =>
    intro i f hi
    refine Wp.ret ?_
    have : i = 16 := by omega
    subst this
    have h16 : f.toList.length = 16 := f.length_toList
    rw [List.drop_of_length_le (by omega), List.take_of_length_le (by omega)]
    simp [incList]
  | succ n ih =>
    intro i f hi
    have hlt : i < 16 := by omega
    have h16 : f.toList.length = 16 := f.length_toList
    rw [incrementFrom, Vector.getElem?_eq_getElem hlt]
    simp only [Option.bind_eq_bind, Option.bind_some, Bool.false_eq_true, false_and, if_false]
    rw [setAt_eq _ hlt]
    simp only [Option.bind_some]
    have hd : f.toList.drop i = f[i] :: f.toList.drop (i + 1) := by
      rw [List.drop_eq_getElem_cons (by omega), Vector.getElem_toList]
    have hset : (f.set i (f[i] + 1)).toList = f.toList.take i ++ (f[i] + 1) :: f.toList.drop (i + 1) := by
      rw [Vector.toList_set, List.set_eq_take_append_cons_drop, if_pos (by omega)]
    rw [hd, incList]
    by_cases hx : f[i] = 255
    · rw [if_neg (by rw [hx]; decide), if_pos hx]
      refine (ih (i + 1) _ (by omega)).mono ?_
      intro r hr
      rw [hr, hset]
      have hl : (f.toList.take i).length = i := by simp [h16]; omega
      have hd0 : List.drop (i + 1) (List.take i f.toList) = [] := List.drop_of_length_le (by rw [hl]; omega)
      rw [hx, show (255 : UInt8) + 1 = 0 by decide, List.take_append, List.drop_append, hl,
        List.take_of_length_le (by omega), hd0, show i + 1 - i = 1 by omega]
      simp
    · have hne : f[i] + 1 ≠ 0 := by
        intro h
        apply hx
        have h' : f[i] + 1 = 255 + 1 := h.trans (by decide)
        exact (UInt8.add_left_inj 1).1 h'
      rw [if_pos hne, if_neg hx]
      exact Wp.ret hset

theorem increment_eq (f : Vector UInt8 16) : Wp (increment false f) fun r => r.toList = incList f.toList := by
  refine (incrementFrom_eq 16 0 f rfl).mono ?_
  intro r hr
  simpa using hr

theorem increment_debug (f : Vector UInt8 16) : increment true f = if f[0] = 255 then none else increment false f := by
  unfold increment
  rw [incrementFrom, incrementFrom]
  by_cases h : f[0] = 255
  · rw [if_pos h, Vector.getElem?_eq_getElem (by decide)]
    simp [h]
  · rw [if_neg h, Vector.getElem?_eq_getElem (by decide)]
    have hne : f[0] + 1 ≠ 0 := by
      intro h'
      apply h
      have h'' : f[0] + 1 = 255 + 1 := h'.trans (by decide)
      exact (UInt8.add_left_inj 1).1 h''
    simp [h, hne]

/-- The number of a list of bytes. -/
def val (l : List UInt8) : Nat := l.foldr (fun x t => x.toNat + 256 * t) 0

theorem val_lt : ∀ l : List UInt8, val l < 256 ^ l.length
  | [] => by simp [val]
  | x :: xs => by
    have h := val_lt xs
    have hx := x.toNat_lt
    show x.toNat + 256 * val xs < 256 ^ (xs.length + 1)
    rw [Nat.pow_succ]
    omega

theorem val_inc : ∀ l : List UInt8, val (incList l) = (val l + 1) % 256 ^ l.length
  | [] => by simp [val, incList]
  | x :: xs => by
    have h := val_inc xs
    have hl := val_lt xs
    have hx := x.toNat_lt
    rw [incList]
    show _ = (x.toNat + 256 * val xs + 1) % 256 ^ (xs.length + 1)
    rw [Nat.pow_succ]
    by_cases hx' : x = 255
    · rw [if_pos hx']
      show 0 + 256 * val (incList xs) = _
      rw [h, hx', show (255 : UInt8).toNat = 255 by decide,
        show 255 + 256 * val xs + 1 = (val xs + 1) * 256 by omega, Nat.mul_mod_mul_right]
      omega
    · rw [if_neg hx']
      show (x + 1).toNat + 256 * val xs = _
      have hlt : x.toNat < 255 := by
        have : x.toNat ≠ 255 := fun h => hx' (UInt8.toNat_inj.1 h)
        omega
      rw [UInt8.toNat_add, show (1 : UInt8).toNat = 1 by decide, Nat.mod_eq_of_lt (by omega), Nat.mod_eq_of_lt (by omega)]
      omega

theorem value_blk (f : Vector UInt8 16) : value (blk f) = val f.toList := by
  have h : bytes (blk f) = f.toList.map UInt8.toBitVec := by
    apply List.ext_getElem?
    intro i
    by_cases h : i < 16
    · rw [bytes_get _ _ h, List.getElem?_map, Vector.getElem?_toList, Vector.getElem?_eq_getElem h]
      rfl
    · rw [List.getElem?_eq_none (by rw [bytes_length]; omega), List.getElem?_eq_none (by simp; omega)]
  unfold value val
  rw [h, List.foldr_map]
  rfl

theorem val_digit : ∀ (l : List UInt8) (i : Nat), i < l.length → val l / 256 ^ i % 256 = (l.getD i 0).toNat
  | [], i, h => absurd h (by simp)
  | x :: xs, 0, _ => by
    show (x.toNat + 256 * val xs) / 256 ^ 0 % 256 = x.toNat
    have := x.toNat_lt
    rw [Nat.pow_zero, Nat.div_one]
    omega
  | x :: xs, i + 1, h => by
    have := val_digit xs i (by simpa using h)
    have hx := x.toNat_lt
    show (x.toNat + 256 * val xs) / 256 ^ (i + 1) % 256 = (xs.getD i 0).toNat
    rw [Nat.pow_succ, Nat.mul_comm (256 ^ i) 256, ← Nat.div_div_eq_div_mul, show (x.toNat + 256 * val xs) / 256 = val xs by omega, this]

theorem ofValue_value (f : Vector UInt8 16) : ofValue (value (blk f)) = blk f := by
  funext i
  unfold ofValue
  rw [value_blk]
  apply BitVec.eq_of_toNat_eq
  rw [BitVec.toNat_ofNat]
  refine (val_digit _ _ (by simp)).trans ?_
  rw [List.getD_eq_getElem?_getD, Vector.getElem?_toList, Vector.getElem?_eq_getElem i.isLt]
  rfl

theorem increment_wp (f : Vector UInt8 16) : Wp (increment false f) fun r => value (blk r) = (value (blk f) + 1) % 2 ^ 128 := by
  refine (increment_eq f).mono ?_
  intro r hr
  rw [value_blk, value_blk, hr, val_inc, Vector.length_toList]
  rfl

/-! ## Words that `init` does not write -/

theorem setAt_tail {w r : Vector UInt32 60} {i : Nat} {v : UInt32} (h : HASH256.setAt w i v = some r) (x : Nat) (hx : x < 60) (hi : i < x) :
    r[x] = w[x] := by
  unfold HASH256.setAt at h
  split at h
  · rw [← Option.some_inj.1 h, Vector.getElem_set_ne _ _ (by omega)]
  · exact absurd h (by simp)

theorem loadKey_tail (key : List UInt8) : ∀ n i w r, loadKey key n i w = some r → ∀ x (hx : x < 60), i + n ≤ x → r[x] = w[x]
  | 0, i, w, r, h, x, hx, hi => by rw [← Option.some_inj.1 h]
  | n + 1, i, w, r, h, x, hx, hi => by
    rw [loadKey] at h
    obtain ⟨b0, -, h⟩ := Option.bind_eq_some_iff.1 h
    obtain ⟨b1, -, h⟩ := Option.bind_eq_some_iff.1 h
    obtain ⟨b2, -, h⟩ := Option.bind_eq_some_iff.1 h
    obtain ⟨b3, -, h⟩ := Option.bind_eq_some_iff.1 h
    obtain ⟨w', e, h⟩ := Option.bind_eq_some_iff.1 h
    rw [loadKey_tail key n (i + 1) w' r h x hx (by omega), setAt_tail e x hx (by omega)]

theorem expandRow_tail (nk n j : Nat) : ∀ c i w r, expandRow nk n j c i w = some r → ∀ x (hx : x < 60), n ≤ x → r[x] = w[x]
  | 0, i, w, r, h, x, hx, hi => by rw [← Option.some_inj.1 h]
  | c + 1, i, w, r, h, x, hx, hi => by
    rw [expandRow] at h
    by_cases h1 : n ≤ i + j
    · rw [if_pos h1] at h
      rw [← Option.some_inj.1 h]
    · rw [if_neg h1] at h
      by_cases h2 : i + j < nk
      · rw [if_pos h2] at h; exact absurd h (by simp)
      rw [if_neg h2] at h
      by_cases h3 : i + j < 1
      · rw [if_pos h3] at h; exact absurd h (by simp)
      rw [if_neg h3] at h
      obtain ⟨b0, -, h⟩ := Option.bind_eq_some_iff.1 h
      obtain ⟨b1, -, h⟩ := Option.bind_eq_some_iff.1 h
      obtain ⟨w', e, h⟩ := Option.bind_eq_some_iff.1 h
      rw [expandRow_tail nk n j c (i + 1) w' r h x hx hi, setAt_tail e x hx (by omega)]

theorem expand_tail (nk n : Nat) (hnk : 1 ≤ nk) : ∀ m j k w r, n - j ≤ m → expand nk n j k w = some r → ∀ x (hx : x < 60), n ≤ x → r[x] = w[x] := by
  intro m
  induction m with
  | zero =>
    intro j k w r hm h x hx hn
    rw [expand, if_neg (by omega)] at h
    rw [← Option.some_inj.1 h]
  | succ m ih =>
    intro j k w r hm h x hx hn
    rw [expand] at h
    by_cases hj : j < n
    · rw [if_pos hj] at h
      by_cases h2 : j < nk
      · rw [if_pos h2] at h; exact absurd h (by simp)
      rw [if_neg h2] at h
      by_cases h3 : j < 1
      · rw [if_pos h3] at h; exact absurd h (by simp)
      rw [if_neg h3] at h
      obtain ⟨b0, -, h⟩ := Option.bind_eq_some_iff.1 h
      obtain ⟨b1, -, h⟩ := Option.bind_eq_some_iff.1 h
      obtain ⟨b2, -, h⟩ := Option.bind_eq_some_iff.1 h
      obtain ⟨w1, e1, h⟩ := Option.bind_eq_some_iff.1 h
      obtain ⟨w2, e2, h⟩ := Option.bind_eq_some_iff.1 h
      rw [ih (j + nk) (k + 1) w2 r (by omega) h x hx hn, expandRow_tail _ _ _ _ _ _ _ e2 x hx hn, setAt_tail e1 x hx (by omega)]
    · rw [if_neg hj] at h
      rw [← Option.some_inj.1 h]

theorem init_tail {a a' : AES} {m nkey : Nat} {key : List UInt8} {iv : Option (Vector UInt8 16)}
    (hnk : nkey / 4 = 4 ∨ nkey / 4 = 6 ∨ nkey / 4 = 8) (h : init a m nkey key iv = some (a', true)) (i : Nat) (hi : i < 60)
    (h4 : 4 * (nkey / 4 + 7) ≤ i) : a'.fkey[i] = a.fkey[i] := by
  unfold init at h
  dsimp only at h
  rw [if_neg (by omega)] at h
  obtain ⟨w1, e1, h⟩ := Option.bind_eq_some_iff.1 h
  obtain ⟨w2, e2, h⟩ := Option.bind_eq_some_iff.1 h
  obtain ⟨r1, -, h⟩ := Option.bind_eq_some_iff.1 h
  obtain ⟨r2, -, h⟩ := Option.bind_eq_some_iff.1 h
  obtain ⟨r3, -, h⟩ := Option.bind_eq_some_iff.1 h
  have h : _ = a' := congrArg Prod.fst (Option.some_inj.1 h)
  rw [← h]
  dsimp only
  rw [expand_tail _ _ (by omega) _ _ _ _ _ (le_refl _) e2 i hi (by omega), loadKey_tail _ _ _ _ _ e1 i hi (by omega)]
  rfl

end Amcl.AES
