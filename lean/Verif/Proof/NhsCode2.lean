import Verif.Proof.NhsCode
/-!
# The lossy encodings of `nhs.rs`
-/

namespace Amcl

namespace NHS

open HASH256 (setAt)
open SHA3 (setB)

theorem m8 (x : Int) : and32 x 0xff = x % 256 := and32_mask (n := 8) (by norm_num) x

/-! ## Three bits -/

/-- The three bits for a coefficient. -/
def oct (x : Int) : Int := (8 * x + 6144) / 12289 % 8

/-- The coefficient for three bits. -/
def unoct (b : Int) : Int := (b * 12289 + 4) / 8

/-- Eight groups of three bits, the first one on top. -/
def Octs (b : Nat → Int) (B : Nat → UInt8) (i j : Nat) : Prop :=
  b i * 2 ^ 21 + b (i + 1) * 2 ^ 18 + b (i + 2) * 2 ^ 15 + b (i + 3) * 2 ^ 12 + b (i + 4) * 2 ^ 9 + b (i + 5) * 2 ^ 6 +
    b (i + 6) * 2 ^ 3 + b (i + 7) = (B j).toNat + (B (j + 1)).toNat * 2 ^ 8 + (B (j + 2)).toNat * 2 ^ 16

/-- The digits `b i, …, b (i + n - 1)` after the number `col`. -/
def horner (b : Nat → Int) : Nat → Nat → Int → Int
  | 0, _, col => col
  | n + 1, i, col => horner b n (i + 1) (col * 8 + b i)

theorem compressCol_wp (p : Poly) (hp : ∀ l, l < 1024 → 0 ≤ cf p l ∧ cf p l < 2 ^ 26) : ∀ (n i : Nat) (col : Int), n ≤ 8 → i + n ≤ 1024 →
    0 ≤ col → col < 8 ^ (8 - n) → Wp (compressCol p n i col) fun c => c = horner (fun l => oct (cf p l)) n i col ∧ 0 ≤ c ∧ c < 2 ^ 24 := by
  intro n
  induction n with
  | zero => intro i col _ _ h0 h1; exact .pure ⟨rfl, h0, by norm_num at *; exact h1⟩
  | succ n ih =>
    intro i col hn hi h0 h1
    have e8 : (8 : Int) ^ (8 - n) = 8 ^ (8 - (n + 1)) * 8 := by rw [← pow_succ]; congr 1; omega
    have e9 : (8 : Int) ^ (8 - (n + 1)) ≤ 8 ^ 7 := pow_le_pow_right₀ (by norm_num) (by omega)
    have hc := hp i (by omega)
    rw [compressCol]
    simp only [get_cf p (show i < 1024 by omega), Option.bind_eq_bind, Option.bind_some,
      i32_eq (show -2 ^ 31 ≤ cf p i * 8 by omega) (show cf p i * 8 < 2 ^ 31 by omega), PRIME,
      round_eq (show 0 ≤ cf p i * 8 by omega) (by omega) (show (0 : Int) < 0x3001 by norm_num) (by norm_num)]
    have m3 : ∀ x : Int, and32 x 7 = x % 8 := fun x => and32_mask (n := 3) (by norm_num) x
    have eo : (cf p i * 8 + 12289 / 2) / 12289 % 8 = oct (cf p i) := by
      rw [oct, mul_comm]; norm_num
    rw [m3, eo, shl32_eq (n := 3) (by omega) (by omega)]
    have o0 : 0 ≤ oct (cf p i) := by rw [oct]; omega
    have o1 : oct (cf p i) < 8 := by rw [oct]; omega
    refine .bind (.of_eq (i32_eq (by omega) (by omega)) rfl) fun _ e => ?_
    subst e
    exact ih (i + 1) (col * 2 ^ 3 + oct (cf p i)) (by omega) (by omega) (by omega) (by omega)

theorem compressLoop_wp (p : Poly) (hp : ∀ l, l < 1024 → 0 ≤ cf p l ∧ cf p l < 2 ^ 26) : ∀ (n k : Nat) (l : List UInt8), k + n ≤ 128 →
    3 * (k + n) ≤ l.length →
    Wp (compressLoop p n k l) fun l' => l'.length = l.length ∧
      (∀ i, k ≤ i → i < k + n → Octs (fun l => oct (cf p l)) (bt l') (8 * i) (3 * i)) ∧
      ∀ i, i < 3 * k ∨ 3 * (k + n) ≤ i → bt l' i = bt l i := by
  intro n
  induction n with
  | zero => intro k l _ _; exact .pure ⟨rfl, fun i h h' => by omega, fun _ _ => rfl⟩
  | succ n ih =>
    intro k l hk hl
    rw [compressLoop]
    refine .bind (compressCol_wp p hp 8 (8 * k) 0 (by omega) (by omega) (by norm_num) (by norm_num)) fun c ⟨ec, c0, c1⟩ => ?_
    simp only [m8, sar]
    refine .bind (setB_bt l (i := 3 * k) (by omega) _) fun l1 ⟨g1, h1⟩ => ?_
    refine .bind (setB_bt l1 (i := 3 * k + 1) (by omega) _) fun l2 ⟨g2, h2⟩ => ?_
    refine .bind (setB_bt l2 (i := 3 * k + 2) (by omega) _) fun l3 ⟨g3, h3⟩ => ?_
    have far : ∀ i, i < 3 * k ∨ 3 * k + 3 ≤ i → bt l3 i = bt l i := fun i hi => by
      rw [h3, h2, h1]
      iterate 3 rw [Function.update_of_ne (by omega)]
    have v0 : bt l3 (3 * k) = asU8 (c % 256) := by rw [h3, h2, h1]; simp
    have v1 : bt l3 (3 * k + 1) = asU8 (c / 2 ^ 8 % 256) := by rw [h3, h2, h1]; simp
    have v2 : bt l3 (3 * k + 2) = asU8 (c / 2 ^ 16 % 256) := by rw [h3, h2, h1]; simp
    have near : Octs (fun l => oct (cf p l)) (bt l3) (8 * k) (3 * k) := by
      rw [Octs, v0, v1, v2, asU8_toNat (x := c % 256) (by omega) (by omega), asU8_toNat (x := c / 2 ^ 8 % 256) (by omega) (by omega),
        asU8_toNat (x := c / 2 ^ 16 % 256) (by omega) (by omega)]
      simp only [horner, Nat.add_assoc, Nat.reduceAdd] at ec
      omega
    refine (ih (k + 1) l3 (by omega) (by omega)).mono fun l' ⟨q1, q2, q3⟩ => ⟨by omega, fun i h h' => ?_, fun i h => ?_⟩
    · by_cases e : i = k
      · subst e
        rw [Octs, q3 _ (by omega), q3 _ (by omega), q3 _ (by omega)]
        exact near
      · exact q2 i (by omega) (by omega)
    · rw [q3 i (by omega), far i (by omega)]

/-- `compress`. -/
theorem compress_wp (p : Poly) (hp : ∀ l, l < 1024 → 0 ≤ cf p l ∧ cf p l < 2 ^ 26) (l : List UInt8) (hl : 384 ≤ l.length) :
    Wp (compress p l) fun l' => l'.length = l.length ∧
      (∀ i, i < 128 → Octs (fun l => oct (cf p l)) (bt l') (8 * i) (3 * i)) ∧
      ∀ i, 384 ≤ i → bt l' i = bt l i :=
  (compressLoop_wp p hp 128 0 l (by omega) (by omega)).mono fun _ ⟨h1, h2, h3⟩ =>
    ⟨h1, fun i hi => h2 i (by omega) (by omega), fun i hi => h3 i (by omega)⟩

theorem shift3 (col : Int) (e : Nat) : shl32 col 3 * 8 ^ e / 2 ^ 21 % 8 = col * 8 ^ (e + 1) / 2 ^ 21 % 8 := by
  rw [shl32]
  obtain ⟨z, hz⟩ : ∃ z, Int.bmod (col * 2 ^ 3) (2 ^ 32) = col * 8 + 2 ^ 32 * z := by
    rw [Int.bmod_def]
    split
    · exact ⟨-(col * 2 ^ 3 / 2 ^ 32), by push_cast; omega⟩
    · exact ⟨-(col * 2 ^ 3 / 2 ^ 32) - 1, by push_cast; omega⟩
  rw [hz, pow_succ 8 e]
  have : (col * 8 + 2 ^ 32 * z) * 8 ^ e = col * (8 ^ e * 8) + 2 ^ 24 * (2 ^ 8 * z * 8 ^ e) := by ring
  rw [this]
  generalize col * (8 ^ e * 8) = y
  generalize 2 ^ 8 * z * 8 ^ e = w
  omega

theorem decompressCol_wp : ∀ (n i : Nat) (col : Int) (p : Poly), i + n ≤ 1024 →
    Wp (decompressCol n i col p) fun p' =>
      (∀ e, e < n → cf p' (i + e) = unoct (col * 8 ^ e / 2 ^ 21 % 8)) ∧
      ∀ l, l < i ∨ i + n ≤ l → cf p' l = cf p l := by
  intro n
  induction n with
  | zero => intro i col p _; exact .pure ⟨fun e h => by omega, fun _ _ => rfl⟩
  | succ n ih =>
    intro i col p hi
    rw [decompressCol]
    simp only [top3, PRIME, Option.bind_eq_bind]
    have b0 : 0 ≤ col / 2 ^ 21 % 8 := by omega
    have b1 : col / 2 ^ 21 % 8 < 8 := by omega
    generalize hb : col / 2 ^ 21 % 8 = b at *
    rw [i32_eq (by omega) (by omega)]
    simp only [Option.bind_some]
    rw [round_eq (by omega) (by omega) (by norm_num) (by norm_num)]
    simp only [Option.bind_some]
    refine .bind (setAt_cf p (l := i) (by omega) _) fun p1 h1 => ?_
    refine (ih (i + 1) (shl32 col 3) p1 (by omega)).mono fun p' ⟨q1, q2⟩ => ⟨fun e he => ?_, fun l hl => ?_⟩
    · cases e with
      | zero =>
        rw [add_zero, q2 i (by omega), h1, Function.update_self, pow_zero, mul_one, hb]
        rfl
      | succ e =>
        rw [show i + (e + 1) = i + 1 + e by ring, q1 e (by omega), shift3]
    · rw [q2 l (by omega), h1, Function.update_of_ne (by omega)]

theorem dig8 {b : Nat → Int} (hb : ∀ i, 0 ≤ b i ∧ b i < 8) {i : Nat} {c : Int} (hc : c = b i * 2 ^ 21 + b (i + 1) * 2 ^ 18 +
    b (i + 2) * 2 ^ 15 + b (i + 3) * 2 ^ 12 + b (i + 4) * 2 ^ 9 + b (i + 5) * 2 ^ 6 + b (i + 6) * 2 ^ 3 + b (i + 7)) :
    ∀ e, e < 8 → c * 8 ^ e / 2 ^ 21 % 8 = b (i + e) := by
  have b0 := hb i
  have b1 := hb (i + 1)
  have b2 := hb (i + 2)
  have b3 := hb (i + 3)
  have b4 := hb (i + 4)
  have b5 := hb (i + 5)
  have b6 := hb (i + 6)
  have b7 := hb (i + 7)
  intro e he
  obtain rfl | rfl | rfl | rfl | rfl | rfl | rfl | rfl : e = 0 ∨ e = 1 ∨ e = 2 ∨ e = 3 ∨ e = 4 ∨ e = 5 ∨ e = 6 ∨ e = 7 := by omega
  · rw [add_zero]; omega
  all_goals omega

theorem col_one (y z : UInt8) : i32 (shl32 (and32 (ofU8 z) 0xff) 8 + and32 (ofU8 y) 0xff) = some (z.toNat * 2 ^ 8 + y.toNat : Int) := by
  have := y.toNat_lt
  have := z.toNat_lt
  rw [m8, m8, ofU8, ofU8, shl32_eq (by omega) (by omega), i32_eq (by omega) (by omega)]
  exact congrArg some (by omega)

theorem col_two (x y z : UInt8) : i32 (shl32 (z.toNat * 2 ^ 8 + y.toNat : Int) 8 + and32 (ofU8 x) 0xff) =
    some (x.toNat + y.toNat * 2 ^ 8 + z.toNat * 2 ^ 16 : Int) := by
  have := x.toNat_lt
  have := y.toNat_lt
  have := z.toNat_lt
  rw [m8, ofU8, shl32_eq (by omega) (by omega), i32_eq (by omega) (by omega)]
  exact congrArg some (by omega)

theorem decompressLoop_wp (l : List UInt8) {b : Nat → Int} (hb : ∀ i, 0 ≤ b i ∧ b i < 8) : ∀ (n k : Nat) (p : Poly), k + n ≤ 128 →
    3 * (k + n) ≤ l.length → (∀ i, k ≤ i → i < k + n → Octs b (bt l) (8 * i) (3 * i)) →
    Wp (decompressLoop l n k p) fun p' =>
      (∀ i, 8 * k ≤ i → i < 8 * (k + n) → cf p' i = unoct (b i)) ∧
      ∀ i, i < 8 * k ∨ 8 * (k + n) ≤ i → cf p' i = cf p i := by
  intro n
  induction n with
  | zero => intro k p _ _ _; exact .pure ⟨fun i h h' => by omega, fun _ _ => rfl⟩
  | succ n ih =>
    intro k p hk hl ho
    rw [decompressLoop]
    refine .bind (.of_eq (get_bt l (i := 3 * k + 2) (by omega)) rfl) fun _ e => ?_
    subst e
    refine .bind (.of_eq (get_bt l (i := 3 * k + 1) (by omega)) rfl) fun _ e => ?_
    subst e
    refine .bind (.of_eq (col_one _ _) rfl) fun _ e => ?_
    subst e
    refine .bind (.of_eq (get_bt l (i := 3 * k) (by omega)) rfl) fun _ e => ?_
    subst e
    refine .bind (.of_eq (col_two _ _ _) rfl) fun c ec => ?_
    have hk0 := ho k le_rfl (by omega)
    rw [Octs] at hk0
    have ec' : c = b (8 * k) * 2 ^ 21 + b (8 * k + 1) * 2 ^ 18 + b (8 * k + 2) * 2 ^ 15 + b (8 * k + 3) * 2 ^ 12 + b (8 * k + 4) * 2 ^ 9 +
        b (8 * k + 5) * 2 ^ 6 + b (8 * k + 6) * 2 ^ 3 + b (8 * k + 7) := by omega
    have dig : ∀ e, e < 8 → c * 8 ^ e / 2 ^ 21 % 8 = b (8 * k + e) := dig8 hb ec'
    refine .bind (decompressCol_wp 8 (8 * k) c p (by omega)) fun p1 ⟨h1, h2⟩ => ?_
    refine (ih (k + 1) p1 (by omega) (by omega) fun i h h' => ho i (by omega) (by omega)).mono fun p' ⟨q1, q2⟩ =>
      ⟨fun i h h' => ?_, fun i h => ?_⟩
    · by_cases e : 8 * k + 8 ≤ i
      · exact q1 i (by omega) (by omega)
      · rw [q2 i (by omega)]
        obtain ⟨d, rfl⟩ : ∃ d, i = 8 * k + d := ⟨i - 8 * k, by omega⟩
        rw [h1 d (by omega), dig d (by omega)]
    · rw [q2 i (by omega), h2 i (by omega)]

/-- `decompress`. -/
theorem decompress_wp (l : List UInt8) (hl : 384 ≤ l.length) {b : Nat → Int} (hb : ∀ i, 0 ≤ b i ∧ b i < 8)
    (ho : ∀ i, i < 128 → Octs b (bt l) (8 * i) (3 * i)) (p : Poly) :
    Wp (decompress l p) fun p' => ∀ i, i < 1024 → cf p' i = unoct (b i) :=
  (decompressLoop_wp l hb 128 0 p (by omega) (by omega) fun i _ h => ho i (by omega)).mono fun _ ⟨h1, _⟩ i hi =>
    h1 i (by omega) (by omega)

/-- Every 384 bytes are groups of three bits. -/
theorem octs_exist (B : Nat → UInt8) : ∃ b : Nat → Int, (∀ i, 0 ≤ b i ∧ b i < 8) ∧ ∀ i, Octs b B (8 * i) (3 * i) := by
  refine ⟨fun i => ((B (3 * (i / 8))).toNat + (B (3 * (i / 8) + 1)).toNat * 2 ^ 8 + (B (3 * (i / 8) + 2)).toNat * 2 ^ 16 : Int) /
    2 ^ (21 - 3 * (i % 8)) % 8, fun i => ⟨Int.emod_nonneg _ (by norm_num), Int.emod_lt_of_pos _ (by norm_num)⟩, fun i => ?_⟩
  rw [Octs]
  have h0 := (B (3 * i)).toNat_lt
  have h1 := (B (3 * i + 1)).toNat_lt
  have h2 := (B (3 * i + 2)).toNat_lt
  simp only [show 8 * i / 8 = i by omega, show (8 * i + 1) / 8 = i by omega, show (8 * i + 2) / 8 = i by omega,
    show (8 * i + 3) / 8 = i by omega, show (8 * i + 4) / 8 = i by omega, show (8 * i + 5) / 8 = i by omega,
    show (8 * i + 6) / 8 = i by omega, show (8 * i + 7) / 8 = i by omega, show 8 * i % 8 = 0 by omega,
    show (8 * i + 1) % 8 = 1 by omega, show (8 * i + 2) % 8 = 2 by omega, show (8 * i + 3) % 8 = 3 by omega,
    show (8 * i + 4) % 8 = 4 by omega, show (8 * i + 5) % 8 = 5 by omega, show (8 * i + 6) % 8 = 6 by omega,
    show (8 * i + 7) % 8 = 7 by omega]
  norm_num
  omega

/-- Three bits are close to the coefficient. -/
theorem oct_close (x : Int) : ∃ j : Int, |x - unoct (oct x) - 12289 * j| ≤ 768 := by
  refine ⟨(8 * x + 6144) / 12289 / 8, ?_⟩
  rw [oct, unoct, abs_le]
  omega

/-! ## The key -/

theorem bit0 (b : UInt8) : ofU8 (b &&& 1) = b.toNat % 2 := by
  rw [ofU8, UInt8.toNat_and]
  show ((b.toNat &&& (2 ^ 1 - 1) : ℕ) : Int) = _
  rw [Nat.and_two_pow_sub_one_eq_mod]
  push_cast; rfl

theorem shr1 (b : UInt8) : (b >>> 1).toNat = b.toNat / 2 := by
  rw [UInt8.toNat_shiftRight]
  show b.toNat >>> 1 = _
  rw [Nat.shiftRight_eq_div_pow]

theorem encodeByte_wp : ∀ (n i : Nat) (kj : UInt8) (p : Poly), i + n ≤ 256 →
    Wp (encodeByte n i kj p) fun p' =>
      (∀ e, e < n → ∀ h, h < 4 → cf p' (i + e + 256 * h) = (kj.toNat / 2 ^ e % 2 : Nat) * 6144) ∧
      ∀ l, l % 256 < i ∨ i + n ≤ l % 256 → l < 1024 → cf p' l = cf p l := by
  intro n
  induction n with
  | zero => intro i kj p _; exact .pure ⟨fun e h => by omega, fun _ _ _ => rfl⟩
  | succ n ih =>
    intro i kj p hi
    rw [encodeByte]
    have eq2 : PRIME.tdiv 2 = 6144 := by decide
    simp only [bit0, eq2, Option.bind_eq_bind]
    rw [i32_eq (by omega) (by omega)]
    simp only [Option.bind_some]
    refine .bind (setAt_cf p (l := i) (by omega) _) fun p1 h1 => ?_
    refine .bind (setAt_cf p1 (l := i + 256) (by omega) _) fun p2 h2 => ?_
    refine .bind (setAt_cf p2 (l := i + 512) (by omega) _) fun p3 h3 => ?_
    refine .bind (setAt_cf p3 (l := i + 768) (by omega) _) fun p4 h4 => ?_
    refine (ih (i + 1) (kj >>> 1) p4 (by omega)).mono fun p' ⟨q1, q2⟩ => ⟨fun e he h hh => ?_, fun l hl hl' => ?_⟩
    · cases e with
      | zero =>
        rw [q2 _ (by omega) (by omega), h4, h3, h2, h1, pow_zero, Nat.div_one, add_zero]
        push_cast
        interval_cases h
        · simp
        all_goals simp
      | succ e =>
        rw [show i + (e + 1) + 256 * h = i + 1 + e + 256 * h by ring, q1 e (by omega) h hh, shr1, Nat.div_div_eq_div_mul, pow_succ', ]
    · rw [q2 l (by omega) hl', h4, h3, h2, h1]
      iterate 4 rw [Function.update_of_ne (by omega)]

/-- The bit number `i` of a key. -/
def kbit (B : Nat → UInt8) (i : Nat) : Nat := (B (i / 8)).toNat / 2 ^ (i % 8) % 2

theorem encodeLoop_wp (key : List UInt8) : ∀ (n j : Nat) (p : Poly), j + n ≤ 32 → j + n ≤ key.length →
    Wp (encodeLoop key n j p) fun p' =>
      (∀ i, 8 * j ≤ i → i < 8 * (j + n) → ∀ h, h < 4 → cf p' (i + 256 * h) = kbit (bt key) i * 6144) ∧
      ∀ l, l % 256 < 8 * j ∨ 8 * (j + n) ≤ l % 256 → l < 1024 → cf p' l = cf p l := by
  intro n
  induction n with
  | zero => intro j p _ _; exact .pure ⟨fun i h h' => by omega, fun _ _ _ => rfl⟩
  | succ n ih =>
    intro j p hj hk
    rw [encodeLoop]
    refine .bind (.of_eq (get_bt key (i := j) (by omega)) rfl) fun _ e => ?_
    subst e
    refine .bind (encodeByte_wp 8 (8 * j) _ p (by omega)) fun p1 ⟨h1, h2⟩ => ?_
    refine (ih (j + 1) p1 (by omega) (by omega)).mono fun p' ⟨q1, q2⟩ => ⟨fun i a b h hh => ?_, fun l a b => ?_⟩
    · by_cases e : 8 * j + 8 ≤ i
      · exact q1 i (by omega) (by omega) h hh
      · rw [q2 _ (by omega) (by omega)]
        have := h1 (i - 8 * j) (by omega) h hh
        rw [show 8 * j + (i - 8 * j) = i by omega] at this
        rw [this, kbit, show i / 8 = j by omega, show i % 8 = i - 8 * j by omega]
    · rw [q2 l (by omega) b, h2 l (by omega) b]

/-- `encode`. -/
theorem encode_wp (key : List UInt8) (hk : 32 ≤ key.length) (p : Poly) :
    Wp (encode key p) fun p' => ∀ l, l < 1024 → cf p' l = kbit (bt key) (l % 256) * 6144 :=
  (encodeLoop_wp key 32 0 p (by omega) (by omega)).mono fun _ ⟨h, _⟩ l hl => by
    have := h (l % 256) (by omega) (by omega) (l / 256) (by omega)
    rwa [show l % 256 + 256 * (l / 256) = l by omega] at this

theorem clear_wp : ∀ (n i : Nat) (key : List UInt8), i + n ≤ key.length → Wp (clear n i key) fun k => k.length = key.length ∧
    ∀ l, l < i ∨ i + n ≤ l → bt k l = bt key l := by
  intro n
  induction n with
  | zero => intro i key _; exact .pure ⟨rfl, fun _ _ => rfl⟩
  | succ n ih =>
    intro i key hi
    rw [clear]
    refine .bind (setB_bt key (i := i) (by omega) _) fun k1 ⟨g1, h1⟩ => ?_
    refine (ih (i + 1) k1 (by omega)).mono fun k ⟨g, h⟩ => ⟨by omega, fun l hl => ?_⟩
    rw [h l (by omega), h1, Function.update_of_ne (by omega)]

/-- The bit that `decode` finds. -/
def vote (X : Nat → Int) (i : Nat) : Nat :=
  if |X i - 6144| + |X (i + 256) - 6144| + |X (i + 512) - 6144| + |X (i + 768) - 6144| < 12289 then 1 else 0

/-- Bits shifted in from the top. -/
def shiftIn (b : Nat → Nat) : Nat → Nat → Nat → Nat
  | 0, _, v => v
  | n + 1, i, v => shiftIn b n (i + 1) (v / 2 + 128 * b i)

theorem decodeByte_wp (p : Poly) (hp : ∀ l, l < 1024 → 0 ≤ cf p l ∧ cf p l < 2 ^ 26) (j : Nat) : ∀ (n i : Nat) (key : List UInt8),
    i + n ≤ 256 → j < key.length →
    Wp (decodeByte p j n i key) fun k => k.length = key.length ∧ (bt k j).toNat = shiftIn (vote (cf p)) n i (bt key j).toNat ∧
      ∀ l, l ≠ j → bt k l = bt key l := by
  intro n
  induction n with
  | zero => intro i key _ _; exact .pure ⟨rfl, rfl, fun _ _ => rfl⟩
  | succ n ih =>
    intro i key hi hj
    rw [decodeByte]
    have eq2 : PRIME.tdiv 2 = 6144 := by decide
    have p0 := hp i (by omega)
    have p1 := hp (i + 256) (by omega)
    have p2 := hp (i + 512) (by omega)
    have p3 := hp (i + 768) (by omega)
    have ab : ∀ x : Int, 0 ≤ x ∧ x < 2 ^ 26 → i32 (x - 6144) = some (x - 6144) ∧ nabs (x - 6144) = some |x - 6144| ∧
        0 ≤ |x - 6144| ∧ |x - 6144| < 2 ^ 26 := fun x hx =>
      ⟨i32_eq (by omega) (by omega), nabs_eq (by omega) (by omega), abs_nonneg _, by rw [abs_lt]; omega⟩
    obtain ⟨a0, n0, l0, u0⟩ := ab _ p0
    obtain ⟨a1, n1, l1, u1⟩ := ab _ p1
    obtain ⟨a2, n2, l2, u2⟩ := ab _ p2
    obtain ⟨a3, n3, l3, u3⟩ := ab _ p3
    simp only [eq2]
    simp only [get_cf p (show i < 1024 by omega), get_cf p (show i + 256 < 1024 by omega),
      get_cf p (show i + 512 < 1024 by omega), get_cf p (show i + 768 < 1024 by omega), get_bt key hj,
      Option.bind_eq_bind, Option.bind_some, a0, a1, a2, a3, n0, n1, n2, n3, PRIME]
    have hv : vote (cf p) i = if |cf p i - 6144| + |cf p (i + 256) - 6144| + |cf p (i + 512) - 6144| + |cf p (i + 768) - 6144| < 12289
        then 1 else 0 := rfl
    generalize |cf p i - 6144| = t0 at *
    generalize |cf p (i + 256) - 6144| = t1 at *
    generalize |cf p (i + 512) - 6144| = t2 at *
    generalize |cf p (i + 768) - 6144| = t3 at *
    refine .bind (.of_eq (i32_eq (by omega) (by omega)) rfl) fun _ e => ?_
    subst e
    refine .bind (.of_eq (i32_eq (by omega) (by omega)) rfl) fun _ e => ?_
    subst e
    refine .bind (.of_eq (i32_eq (by omega) (by omega)) rfl) fun _ e => ?_
    subst e
    refine .bind (.of_eq (i32_eq (by omega) (by omega)) rfl) fun _ e => ?_
    subst e
    have hb : (asU8 (shl32 (and32 (sar (t0 + t1 + t2 + t3 - 0x3001) 31) 1) 7)).toNat = 128 * vote (cf p) i := by
      have m1 : ∀ x : Int, and32 x 1 = x % 2 := fun x => and32_mask (n := 1) (by norm_num) x
      rw [m1, sar, hv]
      by_cases c : t0 + t1 + t2 + t3 < 12289
      · rw [if_pos c, show (t0 + t1 + t2 + t3 - 0x3001) / 2 ^ 31 = -1 by omega]
        decide
      · rw [if_neg c, show (t0 + t1 + t2 + t3 - 0x3001) / 2 ^ 31 = 0 by omega]
        decide
    rw [hb, shr1]
    have hv1 : vote (cf p) i ≤ 1 := by rw [hv]; split <;> omega
    have hk := (bt key j).toNat_lt
    rw [if_neg (by omega)]
    refine .bind (setB_bt key hj _) fun k1 ⟨g1, h1⟩ => ?_
    refine (ih (i + 1) k1 (by omega) (by omega)).mono fun k ⟨g, h2, h3⟩ => ⟨by omega, ?_, fun l hl => ?_⟩
    · have hw : ((bt key j).toNat / 2 + 128 * vote (cf p) i).toUInt8.toNat = (bt key j).toNat / 2 + 128 * vote (cf p) i := by
        rw [Nat.toUInt8_eq, UInt8.toNat_ofNat']
        exact Nat.mod_eq_of_lt (by omega)
      rw [h2, h1, Function.update_self, shiftIn, hw]
    · rw [h3 l hl, h1, Function.update_of_ne hl]

theorem shiftIn8 {b : Nat → Nat} (hb : ∀ i, b i ≤ 1) (i v e : Nat) (hv : v < 256) (he : e < 8) :
    shiftIn b 8 i v / 2 ^ e % 2 = b (i + e) := by
  simp only [shiftIn, Nat.add_assoc, Nat.reduceAdd]
  have h0 := hb i
  have h1 := hb (i + 1)
  have h2 := hb (i + 2)
  have h3 := hb (i + 3)
  have h4 := hb (i + 4)
  have h5 := hb (i + 5)
  have h6 := hb (i + 6)
  have h7 := hb (i + 7)
  interval_cases e
  · rw [add_zero]; omega
  all_goals omega

theorem vote_le (X : Nat → Int) (i : Nat) : vote X i ≤ 1 := by rw [vote]; split <;> omega

theorem decodeLoop_wp (p : Poly) (hp : ∀ l, l < 1024 → 0 ≤ cf p l ∧ cf p l < 2 ^ 26) : ∀ (n j : Nat) (key : List UInt8),
    j + n ≤ 32 → j + n ≤ key.length →
    Wp (decodeLoop p n j key) fun k => k.length = key.length ∧
      (∀ i, 8 * j ≤ i → i < 8 * (j + n) → kbit (bt k) i = vote (cf p) i) ∧ ∀ l, l < j ∨ j + n ≤ l → bt k l = bt key l := by
  intro n
  induction n with
  | zero => intro j key _ _; exact .pure ⟨rfl, fun i h h' => by omega, fun _ _ => rfl⟩
  | succ n ih =>
    intro j key hj hk
    rw [decodeLoop]
    refine .bind (decodeByte_wp p hp j 8 (8 * j) key (by omega) (by omega)) fun k1 ⟨g1, h1, h2⟩ => ?_
    refine (ih (j + 1) k1 (by omega) (by omega)).mono fun k ⟨g, h3, h4⟩ => ⟨by omega, fun i a b => ?_, fun l hl => ?_⟩
    · by_cases e : 8 * j + 8 ≤ i
      · exact h3 i (by omega) (by omega)
      · rw [kbit, show i / 8 = j by omega, h4 j (by omega), h1, shiftIn8 (vote_le _) _ _ _ (bt key j).toNat_lt (by omega)]
        congr 1; omega
    · rw [h4 l (by omega), h2 l (by omega)]

/-- `decode`. -/
theorem decode_wp (p : Poly) (hp : ∀ l, l < 1024 → 0 ≤ cf p l ∧ cf p l < 2 ^ 26) (key : List UInt8) (hk : 32 ≤ key.length) :
    Wp (decode p key) fun k => k.length = key.length ∧ (∀ i, i < 256 → kbit (bt k) i = vote (cf p) i) ∧
      ∀ l, 32 ≤ l → bt k l = bt key l := by
  rw [decode]
  refine .bind (clear_wp 32 0 key (by omega)) fun k1 ⟨g1, h1⟩ => ?_
  refine (decodeLoop_wp p hp 32 0 k1 (by omega) (by omega)).mono fun k ⟨g, h2, h3⟩ => ⟨by omega, fun i hi => h2 i (by omega) (by omega),
    fun l hl => by rw [h3 l (by omega), h1 l (by omega)]⟩

/-- Bits determine bytes. -/
theorem kbit_inj {k m : List UInt8} (hk : k.length = 32) (hm : m.length = 32) (h : ∀ i, i < 256 → kbit (bt k) i = kbit (bt m) i) : k = m := by
  refine bt_ext (by omega) fun j hj => ?_
  rw [← UInt8.toNat_inj]
  have e : ∀ e, e < 8 → (bt k j).toNat / 2 ^ e % 2 = (bt m j).toNat / 2 ^ e % 2 := fun e he => by
    have := h (8 * j + e) (by omega)
    rwa [kbit, kbit, show (8 * j + e) / 8 = j by omega, show (8 * j + e) % 8 = e by omega] at this
  have h1 := (bt k j).toNat_lt
  have h2 := (bt m j).toNat_lt
  have e0 := e 0 (by omega)
  have e1 := e 1 (by omega)
  have e2 := e 2 (by omega)
  have e3 := e 3 (by omega)
  have e4 := e 4 (by omega)
  have e5 := e 5 (by omega)
  have e6 := e 6 (by omega)
  have e7 := e 7 (by omega)
  omega

end NHS

end Amcl
