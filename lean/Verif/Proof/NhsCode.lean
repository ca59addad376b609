import Verif.Proof.NhsNtt
import Mathlib.Tactic.IntervalCases
/-!
# The encodings of `nhs.rs`
-/

namespace Amcl

/-! ## Operations on `i32` -/

theorem and32_mask {n : Nat} (hn : n < 32) (x : Int) : and32 x (2 ^ n - 1) = x % 2 ^ n :=
  and_mask hn x

theorem shl32_eq {x : Int} {n : Nat} (h1 : -2 ^ 31 ≤ x * 2 ^ n) (h2 : x * 2 ^ n < 2 ^ 31) :
    shl32 x n = x * 2 ^ n := by
  rw [shl32, Int.bmod_eq_of_le_mul_two] <;> norm_num at * <;> linarith

/-- `|` of a multiple of `2^n` and a number below `2^n` is their sum. -/
theorem or32_add {n : Nat} {a b : Int} (ha : 0 ≤ a) (hb : 0 ≤ b) (hbn : b < 2 ^ n)
    (hdvd : (2 : Int) ^ n ∣ a) (h : a + b < 2 ^ 31) : or32 a b = a + b := by
  obtain ⟨k, rfl⟩ := hdvd
  have hk : 0 ≤ k := by
    by_contra hneg
    have : 2 ^ n * k < 0 := mul_neg_of_pos_of_neg (by positivity) (by omega)
    omega
  obtain ⟨k, rfl⟩ := Int.eq_ofNat_of_zero_le hk
  obtain ⟨b, rfl⟩ := Int.eq_ofNat_of_zero_le hb
  have hbn' : b < 2 ^ n := by exact_mod_cast hbn
  have e1 : (BitVec.ofInt 32 (2 ^ n * (k : Int))).toNat = 2 ^ n * k := by
    zify; rw [ofInt_toNat]; exact Int.emod_eq_of_lt ha (by omega)
  have e2 : (BitVec.ofInt 32 ((b : Int))).toNat = b := by
    zify; rw [ofInt_toNat]; exact Int.emod_eq_of_lt hb (by omega)
  have e3 : (BitVec.ofInt 32 (2 ^ n * (k : Int)) ||| BitVec.ofInt 32 (b : Int)).toNat
      = 2 ^ n * k + b := by
    rw [BitVec.toNat_or, e1, e2, Nat.two_pow_add_eq_or_of_lt hbn']
  simp only [or32]
  rw [BitVec.toInt_eq_toNat_of_lt, e3]
  · push_cast; rfl
  · rw [e3]; zify; omega

theorem or32_comm (a b : Int) : or32 a b = or32 b a := by rw [or32, or32, BitVec.or_comm]

/-- The same with the small number first. -/
theorem or32_add' {n : Nat} {a b : Int} (ha : 0 ≤ a) (hb : 0 ≤ b) (hbn : b < 2 ^ n)
    (hdvd : (2 : Int) ^ n ∣ a) (h : a + b < 2 ^ 31) : or32 b a = b + a := by
  rw [or32_comm, or32_add ha hb hbn hdvd h, add_comm]

theorem xor32_neg_one {y : Int} (h1 : -2 ^ 31 ≤ y) (h2 : y < 2 ^ 31) : xor32 y (-1) = -1 - y := by
  have : BitVec.ofInt 32 (-1) = BitVec.allOnes 32 := by decide
  rw [xor32, this, BitVec.xor_allOnes, BitVec.not_eq_neg_add]
  have e : -BitVec.ofInt 32 y - 1#32 = BitVec.ofInt 32 (-1 - y) := by
    have e1 : (1#32 : BitVec 32) = BitVec.ofInt 32 1 := rfl
    rw [e1, ← BitVec.ofInt_neg, BitVec.sub_eq_add_neg, ← BitVec.ofInt_neg, ← BitVec.ofInt_add]
    congr 1; ring
  rw [e, toInt_ofInt (by norm_num) (by norm_num at *; omega) (by norm_num at *; omega)]

theorem xor32_zero {y : Int} (h1 : -2 ^ 31 ≤ y) (h2 : y < 2 ^ 31) : xor32 y 0 = y := by
  rw [xor32]
  have : BitVec.ofInt 32 0 = 0#32 := rfl
  rw [this, BitVec.xor_zero, toInt_ofInt (by norm_num) (by norm_num at *; omega) (by norm_num at *; omega)]

/-- Three bits below the top byte. -/
theorem top3 (x : Int) : sar (and32 x 0xe00000) 21 = x / 2 ^ 21 % 8 := by
  have e0 : (BitVec.ofInt 32 0xe00000).toNat = 7 <<< 21 := by decide
  have h : (BitVec.ofInt 32 x &&& BitVec.ofInt 32 0xe00000).toNat ≤ 0xe00000 := by
    rw [BitVec.toNat_and, e0]
    exact Nat.and_le_right
  have e1 : (BitVec.ofInt 32 x &&& BitVec.ofInt 32 0xe00000).toNat >>> 21 = ((BitVec.ofInt 32 x).toNat / 2 ^ 21) % 2 ^ 3 := by
    rw [BitVec.toNat_and, e0, Nat.shiftRight_and_distrib, Nat.shiftLeft_shiftRight, Nat.shiftRight_eq_div_pow]
    exact Nat.and_two_pow_sub_one_eq_mod _ 3
  rw [sar, and32, BitVec.toInt_eq_toNat_of_lt (by omega)]
  rw [Nat.shiftRight_eq_div_pow] at e1
  have e3 := ofInt_toNat 32 x
  generalize (BitVec.ofInt 32 x &&& BitVec.ofInt 32 0xe00000).toNat = y at *
  generalize (BitVec.ofInt 32 x).toNat = z at *
  omega

namespace NHS

open HASH256 (setAt)
open SHA3 (setB)

theorem nabs_eq {x : Int} (h1 : -2 ^ 30 ≤ x) (h2 : x < 2 ^ 30) : nabs x = some |x| := by
  rw [nabs]
  by_cases h : 0 ≤ x
  · have : sar x 31 = 0 := by rw [sar]; omega
    rw [this, add_zero, i32_eq (by omega) (by omega)]
    simp only [Option.bind_eq_bind, Option.bind_some, xor32_zero (show -2 ^ 31 ≤ x by omega) (by omega), abs_of_nonneg h]
    rfl
  · have : sar x 31 = -1 := by rw [sar]; omega
    rw [this, i32_eq (by omega) (by omega)]
    simp only [Option.bind_eq_bind, Option.bind_some,
      xor32_neg_one (show -2 ^ 31 ≤ x + -1 by omega) (by omega), abs_of_neg (show x < 0 by omega)]
    show some _ = _
    congr 1; ring

theorem round_eq {a b : Int} (h0 : 0 ≤ a) (h1 : a < 2 ^ 30) (hb : 0 < b) (hb' : b < 2 ^ 30) :
    NHS.round a b = some ((a + b / 2) / b) := by
  have e : b.tdiv 2 = b / 2 := Int.tdiv_eq_ediv_of_nonneg (by omega)
  rw [NHS.round, e, i32_eq (by omega) (by omega)]
  simp only [Option.bind_eq_bind, Option.bind_some]
  rw [Int.tdiv_eq_ediv_of_nonneg (by omega)]
  rfl

/-! ## Bytes -/

/-- The byte number `i`. -/
def bt (l : List UInt8) (i : Nat) : UInt8 := l[i]?.getD 0

theorem get_bt (l : List UInt8) {i : Nat} (h : i < l.length) : l[i]? = some (bt l i) := by
  simp [bt, h]

theorem bt_ext {l m : List UInt8} (h : l.length = m.length) (hb : ∀ i, i < l.length → bt l i = bt m i) : l = m := by
  apply List.ext_getElem h
  intro i h1 h2
  have := hb i h1
  simpa [bt, h1, h2] using this

theorem setB_bt (l : List UInt8) {i : Nat} (h : i < l.length) (v : UInt8) :
    Wp (setB l i v) fun l' => l'.length = l.length ∧ bt l' = Function.update (bt l) i v := by
  rw [setB, if_pos h]
  refine .pure ⟨by simp, ?_⟩
  funext j
  by_cases e : j = i
  · subst e; simp [bt, h]
  · rw [Function.update_of_ne e]
    simp [bt, List.getElem?_set_ne (fun q => e q.symm)]

theorem asU8_toNat {x : Int} (h0 : 0 ≤ x) (h1 : x < 256) : ((asU8 x).toNat : Int) = x := by
  rw [asU8, Int.emod_eq_of_lt h0 (by omega)]
  simp only [Nat.toUInt8_eq, UInt8.toNat_ofNat']
  omega

theorem ofU8_ff (b : UInt8) : ofU8 (b &&& 0xff) = b.toNat := by
  have : b &&& 0xff = b := by
    rw [← UInt8.toNat_inj, UInt8.toNat_and]
    show b.toNat &&& (2 ^ 8 - 1) = _
    rw [Nat.and_two_pow_sub_one_eq_mod]
    exact Nat.mod_eq_of_lt b.toNat_lt
  rw [this, ofU8]

/-! ## Fourteen bits -/

/-- Four coefficients of 14 bits in seven bytes, little-endian. -/
def Group (a b c d : Int) (B : Nat → UInt8) (j : Nat) : Prop :=
  a + b * 2 ^ 14 + c * 2 ^ 28 + d * 2 ^ 42 = (B j).toNat + (B (j + 1)).toNat * 2 ^ 8 + (B (j + 2)).toNat * 2 ^ 16 +
    (B (j + 3)).toNat * 2 ^ 24 + (B (j + 4)).toNat * 2 ^ 32 + (B (j + 5)).toNat * 2 ^ 40 + (B (j + 6)).toNat * 2 ^ 48

theorem or_part {x y : Int} {s t : Nat} (ht : t ≤ 14) (hst : s + t = 14) (hx : 0 ≤ x ∧ x < 2 ^ 14) (hy : 0 ≤ y ∧ y < 2 ^ 14) :
    and32 (or32 (sar x s) (shl32 y t)) 0xff = (x / 2 ^ s + y * 2 ^ t) % 256 := by
  have p1 : (1 : Int) ≤ 2 ^ t := one_le_pow₀ (by norm_num)
  have p2 : (2 : Int) ^ t ≤ 2 ^ 14 := pow_le_pow_right₀ (by norm_num) ht
  have p3 : y * 2 ^ t ≤ 2 ^ 14 * 2 ^ 14 := mul_le_mul (by omega) p2 (by omega) (by norm_num)
  have p4 : 0 ≤ y * 2 ^ t := mul_nonneg hy.1 (by omega)
  have p5 : 0 ≤ x / 2 ^ s := Int.ediv_nonneg hx.1 (by positivity)
  have p6 : x / 2 ^ s < 2 ^ t := by
    apply Int.ediv_lt_of_lt_mul (by positivity)
    rw [← pow_add, add_comm, hst]; exact hx.2
  rw [shl32_eq (by omega) (by omega), sar, or32_add' p4 p5 p6 (dvd_mul_left _ _) (by omega)]
  exact and32_mask (n := 8) (by norm_num) _

theorem packLoop_wp (p : Poly) (hp : ∀ l, l < 1024 → 0 ≤ cf p l ∧ cf p l < 2 ^ 14) : ∀ (n k : Nat) (l : List UInt8), k + n ≤ 256 →
    7 * (k + n) ≤ l.length →
    Wp (packLoop p n k l) fun l' => l'.length = l.length ∧
      (∀ i, k ≤ i → i < k + n → Group (cf p (4 * i)) (cf p (4 * i + 1)) (cf p (4 * i + 2)) (cf p (4 * i + 3)) (bt l') (7 * i)) ∧
      ∀ i, i < 7 * k ∨ 7 * (k + n) ≤ i → bt l' i = bt l i := by
  intro n
  induction n with
  | zero => intro k l _ _; exact .pure ⟨rfl, fun i h h' => by omega, fun _ _ => rfl⟩
  | succ n ih =>
    intro k l hk hl
    rw [packLoop]
    have ha := hp (4 * k) (by omega)
    have hb := hp (4 * k + 1) (by omega)
    have hc := hp (4 * k + 2) (by omega)
    have hd := hp (4 * k + 3) (by omega)
    simp only [get_cf p (show 4 * k < 1024 by omega), get_cf p (show 4 * k + 1 < 1024 by omega),
      get_cf p (show 4 * k + 2 < 1024 by omega), get_cf p (show 4 * k + 3 < 1024 by omega), Option.bind_eq_bind, Option.bind_some]
    generalize ea : cf p (4 * k) = a at *
    generalize eb : cf p (4 * k + 1) = b at *
    generalize ec : cf p (4 * k + 2) = c at *
    generalize ed : cf p (4 * k + 3) = d at *
    rw [or_part (by norm_num) (by norm_num) ha hb, or_part (by norm_num) (by norm_num) hb hc,
      or_part (by norm_num) (by norm_num) hc hd]
    have m8 : ∀ x : Int, and32 x 0xff = x % 256 := fun x => and32_mask (n := 8) (by norm_num) x
    rw [m8, m8, m8]
    simp only [sar]
    refine .bind (setB_bt l (i := 7 * k) (by omega) _) fun l1 ⟨g1, h1⟩ => ?_
    refine .bind (setB_bt l1 (i := 7 * k + 1) (by omega) _) fun l2 ⟨g2, h2⟩ => ?_
    refine .bind (setB_bt l2 (i := 7 * k + 2) (by omega) _) fun l3 ⟨g3, h3⟩ => ?_
    refine .bind (setB_bt l3 (i := 7 * k + 3) (by omega) _) fun l4 ⟨g4, h4⟩ => ?_
    refine .bind (setB_bt l4 (i := 7 * k + 4) (by omega) _) fun l5 ⟨g5, h5⟩ => ?_
    refine .bind (setB_bt l5 (i := 7 * k + 5) (by omega) _) fun l6 ⟨g6, h6⟩ => ?_
    refine .bind (setB_bt l6 (i := 7 * k + 6) (by omega) _) fun l7 ⟨g7, h7⟩ => ?_
    have far : ∀ i, i < 7 * k ∨ 7 * k + 7 ≤ i → bt l7 i = bt l i := fun i hi => by
      rw [h7, h6, h5, h4, h3, h2, h1]
      iterate 7 rw [Function.update_of_ne (by omega)]
    have v0 : bt l7 (7 * k) = asU8 (a % 256) := by rw [h7, h6, h5, h4, h3, h2, h1]; simp
    have v1 : bt l7 (7 * k + 1) = asU8 ((a / 2 ^ 8 + b * 2 ^ 6) % 256) := by rw [h7, h6, h5, h4, h3, h2, h1]; simp
    have v2 : bt l7 (7 * k + 2) = asU8 (b / 2 ^ 2 % 256) := by rw [h7, h6, h5, h4, h3, h2, h1]; simp
    have v3 : bt l7 (7 * k + 3) = asU8 ((b / 2 ^ 10 + c * 2 ^ 4) % 256) := by rw [h7, h6, h5, h4, h3, h2, h1]; simp
    have v4 : bt l7 (7 * k + 4) = asU8 (c / 2 ^ 4 % 256) := by rw [h7, h6, h5, h4, h3, h2, h1]; simp
    have v5 : bt l7 (7 * k + 5) = asU8 ((c / 2 ^ 12 + d * 2 ^ 2) % 256) := by rw [h7, h6, h5, h4, h3, h2, h1]; simp
    have v6 : bt l7 (7 * k + 6) = asU8 (d / 2 ^ 6) := by rw [h7, h6, h5, h4, h3, h2, h1]; simp
    have near : Group a b c d (bt l7) (7 * k) := by
      rw [Group, v0, v1, v2, v3, v4, v5, v6]
      rw [asU8_toNat (x := a % 256) (by omega) (by omega), asU8_toNat (x := (a / 2 ^ 8 + b * 2 ^ 6) % 256) (by omega) (by omega),
        asU8_toNat (x := b / 2 ^ 2 % 256) (by omega) (by omega), asU8_toNat (x := (b / 2 ^ 10 + c * 2 ^ 4) % 256) (by omega) (by omega),
        asU8_toNat (x := c / 2 ^ 4 % 256) (by omega) (by omega), asU8_toNat (x := (c / 2 ^ 12 + d * 2 ^ 2) % 256) (by omega) (by omega),
        asU8_toNat (x := d / 2 ^ 6) (by omega) (by omega)]
      omega
    refine (ih (k + 1) l7 (by omega) (by omega)).mono fun l' ⟨q1, q2, q3⟩ => ⟨by omega, fun i h h' => ?_, fun i h => ?_⟩
    · by_cases e : i = k
      · subst e
        rw [ea, eb, ec, ed, Group, q3 _ (by omega), q3 _ (by omega), q3 _ (by omega), q3 _ (by omega), q3 _ (by omega),
          q3 _ (by omega), q3 _ (by omega)]
        exact near
      · exact q2 i (by omega) (by omega)
    · rw [q3 i (by omega), far i (by omega)]

/-- `nhs_pack`. -/
theorem pack_wp (p : Poly) (hp : ∀ l, l < 1024 → 0 ≤ cf p l ∧ cf p l < 2 ^ 14) (l : List UInt8) (hl : 1792 ≤ l.length) :
    Wp (nhs_pack p l) fun l' => l'.length = l.length ∧
      (∀ i, i < 256 → Group (cf p (4 * i)) (cf p (4 * i + 1)) (cf p (4 * i + 2)) (cf p (4 * i + 3)) (bt l') (7 * i)) ∧
      ∀ i, 1792 ≤ i → bt l' i = bt l i :=
  (packLoop_wp p hp 256 0 l (by omega) (by omega)).mono fun _ ⟨h1, h2, h3⟩ =>
    ⟨h1, fun i hi => h2 i (by omega) (by omega), fun i hi => h3 i (by omega)⟩

theorem unpackLoop_wp (l : List UInt8) : ∀ (n k : Nat) (p : Poly), k + n ≤ 256 → 7 * (k + n) ≤ l.length →
    Wp (unpackLoop l n k p) fun p' =>
      (∀ i, k ≤ i → i < k + n → Group (cf p' (4 * i)) (cf p' (4 * i + 1)) (cf p' (4 * i + 2)) (cf p' (4 * i + 3)) (bt l) (7 * i)) ∧
      (∀ i, 4 * k ≤ i → i < 4 * (k + n) → 0 ≤ cf p' i ∧ cf p' i < 2 ^ 14) ∧
      ∀ i, i < 4 * k ∨ 4 * (k + n) ≤ i → cf p' i = cf p i := by
  intro n
  induction n with
  | zero => intro k p _ _; exact .pure ⟨fun i h h' => by omega, fun i h h' => by omega, fun _ _ => rfl⟩
  | succ n ih =>
    intro k p hk hl
    rw [unpackLoop]
    simp only [get_bt l (show 7 * k < l.length by omega), get_bt l (show 7 * k + 1 < l.length by omega),
      get_bt l (show 7 * k + 2 < l.length by omega), get_bt l (show 7 * k + 3 < l.length by omega),
      get_bt l (show 7 * k + 4 < l.length by omega), get_bt l (show 7 * k + 5 < l.length by omega),
      get_bt l (show 7 * k + 6 < l.length by omega), Option.bind_eq_bind, Option.bind_some, ofU8_ff]
    have ha := (bt l (7 * k)).toNat_lt
    have hb := (bt l (7 * k + 1)).toNat_lt
    have hc := (bt l (7 * k + 2)).toNat_lt
    have hd := (bt l (7 * k + 3)).toNat_lt
    have he := (bt l (7 * k + 4)).toNat_lt
    have hf := (bt l (7 * k + 5)).toNat_lt
    have hg := (bt l (7 * k + 6)).toNat_lt
    generalize ea : (bt l (7 * k)).toNat = a at *
    generalize eb : (bt l (7 * k + 1)).toNat = b at *
    generalize ec : (bt l (7 * k + 2)).toNat = c at *
    generalize ed : (bt l (7 * k + 3)).toNat = d at *
    generalize ee : (bt l (7 * k + 4)).toNat = e at *
    generalize ef : (bt l (7 * k + 5)).toNat = f at *
    generalize eg : (bt l (7 * k + 6)).toNat = g at *
    have m6 : and32 (b : Int) 0x3f = b % 64 := and32_mask (n := 6) (by norm_num) _
    have m4 : and32 (d : Int) 0xf = d % 16 := and32_mask (n := 4) (by norm_num) _
    have m2 : and32 (f : Int) 3 = f % 4 := and32_mask (n := 2) (by norm_num) _
    rw [m6, m4, m2]
    simp only [sar]
    rw [shl32_eq (n := 8) (by omega) (by omega), shl32_eq (n := 2) (by omega) (by omega), shl32_eq (n := 10) (by omega) (by omega),
      shl32_eq (n := 4) (by omega) (by omega), shl32_eq (n := 12) (by omega) (by omega), shl32_eq (n := 6) (by omega) (by omega)]
    rw [or32_add' (n := 8) (by omega) (by omega) (by omega) (by omega) (by omega),
      or32_add' (b := (b : Int) / 2 ^ 6) (n := 2) (by omega) (by omega) (by omega) (by omega) (by omega),
      or32_add' (n := 10) (by omega) (by omega) (by omega) (by omega) (by omega),
      or32_add' (b := (d : Int) / 2 ^ 4) (n := 4) (by omega) (by omega) (by omega) (by omega) (by omega),
      or32_add' (n := 12) (by omega) (by omega) (by omega) (by omega) (by omega),
      or32_add' (n := 6) (by omega) (by omega) (by omega) (by omega) (by omega)]
    refine .bind (setAt_cf p (l := 4 * k) (by omega) _) fun p1 h1 => ?_
    refine .bind (setAt_cf p1 (l := 4 * k + 1) (by omega) _) fun p2 h2 => ?_
    refine .bind (setAt_cf p2 (l := 4 * k + 2) (by omega) _) fun p3 h3 => ?_
    refine .bind (setAt_cf p3 (l := 4 * k + 3) (by omega) _) fun p4 h4 => ?_
    have far : ∀ i, i < 4 * k ∨ 4 * k + 4 ≤ i → cf p4 i = cf p i := fun i hi => by
      rw [h4, h3, h2, h1]
      iterate 4 rw [Function.update_of_ne (by omega)]
    have v0 : cf p4 (4 * k) = a + b % 64 * 2 ^ 8 := by
      rw [h4, h3, h2, h1]
      simp
    have v1 : cf p4 (4 * k + 1) = b / 2 ^ 6 + c * 2 ^ 2 + d % 16 * 2 ^ 10 := by
      rw [h4, h3, h2, h1]
      simp
    have v2 : cf p4 (4 * k + 2) = d / 2 ^ 4 + e * 2 ^ 4 + f % 4 * 2 ^ 12 := by
      rw [h4, h3, h2, h1]
      simp
    have v3 : cf p4 (4 * k + 3) = f / 2 ^ 2 + g * 2 ^ 6 := by
      rw [h4, h3, h2, h1]
      simp
    refine (ih (k + 1) p4 (by omega) (by omega)).mono fun p' ⟨q1, q2, q3⟩ => ⟨fun i h h' => ?_, fun i h h' => ?_, fun i h => ?_⟩
    · by_cases z : i = k
      · subst z
        rw [q3 _ (by omega), q3 _ (by omega), q3 _ (by omega), q3 _ (by omega), Group, ea, eb, ec, ed, ee, ef, eg, v0, v1, v2, v3]
        omega
      · exact q1 i (by omega) (by omega)
    · by_cases z : 4 * k + 4 ≤ i
      · exact q2 i (by omega) (by omega)
      · rw [q3 i (by omega)]
        obtain rfl | rfl | rfl | rfl : i = 4 * k ∨ i = 4 * k + 1 ∨ i = 4 * k + 2 ∨ i = 4 * k + 3 := by omega
        · rw [v0]; omega
        · rw [v1]; omega
        · rw [v2]; omega
        · rw [v3]; omega
    · rw [q3 i (by omega), far i (by omega)]

/-- `nhs_unpack`. -/
theorem unpack_wp (l : List UInt8) (hl : 1792 ≤ l.length) (p : Poly) :
    Wp (nhs_unpack l p) fun p' =>
      (∀ i, i < 256 → Group (cf p' (4 * i)) (cf p' (4 * i + 1)) (cf p' (4 * i + 2)) (cf p' (4 * i + 3)) (bt l) (7 * i)) ∧
      ∀ i, i < 1024 → 0 ≤ cf p' i ∧ cf p' i < 2 ^ 14 :=
  (unpackLoop_wp l 256 0 p (by omega) (by omega)).mono fun _ ⟨h1, h2, _⟩ =>
    ⟨fun i hi => h1 i (by omega) (by omega), fun i hi => h2 i (by omega) (by omega)⟩

/-- The bytes determine the coefficients. -/
theorem group_inj {p q : Poly} {B : Nat → UInt8} (hp : ∀ l, l < 1024 → 0 ≤ cf p l ∧ cf p l < 2 ^ 14)
    (hq : ∀ l, l < 1024 → 0 ≤ cf q l ∧ cf q l < 2 ^ 14)
    (h1 : ∀ i, i < 256 → Group (cf p (4 * i)) (cf p (4 * i + 1)) (cf p (4 * i + 2)) (cf p (4 * i + 3)) B (7 * i))
    (h2 : ∀ i, i < 256 → Group (cf q (4 * i)) (cf q (4 * i + 1)) (cf q (4 * i + 2)) (cf q (4 * i + 3)) B (7 * i)) :
    ∀ l, l < 1024 → cf p l = cf q l := by
  intro l hl
  have e := (h1 (l / 4) (by omega)).trans (h2 (l / 4) (by omega)).symm
  have p0 := hp (4 * (l / 4)) (by omega)
  have p1 := hp (4 * (l / 4) + 1) (by omega)
  have p2 := hp (4 * (l / 4) + 2) (by omega)
  have p3 := hp (4 * (l / 4) + 3) (by omega)
  have q0 := hq (4 * (l / 4)) (by omega)
  have q1 := hq (4 * (l / 4) + 1) (by omega)
  have q2 := hq (4 * (l / 4) + 2) (by omega)
  have q3 := hq (4 * (l / 4) + 3) (by omega)
  obtain z | z | z | z : l = 4 * (l / 4) ∨ l = 4 * (l / 4) + 1 ∨ l = 4 * (l / 4) + 2 ∨ l = 4 * (l / 4) + 3 := by omega
  · rw [z]; omega
  · rw [z]; omega
  · rw [z]; omega
  · rw [z]; omega

end NHS

end Amcl
