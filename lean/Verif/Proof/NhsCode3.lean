import Verif.Proof.NhsCode2
import Verif.Proof.NhsRing
/-!
# The encodings of `nhs.rs` as functions on byte strings
-/

namespace Amcl

namespace NHS

open HASH256 (setAt)
open SHA3 (setB)
open Spec.NewHope (pack14 unpack14 pack3 unpack3 keyBit Zq)

theorem bt_append (l m : List UInt8) (i : Nat) : bt (l ++ m) i = if i < l.length then bt l i else bt m (i - l.length) := by
  rw [bt]
  split
  · rename_i h
    rw [List.getElem?_append_left h]; rfl
  · rename_i h
    rw [List.getElem?_append_right (by omega)]; rfl

theorem bt_drop (l : List UInt8) (n i : Nat) : bt (l.drop n) i = bt l (n + i) := by
  rw [bt, List.getElem?_drop]; rfl

theorem bt_take (l : List UInt8) {n i : Nat} (h : i < n) : bt (l.take n) i = bt l i := by
  rw [bt, List.getElem?_take_of_lt h]; rfl

theorem bt_range (f : Nat → UInt8) {n i : Nat} (h : i < n) : bt ((List.range n).map f) i = f i := by
  simp [bt, h]

theorem getD_bt (l : List UInt8) (i : Nat) : l.getD i 0 = bt l i := by rw [bt, List.getD_eq_getElem?_getD]

/-! ## Digits -/

theorem digit_lt {B : Nat} {b : Nat → Nat} (hb : ∀ j, b j < B) (n : Nat) : ∑ j ∈ Finset.range n, b j * B ^ j < B ^ n := by
  induction n with
  | zero => simp
  | succ n ih =>
    rw [Finset.sum_range_succ, pow_succ]
    have := hb n
    calc _ < B ^ n + b n * B ^ n := by omega
      _ = (b n + 1) * B ^ n := by ring
      _ ≤ B * B ^ n := Nat.mul_le_mul_right _ (by omega)
      _ = _ := by ring

theorem digit_sum {B : Nat} {b : Nat → Nat} (hb : ∀ j, b j < B) {n k : Nat} (h : k < n) :
    (∑ j ∈ Finset.range n, b j * B ^ j) / B ^ k % B = b k := by
  obtain ⟨r, rfl⟩ : ∃ r, n = k + (1 + r) := ⟨n - k - 1, by omega⟩
  have hB : 0 < B := lt_of_le_of_lt (Nat.zero_le _) (hb 0)
  rw [Finset.sum_range_add, Finset.sum_range_add]
  have e : ∑ x ∈ Finset.range r, b (k + (1 + x)) * B ^ (k + (1 + x)) = B ^ k * (B * ∑ x ∈ Finset.range r, b (k + (1 + x)) * B ^ x) := by
    rw [Finset.mul_sum, Finset.mul_sum]
    refine Finset.sum_congr rfl fun x _ => ?_
    rw [pow_add, pow_add, pow_one]; ring
  rw [e, Finset.sum_range_one, add_zero, show b k * B ^ k + B ^ k * (B * ∑ x ∈ Finset.range r, b (k + (1 + x)) * B ^ x) =
    B ^ k * (b k + B * ∑ x ∈ Finset.range r, b (k + (1 + x)) * B ^ x) by ring, Nat.add_mul_div_left _ _ (Nat.pow_pos hB),
    Nat.div_eq_of_lt (digit_lt hb k), zero_add, Nat.add_mul_mod_self_left, Nat.mod_eq_of_lt (hb k)]

theorem toUInt8_toNat (b : UInt8) : b.toNat.toUInt8 = b := by
  rw [Nat.toUInt8_eq, UInt8.ofNat_toNat]

/-! ## Fourteen bits -/

theorem group_sum {v : Nat → Nat} {B : Nat → UInt8} : ∀ n, (∀ i, i < n → Group (v (4 * i)) (v (4 * i + 1)) (v (4 * i + 2)) (v (4 * i + 3)) B (7 * i)) →
    ∑ i ∈ Finset.range (4 * n), v i * 2 ^ (14 * i) = ∑ j ∈ Finset.range (7 * n), (B j).toNat * 256 ^ j := by
  intro n
  induction n with
  | zero => intro _; rfl
  | succ n ih =>
    intro h
    have e1 : 4 * (n + 1) = 4 * n + 1 + 1 + 1 + 1 := by ring
    have e2 : 7 * (n + 1) = 7 * n + 1 + 1 + 1 + 1 + 1 + 1 + 1 := by ring
    rw [e1, e2]
    simp only [Finset.sum_range_succ]
    rw [ih fun i hi => h i (by omega)]
    have g := h n (by omega)
    unfold Group at g
    have g' : v (4 * n) + v (4 * n + 1) * 2 ^ 14 + v (4 * n + 2) * 2 ^ 28 + v (4 * n + 3) * 2 ^ 42 = (B (7 * n)).toNat + (B (7 * n + 1)).toNat * 2 ^ 8 +
        (B (7 * n + 2)).toNat * 2 ^ 16 + (B (7 * n + 3)).toNat * 2 ^ 24 + (B (7 * n + 4)).toNat * 2 ^ 32 + (B (7 * n + 5)).toNat * 2 ^ 40 +
        (B (7 * n + 6)).toNat * 2 ^ 48 := by exact_mod_cast g
    have p1 : ∀ k, 2 ^ (14 * (4 * n + k)) = 2 ^ (56 * n) * 2 ^ (14 * k) := fun k => by rw [← pow_add]; congr 1; ring
    have p2 : ∀ k, 256 ^ (7 * n + k) = 2 ^ (56 * n) * 2 ^ (8 * k) := fun k => by
      rw [show (256 : Nat) = 2 ^ 8 from rfl, ← pow_mul, ← pow_add]; congr 1; ring
    have q1 : 2 ^ (14 * (4 * n)) = 2 ^ (56 * n) := by congr 1; ring
    have q2 : 256 ^ (7 * n) = 2 ^ (56 * n) := by rw [show (256 : Nat) = 2 ^ 8 from rfl, ← pow_mul]; congr 1; ring
    simp only [p1, p2, q1, q2]
    linear_combination 2 ^ (56 * n) * g'

theorem pack14_of_groups {v : Nat → Nat} {l : List UInt8} (hl : 1792 ≤ l.length)
    (h : ∀ i, i < 256 → Group (v (4 * i)) (v (4 * i + 1)) (v (4 * i + 2)) (v (4 * i + 3)) (bt l) (7 * i)) : l.take 1792 = pack14 v := by
  have e := group_sum 256 h
  refine bt_ext (by simp [pack14, hl]) fun i hi => ?_
  rw [List.length_take, Nat.min_eq_left hl] at hi
  rw [bt_take l hi, pack14, bt_range _ hi, show (1024 : Nat) = 4 * 256 from rfl, e, digit_sum (fun j => (bt l j).toNat_lt) hi, toUInt8_toNat]

theorem unpack14_of_groups {v : Nat → Nat} {l : List UInt8} (hv : ∀ i, i < 1024 → v i < 2 ^ 14)
    (h : ∀ i, i < 256 → Group (v (4 * i)) (v (4 * i + 1)) (v (4 * i + 2)) (v (4 * i + 3)) (bt l) (7 * i)) {i : Nat} (hi : i < 1024) :
    v i = unpack14 l i := by
  have e := group_sum 256 h
  rw [unpack14]
  simp only [getD_bt]
  rw [show (1792 : Nat) = 7 * 256 from rfl, ← e]
  have e2 : ∑ i ∈ Finset.range (4 * 256), v i * 2 ^ (14 * i) = ∑ i ∈ Finset.range (4 * 256), (if i < 1024 then v i else 0) * (2 ^ 14) ^ i := by
    refine Finset.sum_congr rfl fun i hi => ?_
    rw [if_pos (Finset.mem_range.1 hi), pow_mul]
  rw [e2, pow_mul, digit_sum (fun j => ?_) hi, if_pos hi]
  split
  · exact hv _ ‹_›
  · norm_num

theorem pack_list (p : Poly) (hp : ∀ l, l < 1024 → 0 ≤ cf p l ∧ cf p l < 2 ^ 14) (l : List UInt8) (hl : l.length = 1792) :
    nhs_pack p l = some (pack14 fun i => (cf p i).toNat) := by
  obtain ⟨l', e, h1, h2, -⟩ := pack_wp p hp l (by omega)
  rw [e, ← pack14_of_groups (l := l') (by omega), List.take_of_length_le (by omega)]
  intro i hi
  have t : ∀ j, j < 1024 → (((cf p j).toNat : Nat) : Int) = cf p j := fun j hj => Int.toNat_of_nonneg (hp j hj).1
  rw [t _ (by omega), t _ (by omega), t _ (by omega), t _ (by omega)]
  exact h2 i hi

theorem unpack_list (l : List UInt8) (hl : 1792 ≤ l.length) (p : Poly) :
    Wp (nhs_unpack l p) fun p' => ∀ i, i < 1024 → cf p' i = unpack14 l i ∧ cf p' i < 2 ^ 14 := by
  refine (unpack_wp l hl p).mono fun p' ⟨h1, h2⟩ i hi => ⟨?_, (h2 i hi).2⟩
  have t : ∀ j, j < 1024 → (((cf p' j).toNat : Nat) : Int) = cf p' j := fun j hj => Int.toNat_of_nonneg (h2 j hj).1
  rw [← unpack14_of_groups (v := fun i => (cf p' i).toNat) (fun j hj => ?_) (fun j hj => ?_) hi, t i hi]
  · have := h2 j hj
    show (cf p' j).toNat < 2 ^ 14
    omega
  · rw [t _ (by omega), t _ (by omega), t _ (by omega), t _ (by omega)]
    exact h1 j hj

theorem unpack14_lt (l : List UInt8) (i : Nat) : unpack14 l i < 2 ^ 14 := Nat.mod_lt _ (by norm_num)

/-- The bytes of `pack14` determine the numbers. -/
theorem unpack_pack {v : Nat → Nat} (hv : ∀ i, i < 1024 → v i < 2 ^ 14) (m : List UInt8) {i : Nat} (hi : i < 1024) : unpack14 (pack14 v ++ m) i = v i := by
  have e2 : ∑ i ∈ Finset.range 1024, v i * 2 ^ (14 * i) = ∑ i ∈ Finset.range 1024, (if i < 1024 then v i else 0) * (2 ^ 14) ^ i := by
    refine Finset.sum_congr rfl fun i hi => ?_
    rw [if_pos (Finset.mem_range.1 hi), pow_mul]
  have hw : ∀ j, (if j < 1024 then v j else 0) < 2 ^ 14 := fun j => by
    split
    · exact hv _ ‹_›
    · norm_num
  rw [unpack14]
  set N := ∑ i ∈ Finset.range 1024, v i * 2 ^ (14 * i) with hN
  have hlt : N < 256 ^ 1792 := by
    rw [e2]
    refine lt_of_lt_of_eq (digit_lt hw 1024) ?_
    rw [show (256 : Nat) = 2 ^ 8 from rfl, ← pow_mul, ← pow_mul]
  have e3 : ∑ j ∈ Finset.range 1792, ((pack14 v ++ m).getD j 0).toNat * 256 ^ j = ∑ j ∈ Finset.range 1792, (N / 256 ^ j % 256) * 256 ^ j := by
    refine Finset.sum_congr rfl fun j hj => ?_
    have hj := Finset.mem_range.1 hj
    rw [getD_bt, bt_append, if_pos (by simpa [pack14] using hj), pack14, bt_range _ hj, ← hN, Nat.toUInt8_eq, UInt8.toNat_ofNat', Nat.mod_mod]
  have e4 : ∀ n, ∑ j ∈ Finset.range n, (N / 256 ^ j % 256) * 256 ^ j = N % 256 ^ n := by
    intro n
    induction n with
    | zero => simp [Nat.mod_one]
    | succ n ih => rw [Finset.sum_range_succ, ih, pow_succ, Nat.mod_mul]; ring
  rw [e3, e4, Nat.mod_eq_of_lt hlt, e2, pow_mul, digit_sum hw hi, if_pos hi]

/-! ## Three bits -/

theorem eight (b : Nat → Nat) (i : Nat) : ∑ e ∈ Finset.range 8, b (i + e) * 8 ^ (7 - e) =
    b i * 2 ^ 21 + b (i + 1) * 2 ^ 18 + b (i + 2) * 2 ^ 15 + b (i + 3) * 2 ^ 12 + b (i + 4) * 2 ^ 9 + b (i + 5) * 2 ^ 6 +
    b (i + 6) * 2 ^ 3 + b (i + 7) := by
  simp [Finset.sum_range_succ]

theorem three (B : Nat → Nat) (i : Nat) : ∑ t ∈ Finset.range 3, B (i + t) * 256 ^ t = B i + B (i + 1) * 2 ^ 8 + B (i + 2) * 2 ^ 16 := by
  simp [Finset.sum_range_succ]

theorem octs_nat {b : Nat → Nat} {B : Nat → UInt8} {i j : Nat} : Octs (fun l => b l) B i j ↔
    ∑ e ∈ Finset.range 8, b (i + e) * 8 ^ (7 - e) = ∑ t ∈ Finset.range 3, (B (j + t)).toNat * 256 ^ t := by
  rw [eight, three (fun l => (B l).toNat), Octs]
  norm_cast

theorem pack3_of_octs {b : Nat → Nat} {l : List UInt8} (hl : 384 ≤ l.length)
    (h : ∀ i, i < 128 → Octs (fun l => b l) (bt l) (8 * i) (3 * i)) : l.take 384 = pack3 b := by
  refine bt_ext (by simp [pack3, hl]) fun i hi => ?_
  rw [List.length_take, Nat.min_eq_left hl] at hi
  rw [bt_take l hi, pack3, bt_range _ hi, octs_nat.1 (h (i / 3) (by omega)),
    digit_sum (b := fun t => (bt l (3 * (i / 3) + t)).toNat) (fun j => (bt l _).toNat_lt) (Nat.mod_lt _ (by norm_num)),
    Nat.div_add_mod, toUInt8_toNat]

theorem unpack3_octs (l : List UInt8) (k : Nat) : Octs (fun i => (unpack3 l i : Int)) (bt l) (8 * k) (3 * k) := by
  rw [octs_nat]
  have e : ∀ e, e < 8 → unpack3 l (8 * k + e) = (∑ t ∈ Finset.range 3, (bt l (3 * k + t)).toNat * 256 ^ t) / 8 ^ (7 - e) % 8 := fun e he => by
    rw [unpack3, show (8 * k + e) / 8 = k by omega, show (8 * k + e) % 8 = e by omega]
    simp only [getD_bt]
  have hlt := digit_lt (B := 256) (b := fun t => (bt l (3 * k + t)).toNat) (fun j => (bt l _).toNat_lt) 3
  rw [eight]
  simp only [e 1 (by norm_num), e 2 (by norm_num), e 3 (by norm_num), e 4 (by norm_num), e 5 (by norm_num), e 6 (by norm_num), e 7 (by norm_num)]
  have e0 := e 0 (by norm_num)
  rw [add_zero] at e0
  rw [e0]
  generalize ∑ t ∈ Finset.range 3, (bt l (3 * k + t)).toNat * 256 ^ t = N at *
  omega

theorem unpack3_lt (l : List UInt8) (i : Nat) : unpack3 l i < 8 := Nat.mod_lt _ (by norm_num)

theorem octs_unique {b c : Nat → Nat} {B : Nat → UInt8} {i j : Nat} (hb : ∀ i, b i < 8) (hc : ∀ i, c i < 8)
    (h1 : Octs (fun l => (b l : Int)) B i j) (h2 : Octs (fun l => (c l : Int)) B i j) : ∀ e, e < 8 → b (i + e) = c (i + e) := by
  intro e he
  have g1 := dig8 (b := fun l => (b l : Int)) (fun i => ⟨by omega, by exact_mod_cast hb i⟩) h1.symm e he
  have g2 := dig8 (b := fun l => (c l : Int)) (fun i => ⟨by omega, by exact_mod_cast hc i⟩) h2.symm e he
  exact_mod_cast g1.symm.trans g2

theorem pack3_octs {b : Nat → Nat} (hb : ∀ i, b i < 8) (m : List UInt8) {k : Nat} (hk : k < 128) :
    Octs (fun l => (b l : Int)) (bt (pack3 b ++ m)) (8 * k) (3 * k) := by
  rw [octs_nat]
  have h : ∀ t, t < 3 → (bt (pack3 b ++ m) (3 * k + t)).toNat = (∑ e ∈ Finset.range 8, b (8 * k + e) * 8 ^ (7 - e)) / 256 ^ t % 256 := fun t ht => by
    have hl : 3 * k + t < (pack3 b).length := by rw [pack3, List.length_map, List.length_range]; omega
    rw [bt_append, if_pos hl, pack3, bt_range _ (by omega), show (3 * k + t) / 3 = k by omega, show (3 * k + t) % 3 = t by omega,
      Nat.toUInt8_eq, UInt8.toNat_ofNat', Nat.mod_mod]
  have hlt : ∑ e ∈ Finset.range 8, b (8 * k + e) * 8 ^ (7 - e) < 2 ^ 24 := by
    rw [eight]
    have b0 := hb (8 * k)
    have b1 := hb (8 * k + 1)
    have b2 := hb (8 * k + 2)
    have b3 := hb (8 * k + 3)
    have b4 := hb (8 * k + 4)
    have b5 := hb (8 * k + 5)
    have b6 := hb (8 * k + 6)
    have b7 := hb (8 * k + 7)
    omega
  have h0 := h 0 (by norm_num)
  rw [add_zero] at h0
  rw [three (fun i => (bt (pack3 b ++ m) i).toNat)]
  simp only [h0, h 1 (by norm_num), h 2 (by norm_num)]
  omega

theorem unpack3_pack3 {b : Nat → Nat} (hb : ∀ i, b i < 8) (m : List UInt8) {i : Nat} (hi : i < 1024) : unpack3 (pack3 b ++ m) i = b i := by
  have := octs_unique (fun i => unpack3_lt (pack3 b ++ m) i) hb (unpack3_octs (pack3 b ++ m) (i / 8)) (pack3_octs hb m (k := i / 8) (by omega)) (i % 8) (by omega)
  rwa [Nat.div_add_mod] at this

theorem oct_zmod (x : Int) : oct x = Spec.NewHope.compress (x : Zq) := by
  rw [oct, Spec.NewHope.compress]
  have : (((x : Zq).val : Nat) : Int) = x % 12289 := ZMod.val_intCast (n := 12289) x
  push_cast
  rw [this, show 8 * x + 6144 = 8 * (x % 12289) + 6144 + 12289 * (8 * (x / 12289)) by omega, Int.add_mul_ediv_left _ _ (by norm_num),
    Int.add_mul_emod_self_left]
  congr 1
  omega

theorem compress_lt (x : Zq) : Spec.NewHope.compress x < 8 := Nat.mod_lt _ (by norm_num)

theorem unoct_nat (b : Nat) : unoct b = Spec.NewHope.decompress b := by
  rw [unoct, Spec.NewHope.decompress]
  push_cast
  omega

theorem compress_list (p : Poly) (hp : ∀ l, l < 1024 → 0 ≤ cf p l ∧ cf p l < 2 ^ 26) (l : List UInt8) (hl : l.length = 384) :
    compress p l = some (pack3 fun i => Spec.NewHope.compress (cf p i : Zq)) := by
  obtain ⟨l', e, h1, h2, -⟩ := compress_wp p hp l (by omega)
  rw [e, ← pack3_of_octs (l := l') (by omega), List.take_of_length_le (by omega)]
  intro i hi
  simpa only [oct_zmod] using h2 i hi

theorem decompress_list (l : List UInt8) (hl : 384 ≤ l.length) (p : Poly) :
    Wp (decompress l p) fun p' => ∀ i, i < 1024 → cf p' i = Spec.NewHope.decompress (unpack3 l i) :=
  (decompress_wp l hl (b := fun i => (unpack3 l i : Int)) (fun i => ⟨by omega, by exact_mod_cast unpack3_lt l i⟩) (fun i _ => unpack3_octs l i) p).mono
    fun p' h i hi => by rw [h i hi, unoct_nat]

/-! ## The key -/

theorem kbit_eq (l : List UInt8) (i : Nat) : kbit (bt l) i = keyBit l i := by rw [kbit, keyBit, getD_bt]

theorem vote_eq {X : Nat → Int} (hX : ∀ l, l < 1024 → 0 ≤ X l ∧ X l < 12289) {i : Nat} (hi : i < 256) :
    vote X i = Spec.NewHope.decodeBit (fun l => (X l : Zq)) i := by
  have e : ∀ l, l < 1024 → (((X l : Zq).val : Nat) : Int) = X l := fun l hl => by
    rw [ZMod.val_intCast (n := 12289)]
    exact Int.emod_eq_of_lt (hX l hl).1 (hX l hl).2
  rw [vote, Spec.NewHope.decodeBit]
  simp only [Finset.sum_range_succ, Finset.sum_range_zero, zero_add, mul_zero, add_zero, mul_one]
  rw [e i (by omega), e (i + 256) (by omega), e (i + 256 * 2) (by omega), e (i + 256 * 3) (by omega)]

end NHS

end Amcl
