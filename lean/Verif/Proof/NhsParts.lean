import Verif.Proof.NhsCode3
import Verif.Proof.Sha3
import Verif.Proof.Rng
/-!
# Hashes, noise and coefficientwise operations of `nhs.rs`
-/

namespace Amcl

namespace NHS

open HASH256 (setAt)
open SHA3 (setB In)
open Spec (sha256)
open Spec.NewHope (Zq octet uniform pop noise eval point)
open Spec.Keccak (bits sha3 shake)

/-! ## Copies -/

theorem copy_wp (p q : Nat) (src : List UInt8) : ∀ (n i : Nat) (dst : List UInt8), i + n + p ≤ dst.length → i + n + q ≤ src.length →
    Wp (copy p q src n i dst) fun d => d.length = dst.length ∧
      ∀ l, bt d l = if i + p ≤ l ∧ l < i + n + p then bt src (l - p + q) else bt dst l := by
  intro n
  induction n with
  | zero => intro i dst _ _; exact .pure ⟨rfl, fun l => by rw [if_neg (by omega)]⟩
  | succ n ih =>
    intro i dst h1 h2
    rw [copy]
    refine .bind (.of_eq (get_bt src (i := i + q) (by omega)) rfl) fun _ e => ?_
    subst e
    refine .bind (setB_bt dst (by omega) _) fun d1 ⟨e1, e2⟩ => ?_
    refine (ih (i + 1) d1 (by omega) (by omega)).mono fun d ⟨g1, g2⟩ => ⟨g1.trans e1, fun l => ?_⟩
    rw [g2, e2]
    by_cases c : l = i + p
    · subst c
      rw [if_neg (by omega), Function.update_self, if_pos (by omega), Nat.add_sub_cancel]
    · rw [Function.update_of_ne c]
      by_cases c2 : i + p ≤ l ∧ l < i + (n + 1) + p
      · rw [if_pos c2, if_pos (by omega)]
      · rw [if_neg c2, if_neg (by omega)]

theorem copy_none (p q : Nat) (src : List UInt8) : ∀ (n i : Nat) (dst : List UInt8), dst.length < i + n + p ∨ src.length < i + n + q → 0 < n →
    copy p q src n i dst = none := by
  intro n
  induction n with
  | zero => intro i dst _ h; omega
  | succ n ih =>
    intro i dst h _
    rw [copy]
    by_cases c1 : i + q < src.length
    · rw [get_bt src c1]
      simp only [Option.bind_eq_bind, Option.bind_some]
      by_cases c2 : i + p < dst.length
      · rw [setB, if_pos c2]
        exact ih (i + 1) _ (by rw [List.length_set]; omega) (by omega)
      · rw [setB, if_neg c2]; rfl
    · rw [List.getElem?_eq_none (by omega)]; rfl

/-- The whole of `src` to the place `p`. -/
theorem copy_list (p n : Nat) (src dst : List UInt8) (hs : src.length = n) (hd : n + p ≤ dst.length) :
    copy p 0 src n 0 dst = some (dst.take p ++ src ++ dst.drop (p + n)) := by
  obtain ⟨d, e, h1, h2⟩ := copy_wp p 0 src n 0 dst (by omega) (by omega)
  rw [e]
  refine congrArg some (bt_ext (by simp; omega) fun i hi => ?_)
  have hp : (dst.take p).length = p := by rw [List.length_take]; omega
  rw [h2, bt_append, bt_append, List.length_append, hp]
  by_cases c1 : i < p
  · rw [if_neg (by omega), if_pos (by omega), if_pos c1, bt_take _ c1]
  · by_cases c2 : i < p + src.length
    · rw [if_pos (by omega), if_pos c2, if_neg c1]; rfl
    · rw [if_neg (by omega), if_neg c2, bt_drop]
      congr 1
      omega

/-- A part of `src` to the front. -/
theorem copy_part (q n : Nat) (src dst : List UInt8) (hs : n + q ≤ src.length) (hd : dst.length = n) :
    copy 0 q src n 0 dst = some ((src.drop q).take n) := by
  obtain ⟨d, e, h1, h2⟩ := copy_wp 0 q src n 0 dst (by omega) (by omega)
  rw [e]
  refine congrArg some (bt_ext (by simp; omega) fun i hi => ?_)
  rw [h2, if_pos (by omega), bt_take _ (by omega), bt_drop]
  congr 1
  omega

/-! ## Random bytes -/

/-- `n` bytes of the generator. -/
noncomputable def draw (e : List UInt8) (i n : Nat) : List UInt8 := (List.range n).map fun j => Spec.Rng.byte e (i + j)

theorem draw_length (e : List UInt8) (i n : Nat) : (draw e i n).length = n := by simp [draw]

theorem fetch_wp {e : List UInt8} : ∀ (n i p : Nat) (g : RAND) (b : List UInt8), RAND.Gen (sha256 e) p g → i + n ≤ b.length →
    Wp (fetch n i g b) fun r => RAND.Gen (sha256 e) (p + n) r.1 ∧ r.2.length = b.length ∧
      ∀ l, bt r.2 l = if i ≤ l ∧ l < i + n then Spec.Rng.byte e (p + (l - i)) else bt b l := by
  intro n
  induction n with
  | zero => intro i p g b hg _; exact .pure ⟨hg, rfl, fun l => by rw [if_neg (by omega)]⟩
  | succ n ih =>
    intro i p g b hg h
    rw [fetch]
    refine .bind (RAND.getbyte_wp hg) fun ⟨x, g1⟩ ⟨e1, hg1⟩ => ?_
    dsimp only at e1 hg1 ⊢
    refine .bind (setB_bt b (by omega) x) fun b1 ⟨e2, e3⟩ => ?_
    refine (ih (i + 1) (p + 1) g1 b1 hg1 (by omega)).mono fun r ⟨h1, h2, h3⟩ => ⟨?_, by omega, fun l => ?_⟩
    · rwa [show p + (n + 1) = p + 1 + n by ring]
    · rw [h3, e3, e1]
      by_cases c : l = i
      · subst c
        rw [if_neg (by omega), Function.update_self, if_pos (by omega), Nat.sub_self, add_zero]
      · rw [Function.update_of_ne c]
        by_cases c2 : i ≤ l ∧ l < i + (n + 1)
        · rw [if_pos c2, if_pos (by omega), show p + 1 + (l - (i + 1)) = p + (l - i) by omega]
        · rw [if_neg c2, if_neg (by omega)]

theorem fetch_list {e : List UInt8} {p : Nat} {g : RAND} (hg : RAND.Gen (sha256 e) p g) (n : Nat) (b : List UInt8) (hb : b.length = n) :
    Wp (fetch n 0 g b) fun r => RAND.Gen (sha256 e) (p + n) r.1 ∧ r.2 = draw e p n :=
  (fetch_wp n 0 p g b hg (by omega)).mono fun r ⟨h1, h2, h3⟩ => ⟨h1, bt_ext (by rw [draw_length]; omega) fun l hl => by
    rw [h3, if_pos (by omega), draw, bt_range _ (by omega), Nat.sub_zero]⟩

/-! ## Hashes -/

theorem process32_wp {R olen : Nat} (hR : 0 < R ∧ R ≤ 200) (b : List UInt8) : ∀ (n i : Nat) (t : SHA3) (m : List UInt8), In t R olen m → i + n ≤ b.length →
    m.length + n < 2 ^ 64 → Wp (process32 b n i t) fun t' => In t' R olen (m ++ (b.drop i).take n) := by
  intro n
  induction n with
  | zero => intro i t m h _ _; exact .pure (by simpa using h)
  | succ n ih =>
    intro i t m h hi hm
    rw [process32]
    refine .bind (.of_eq (List.getElem?_eq_getElem (show i < b.length by omega)) rfl) fun _ e => ?_
    subst e
    refine .bind (SHA3.process_wp h hR (by omega) _) fun t1 h1 => ?_
    refine (ih (i + 1) t1 _ h1 (by omega) (by simp; omega)).mono fun t' h' => ?_
    rwa [List.append_assoc, List.singleton_append, ← List.take_succ_cons, List.cons_getElem_drop_succ] at h'

theorem octet_bits (d : List UInt8) {j : Nat} (n : Nat) (hj : j < n) : octet (bits (d.take n)) j = (bt d j).toNat := by
  have h : ∀ k, k < 8 → ((bits (d.take n)).getD (8 * j + k) false) = (bt d j).toNat.testBit k := fun k hk => by
    rw [SHA3.bits_getD, show (8 * j + k) / 8 = j by omega, show (8 * j + k) % 8 = k by omega, getD_bt, bt_take _ hj]
    rfl
  rw [octet]
  have e : ∀ k ∈ Finset.range 8, (if (bits (d.take n)).getD (8 * j + k) false then 2 ^ k else 0) = (bt d j).toNat / 2 ^ k % 2 * 2 ^ k := fun k hk => by
    rw [h k (Finset.mem_range.1 hk), bit_if]; ring
  rw [Finset.sum_congr rfl e]
  simp only [Finset.sum_range_succ, Finset.sum_range_zero]
  have := (bt d j).toNat_lt
  omega

theorem hashKey_eq (key : List UInt8) (hk : key.length = 32) : hashKey key = some (Spec.NewHope.hash key) := by
  obtain ⟨t1, e1, h1⟩ := SHA3.new_in SHA3.HASH256 (by decide)
  obtain ⟨t2, e2, h2⟩ := process32_wp (by decide) key 32 0 t1 [] h1 (by omega) (by decide)
  obtain ⟨⟨d, t3⟩, e3, h3, h4, h5⟩ := SHA3.hash_wp h2 (by decide) (by simp [hk]) (by decide) (b0 := key) (by rw [hk]; decide)
  dsimp only at h3 h4 h5
  rw [hashKey, e1]
  simp only [Option.bind_eq_bind, Option.bind_some, e2, e3]
  refine congrArg some (bt_ext (by simp [Spec.NewHope.hash, h3, hk]) fun i hi => ?_)
  rw [List.nil_append, List.drop_zero, List.take_of_length_le (l := key) (by omega)] at h4
  rw [Spec.NewHope.hash, bt_range _ (by omega), sha3]
  have := octet_bits d (j := i) 32 (by omega)
  rw [show bits (d.take 32) = _ from h4] at this
  rw [show octet (Spec.Keccak.sponge (1600 - 2 * 256) (bits key ++ [false, true]) 256) i = (bt d i).toNat from this, toUInt8_toNat]

theorem hash_length (k : List UInt8) : (Spec.NewHope.hash k).length = 32 := by simp [Spec.NewHope.hash]

theorem and7f (b : UInt8) : ofU8 (b &&& 0x7f) = b.toNat % 128 := by
  have : (b &&& 0x7f).toNat = b.toNat % 128 := by
    rw [UInt8.toNat_and]
    exact Nat.and_two_pow_sub_one_eq_mod b.toNat 7
  rw [ofU8, this]
  norm_cast

theorem parseCoeff_wp (h : List UInt8) {i : Nat} (hi : 4 * i + 4 ≤ h.length) :
    Wp (parseCoeff h i) fun r => Bd 15122 r ∧ (r : Zq) = ((((bt h (4 * i)).toNat * 2 ^ 24 + (bt h (4 * i + 1)).toNat * 2 ^ 16 +
      (bt h (4 * i + 2)).toNat * 2 ^ 8 + (bt h (4 * i + 3)).toNat) % 2 ^ 31 : Nat) : Zq) * 2 ^ 32 := by
  have b0 := (bt h (4 * i)).toNat_lt
  have b1 := (bt h (4 * i + 1)).toNat_lt
  have b2 := (bt h (4 * i + 2)).toNat_lt
  have b3 := (bt h (4 * i + 3)).toNat_lt
  rw [parseCoeff]
  refine .bind (.of_eq (get_bt h (i := 4 * i) (by omega)) rfl) fun _ e => ?_
  subst e
  rw [and7f, shl32_eq (by omega) (by omega)]
  refine .bind (.of_eq (get_bt h (i := 4 * i + 1) (by omega)) rfl) fun _ e => ?_
  subst e
  rw [ofU8]
  refine .bind (.of_eq (i32_eq (by omega) (by omega)) rfl) fun _ e => ?_
  subst e
  rw [shl32_eq (by omega) (by omega)]
  refine .bind (.of_eq (get_bt h (i := 4 * i + 2) (by omega)) rfl) fun _ e => ?_
  subst e
  rw [ofU8]
  refine .bind (.of_eq (i32_eq (by omega) (by omega)) rfl) fun _ e => ?_
  subst e
  rw [shl32_eq (by omega) (by omega)]
  refine .bind (.of_eq (get_bt h (i := 4 * i + 3) (by omega)) rfl) fun _ e => ?_
  subst e
  rw [ofU8]
  refine .bind (.of_eq (i32_eq (by omega) (by omega)) rfl) fun n e => ?_
  refine (nres_wp (x := n) (by omega) (by omega)).mono fun r ⟨r0, r1, r2⟩ => ⟨⟨r0, by omega⟩, ?_⟩
  rw [r2]
  congr 1
  rw [← Int.cast_natCast]
  congr 1
  push_cast
  omega

theorem parse_wp (seed : List UInt8) (hs : seed.length = 32) (p : Poly) :
    Wp (parse seed p) fun p' => ∀ i, i < 1024 → Bd 15122 (cf p' i) ∧ (cf p' i : Zq) = uniform seed i * 2 ^ 32 := by
  rw [parse]
  refine .bind (SHA3.new_in SHA3.SHAKE128 (by decide)) fun t1 h1 => ?_
  refine .bind (process32_wp (by decide) seed 32 0 t1 [] h1 (by omega) (by decide)) fun t2 h2 => ?_
  refine .bind (SHA3.shake_wp h2 (by decide) (by simp [hs]) (d := 4 * DEGREE) (by decide) (by rw [List.length_replicate])) fun ⟨d, t3⟩ ⟨h3, h4, h5⟩ => ?_
  dsimp only at h3 h4 h5 ⊢
  have hl : d.length = 4096 := by rw [h3, List.length_replicate]; rfl
  rw [List.nil_append, List.drop_zero, List.take_of_length_le (l := seed) (by omega)] at h4
  refine (each_all (P := fun _ _ => True) (Q := fun i x => Bd 15122 x ∧ (x : Zq) = uniform seed i * 2 ^ 32) (f := fun i _ => parseCoeff d i)
    (fun j x hj _ => ?_) p fun _ _ => trivial).mono fun p' h => h
  refine (parseCoeff_wp d (i := j) (by omega)).mono fun r ⟨r0, r1⟩ => ⟨r0, ?_⟩
  rw [r1, uniform, shake]
  have o : ∀ t, t < 4 → octet (Spec.Keccak.sponge (1600 - 2 * 128) (bits seed ++ [true, true, true, true]) 32768) (4 * j + t) = (bt d (4 * j + t)).toNat := fun t ht => by
    have := octet_bits d (j := 4 * j + t) 4096 (by omega)
    rw [show bits (d.take 4096) = _ from h4] at this
    exact this
  have o0 := o 0 (by omega)
  rw [add_zero] at o0
  simp only [Finset.sum_range_succ, Finset.sum_range_zero, zero_add, add_zero, o0, o 1 (by omega), o 2 (by omega), o 3 (by omega),
    Nat.reduceSub, Nat.reducePow, pow_zero, mul_one]

/-! ## Noise -/

theorem errorBits_wp : ∀ (n : Nat) (n1 n2 r : Int), n ≤ 16 → 0 ≤ n1 → 0 ≤ n2 → |r| ≤ 16 - n →
    Wp (errorBits n n1 n2 r) fun x => x = r + ∑ k ∈ Finset.range n, (n1 / 2 ^ k % 2 - n2 / 2 ^ k % 2) ∧ |x| ≤ 16 := by
  intro n
  induction n with
  | zero => intro n1 n2 r _ _ _ h; exact .pure ⟨by simp, by simpa using h⟩
  | succ n ih =>
    intro n1 n2 r hn h1 h2 hr
    rw [abs_le] at hr
    push_cast at hr
    rw [errorBits, show (1 : Int) = 2 ^ 1 - 1 from rfl, and32_mask (by norm_num), and32_mask (by norm_num), pow_one]
    refine .bind (.of_eq (i32_eq (by omega) (by omega)) rfl) fun _ e => ?_
    subst e
    refine .bind (.of_eq (i32_eq (by omega) (by omega)) rfl) fun _ e => ?_
    subst e
    refine (ih (sar n1 1) (sar n2 1) _ (by omega) (by rw [sar]; omega) (by rw [sar]; omega) (by rw [abs_le]; omega)).mono fun x ⟨g1, g2⟩ => ⟨?_, g2⟩
    rw [g1, Finset.sum_range_succ', sar, sar]
    simp only [pow_one, pow_zero, Int.ediv_one, Int.ediv_ediv_of_nonneg (show (0 : Int) ≤ 2 by norm_num), ← pow_succ']
    ring

theorem word_wp {e : List UInt8} {i : Nat} {g : RAND} (hg : RAND.Gen (sha256 e) i g) :
    Wp (word g) fun r => r.1 = (Spec.Rng.byte e i).toNat + (Spec.Rng.byte e (i + 1)).toNat * 2 ^ 8 ∧ RAND.Gen (sha256 e) (i + 2) r.2 := by
  rw [word]
  refine .bind (RAND.getbyte_wp hg) fun ⟨x, g1⟩ ⟨e1, hg1⟩ => ?_
  dsimp only at e1 hg1 ⊢
  refine .bind (RAND.getbyte_wp hg1) fun ⟨y, g2⟩ ⟨e2, hg2⟩ => ?_
  dsimp only at e2 hg2 ⊢
  have := x.toNat_lt
  have := y.toNat_lt
  rw [m8, m8, ofU8, ofU8, shl32_eq (by omega) (by omega)]
  refine .bind (.of_eq (i32_eq (by omega) (by omega)) rfl) fun _ e => ?_
  subst e
  refine .ret ⟨?_, hg2⟩
  rw [← e1, ← e2]
  omega

theorem pop_two (x y : UInt8) : ∑ k ∈ Finset.range 16, ((x.toNat + y.toNat * 2 ^ 8 : Int) / 2 ^ k % 2) = pop x + pop y := by
  have := x.toNat_lt
  have := y.toNat_lt
  rw [show (16 : Nat) = 8 + 8 from rfl, Finset.sum_range_add, pop, pop]
  refine congrArg₂ _ (Finset.sum_congr rfl fun k hk => ?_) (Finset.sum_congr rfl fun k hk => ?_)
  · have hk := Finset.mem_range.1 hk
    push_cast
    interval_cases k <;> omega
  · have hk := Finset.mem_range.1 hk
    push_cast
    interval_cases k <;> omega

theorem pop_le (x : UInt8) : 0 ≤ pop x ∧ pop x ≤ 8 := by
  simp only [pop, Finset.sum_range_succ, Finset.sum_range_zero]
  push_cast
  omega

theorem noise_le (B : Nat → UInt8) (p i : Nat) : |noise B p i| ≤ 16 := by
  have h0 := pop_le (B (p + 4 * i))
  have h1 := pop_le (B (p + 4 * i + 1))
  have h2 := pop_le (B (p + 4 * i + 2))
  have h3 := pop_le (B (p + 4 * i + 3))
  rw [noise, abs_le]
  omega

theorem errorLoop_wp {e : List UInt8} (p : Nat) : ∀ (n i : Nat) (g : RAND) (x : Poly), i + n ≤ 1024 → RAND.Gen (sha256 e) (p + 4 * i) g →
    Wp (errorLoop n i g x) fun r => RAND.Gen (sha256 e) (p + 4 * (i + n)) r.1 ∧
      ∀ l, i ≤ l → l < i + n → cf r.2 l = 12289 + noise (Spec.Rng.byte e) p l := by
  suffices H : ∀ (n i : Nat) (g : RAND) (x : Poly), i + n ≤ 1024 → RAND.Gen (sha256 e) (p + 4 * i) g →
      Wp (errorLoop n i g x) fun r => RAND.Gen (sha256 e) (p + 4 * (i + n)) r.1 ∧
      (∀ l, i ≤ l → l < i + n → cf r.2 l = 12289 + noise (Spec.Rng.byte e) p l) ∧ ∀ l, l < i → cf r.2 l = cf x l from
    fun n i g x h hg => (H n i g x h hg).mono fun r h => ⟨h.1, h.2.1⟩
  intro n
  induction n with
  | zero => intro i g x _ hg; exact .pure ⟨hg, fun l h h' => by omega, fun _ _ => rfl⟩
  | succ n ih =>
    intro i g x h hg
    rw [errorLoop]
    refine .bind (word_wp hg) fun ⟨n1, g1⟩ ⟨e1, hg1⟩ => ?_
    dsimp only at e1 hg1 ⊢
    refine .bind (word_wp hg1) fun ⟨n2, g2⟩ ⟨e2, hg2⟩ => ?_
    dsimp only at e2 hg2 ⊢
    refine .bind (errorBits_wp 16 n1 n2 0 le_rfl (by omega) (by omega) (by simp)) fun r ⟨e3, h3⟩ => ?_
    have hr : r = noise (Spec.Rng.byte e) p i := by
      rw [e3, zero_add, Finset.sum_sub_distrib, e1, e2, pop_two, pop_two, noise]
      rw [show p + 4 * i + 2 + 1 = p + 4 * i + 3 by ring]; ring
    rw [abs_le] at h3
    have hp : PRIME = 12289 := rfl
    refine .bind (.of_eq (i32_eq (x := r + PRIME) (by omega) (by omega)) rfl) fun _ e => ?_
    subst e
    refine .bind (setAt_cf x (by omega) _) fun x1 hx => ?_
    refine (ih (i + 1) g2 x1 (by omega) (by rwa [show p + 4 * (i + 1) = p + 4 * i + 2 + 2 by ring])).mono fun q ⟨k1, k2, k3⟩ => ⟨?_, fun l a b => ?_, fun l a => ?_⟩
    · rwa [show i + (n + 1) = i + 1 + n by ring]
    · by_cases c : l = i
      · subst c
        rw [k3 l (by omega), hx, Function.update_self, hr, hp]; ring
      · exact k2 l (by omega) (by omega)
    · rw [k3 l (by omega), hx, Function.update_of_ne (by omega)]

theorem error_wp {e : List UInt8} {p : Nat} {g : RAND} (hg : RAND.Gen (sha256 e) p g) (x : Poly) :
    Wp (error g x) fun r => RAND.Gen (sha256 e) (p + 4096) r.1 ∧ ∀ l, l < 1024 → cf r.2 l = 12289 + noise (Spec.Rng.byte e) p l :=
  (errorLoop_wp p 1024 0 g x (by norm_num) (by simpa using hg)).mono fun r ⟨h1, h2⟩ => ⟨h1, fun l hl => h2 l (by omega) (by omega)⟩

/-! ## Coefficientwise operations -/

theorem q_zero : (12289 : Zq) = 0 := by decide

theorem redc_lt {y r : Int} (h0 : 0 ≤ y) (h1 : y < 12289) (r1 : r * 2 ^ 32 < 12289 * 2 ^ 32 + (y.toNat : Nat)) (r2 : (r : Zq) * 2 ^ 32 = (y.toNat : Nat))
    (r3 : redc y.toNat = some r) : r < 12289 := by
  by_contra c
  obtain rfl : r = 12289 := by omega
  rw [show ((12289 : Int) : Zq) = 0 from q_zero, zero_mul] at r2
  have := (ZMod.natCast_eq_zero_iff _ _).1 r2.symm
  have e : y.toNat = 0 := Nat.eq_zero_of_dvd_of_lt this (by omega)
  rw [e] at r3
  exact absurd r3 (by decide)

theorem redc_it_wp (x : Poly) (hx : ∀ l, l < 1024 → 0 ≤ cf x l ∧ cf x l < 12289) :
    Wp (redc_it x) fun x' => ∀ l, l < 1024 → (0 ≤ cf x' l ∧ cf x' l < 12289) ∧ (cf x' l : Zq) * 2 ^ 32 = cf x l :=
  each_all (P := fun l y => y = cf x l) (Q := fun l y => (0 ≤ y ∧ y < 12289) ∧ (y : Zq) * 2 ^ 32 = cf x l) (f := fun _ x => redc (asU64 x)) (fun j y hj e => by
    obtain ⟨h0, h1⟩ := hx j hj
    rw [← e] at h0 h1 ⊢
    rw [asU64_eq h0 (by omega)]
    obtain ⟨r, e, r0, r1, r2⟩ := redc_wp (t := y.toNat) (by omega)
    refine .of_eq e ⟨⟨r0, redc_lt h0 h1 r1 r2 e⟩, ?_⟩
    · rw [r2, ← Int.cast_natCast, Int.toNat_of_nonneg h0]) x fun l hl => rfl

theorem nres_it_wp (x : Poly) (hx : ∀ l, l < 1024 → 0 ≤ cf x l ∧ cf x l < 2 ^ 19) :
    Wp (nres_it x) fun x' => ∀ l, l < 1024 → Bd 12289 (cf x' l) ∧ (cf x' l : Zq) = cf x l * 2 ^ 32 :=
  each_all (P := fun l y => y = cf x l) (Q := fun l y => Bd 12289 y ∧ (y : Zq) = cf x l * 2 ^ 32) (f := fun _ x => nres x) (fun j y hj e => by
    obtain ⟨h0, h1⟩ := hx j hj
    rw [← e] at h0 h1 ⊢
    exact (nres_wp h0 (by omega)).mono fun r ⟨r0, r1, r2⟩ => ⟨⟨r0, by omega⟩, r2⟩) x fun l hl => rfl

/-- The bound for products of the numbers that occur: below `2^32`, so that the result is at most `q`. -/
theorem poly_mul_wp (x y : Poly) {a b : Int} (hx : ∀ l, l < 1024 → Bd a (cf x l)) (hy : ∀ l, l < 1024 → Bd b (cf y l)) (ha : a < 2 ^ 31) (hb : b < 2 ^ 31)
    (hab : a * b ≤ 2 ^ 32) :
    Wp (poly_mul x y) fun x' => ∀ l, l < 1024 → Bd 12289 (cf x' l) ∧ (cf x' l : Zq) * 2 ^ 32 = cf x l * cf y l :=
  each_all (P := fun l z => z = cf x l) (Q := fun l z => Bd 12289 z ∧ (z : Zq) * 2 ^ 32 = cf x l * cf y l)
    (f := fun i x => do modmul x (← y[i]?)) (fun j z hj e => by
    obtain ⟨h0, h1⟩ := hx j hj
    obtain ⟨k0, k1⟩ := hy j hj
    rw [← e] at h0 h1 ⊢
    refine .bind (.of_eq (get_cf y hj) rfl) fun _ e => ?_
    subst e
    refine (modmul_wp h0 (by omega) k0 (by omega)).mono fun r ⟨r0, r1, r2⟩ => ⟨⟨r0, ?_⟩, r2⟩
    have : z * cf y j ≤ a * b := mul_le_mul h1 k1 k0 (by omega)
    omega) x fun l hl => rfl

/-- The same for two results of `ntt`. -/
theorem poly_mul_any (x y : Poly) (hx : ∀ l, l < 1024 → Bd 258069 (cf x l)) (hy : ∀ l, l < 1024 → Bd 258069 (cf y l)) :
    Wp (poly_mul x y) fun x' => ∀ l, l < 1024 → Bd 24578 (cf x' l) ∧ (cf x' l : Zq) * 2 ^ 32 = cf x l * cf y l :=
  each_all (P := fun l z => z = cf x l) (Q := fun l z => Bd 24578 z ∧ (z : Zq) * 2 ^ 32 = cf x l * cf y l)
    (f := fun i x => do modmul x (← y[i]?)) (fun j z hj e => by
    obtain ⟨h0, h1⟩ := hx j hj
    obtain ⟨k0, k1⟩ := hy j hj
    rw [← e] at h0 h1 ⊢
    refine .bind (.of_eq (get_cf y hj) rfl) fun _ e => ?_
    subst e
    refine (modmul_wp h0 (by omega) k0 (by omega)).mono fun r ⟨r0, r1, r2⟩ => ⟨⟨r0, ?_⟩, r2⟩
    have : z * cf y j ≤ 258069 * 258069 := mul_le_mul h1 k1 k0 (by omega)
    omega) x fun l hl => rfl

theorem poly_add_wp (x y : Poly) {a b : Int} (hx : ∀ l, l < 1024 → Bd a (cf x l)) (hy : ∀ l, l < 1024 → Bd b (cf y l)) (hab : a + b < 2 ^ 31) :
    Wp (poly_add x y) fun x' => ∀ l, l < 1024 → cf x' l = cf x l + cf y l :=
  each_all (P := fun l z => z = cf x l) (Q := fun l z => z = cf x l + cf y l)
    (f := fun i x => do i32 (x + (← y[i]?))) (fun j z hj e => by
    obtain ⟨h0, h1⟩ := hx j hj
    obtain ⟨k0, k1⟩ := hy j hj
    rw [← e] at h0 h1 ⊢
    refine .bind (.of_eq (get_cf y hj) rfl) fun _ e => ?_
    subst e
    exact .of_eq (i32_eq (by omega) (by omega)) rfl) x fun l hl => rfl

theorem poly_rsub_wp (x y : Poly) (hx : ∀ l, l < 1024 → 0 ≤ cf x l ∧ cf x l < 12289) (hy : ∀ l, l < 1024 → 0 ≤ cf y l ∧ cf y l < 12289) :
    Wp (poly_rsub x y) fun x' => ∀ l, l < 1024 → cf x' l = cf y l + 12289 - cf x l :=
  each_all (P := fun l z => z = cf x l) (Q := fun l z => z = cf y l + 12289 - cf x l)
    (f := fun i x => do i32 ((← i32 ((← y[i]?) + PRIME)) - x)) (fun j z hj e => by
    obtain ⟨h0, h1⟩ := hx j hj
    obtain ⟨k0, k1⟩ := hy j hj
    rw [← e] at h0 h1 ⊢
    have hp : PRIME = 12289 := rfl
    refine .bind (.of_eq (get_cf y hj) rfl) fun _ e => ?_
    subst e
    refine .bind (.of_eq (i32_eq (x := cf y j + PRIME) (by omega) (by omega)) rfl) fun _ e => ?_
    subst e
    exact .of_eq (i32_eq (by omega) (by omega)) (by rw [hp])) x fun l hl => rfl

/-- Subtraction of `q` once. -/
theorem sub_once {x : Int} (h0 : 0 ≤ x) (h1 : x < 24578) :
    Wp (do let e ← i32 (x - PRIME); i32 (e + and32 (sar e (WL - 1)) PRIME)) fun r => (0 ≤ r ∧ r < 12289) ∧ (r : Zq) = x := by
  have hp : PRIME = 12289 := rfl
  refine .bind (.of_eq (i32_eq (x := x - PRIME) (by omega) (by omega)) rfl) fun _ e => ?_
  subst e
  rw [show WL - 1 = 31 from rfl, hp]
  by_cases c : 12289 ≤ x
  · have : sar (x - 12289) 31 = 0 := by rw [sar]; omega
    rw [this, show and32 0 12289 = 0 by decide]
    exact .of_eq (i32_eq (by omega) (by omega)) ⟨by omega, by push_cast; rw [q_zero]; ring⟩
  · have : sar (x - 12289) 31 = -1 := by rw [sar]; omega
    rw [this, show and32 (-1) 12289 = 12289 by decide]
    exact .of_eq (i32_eq (by omega) (by omega)) ⟨by omega, by push_cast; ring⟩

theorem poly_soft_reduce_wp (x : Poly) (hx : ∀ l, l < 1024 → 0 ≤ cf x l ∧ cf x l < 24578) :
    Wp (poly_soft_reduce x) fun x' => ∀ l, l < 1024 → (0 ≤ cf x' l ∧ cf x' l < 12289) ∧ (cf x' l : Zq) = cf x l :=
  each_all (P := fun l z => z = cf x l) (Q := fun l z => (0 ≤ z ∧ z < 12289) ∧ (z : Zq) = cf x l)
    (f := fun _ x => do
      let e ← i32 (x - PRIME)
      i32 (e + and32 (sar e (WL - 1)) PRIME)) (fun j z hj e => by
    obtain ⟨h0, h1⟩ := hx j hj
    rw [← e] at h0 h1 ⊢
    exact sub_once h0 h1) x fun l hl => rfl

theorem poly_hard_reduce_wp (x : Poly) (hx : ∀ l, l < 1024 → Bd 300000 (cf x l)) :
    Wp (poly_hard_reduce x) fun x' => ∀ l, l < 1024 → (0 ≤ cf x' l ∧ cf x' l < 12289) ∧ (cf x' l : Zq) = cf x l :=
  each_all (P := fun l z => z = cf x l) (Q := fun l z => (0 ≤ z ∧ z < 12289) ∧ (z : Zq) = cf x l)
    (f := fun _ x => do
      let e ← modmul x ONE
      let e ← i32 (e - PRIME)
      i32 (e + and32 (sar e (WL - 1)) PRIME)) (fun j z hj e => by
    obtain ⟨h0, h1⟩ := hx j hj
    rw [← e] at h0 h1 ⊢
    have ho : ONE = 10952 := rfl
    refine .bind (modmul_wp h0 (by omega) (b := ONE) (by decide) (by decide)) fun r ⟨r0, r1, r2⟩ => ?_
    refine (sub_once r0 (by rw [ho] at r1; omega)).mono fun y ⟨y0, y1⟩ => ⟨y0, ?_⟩
    rw [y1]
    refine cancel32 ?_
    rw [r2, show ((ONE : Int) : Zq) = 2 ^ 32 by decide]) x fun l hl => rfl

end NHS

end Amcl
