import Verif.Proof.GcmMul
import Verif.Props.Aes

namespace Amcl.GCM
open Spec.AES Spec.Modes Spec.GCM Amcl.AES

set_option maxRecDepth 8000

/-! ## Byte strings -/

/-- The bytes of the standard. -/
def bv (l : List UInt8) : List Byte := l.map UInt8.toBitVec

theorem bv_length (l : List UInt8) : (bv l).length = l.length := List.length_map _
theorem bv_append (a b : List UInt8) : bv (a ++ b) = bv a ++ bv b := List.map_append
theorem bv_drop (l : List UInt8) (n : Nat) : bv (l.drop n) = (bv l).drop n := List.map_drop
theorem bv_take (l : List UInt8) (n : Nat) : bv (l.take n) = (bv l).take n := List.map_take
theorem bv_getD (l : List UInt8) (n : Nat) : (bv l).getD n 0 = (l.getD n 0).toBitVec := by
  rw [List.getD_eq_getElem?_getD, List.getD_eq_getElem?_getD, bv, List.getElem?_map]
  cases l[n]? <;> rfl

theorem blocks_ne {l : List Byte} (h : l ≠ []) : blocks l = (fun i : Fin 16 => l.getD i 0) :: blocks (l.drop 16) := by
  cases l with
  | nil => exact absurd rfl h
  | cons x l => rw [blocks]

theorem gctr_ne (E : Block → Block) (b : Block) {l : List Byte} (h : l ≠ []) :
    gctr E b l = mask (l.take 16) (E b) ++ gctr E (inc32 b) (l.drop 16) := by
  cases l with
  | nil => exact absurd rfl h
  | cons x l => rw [gctr]

theorem blocks_nil : blocks [] = [] := by rw [blocks]
theorem gctr_nil (E : Block → Block) (b : Block) : gctr E b [] = [] := by rw [gctr]

theorem mask_length (l : List Byte) (b : Block) : (mask l b).length = min l.length 16 := by
  rw [mask, List.length_zipWith, bytes_length]

theorem mask_take (l : List Byte) (b : Block) : mask (l.take 16) b = mask l b := by
  unfold mask
  apply List.ext_getElem?
  intro i
  rw [List.getElem?_zipWith, List.getElem?_zipWith, List.getElem?_take]
  by_cases h : i < 16
  · rw [if_pos h]
  · rw [if_neg h, List.getElem?_eq_none (l := bytes b) (by rw [bytes_length]; omega)]
    cases l[i]? <;> rfl

theorem gctr_length (E : Block → Block) : ∀ n (b : Block) (l : List Byte), l.length ≤ n → (gctr E b l).length = l.length
  | 0, b, l, h => by
    have : l = [] := List.length_eq_zero_iff.1 (by omega)
    subst this; rw [gctr_nil]
  | n + 1, b, l, h => by
    by_cases hl : l = []
    · subst hl; rw [gctr_nil]
    · have := List.length_pos_iff.2 hl
      rw [gctr_ne E b hl, List.length_append, mask_length, List.length_take, gctr_length E n _ _ (by rw [List.length_drop]; omega),
        List.length_drop]
      omega

/-- The blocks of two strings of which the first is made of whole blocks. -/
theorem blocks_append : ∀ n (a b : List Byte), a.length ≤ n → a.length % 16 = 0 → blocks (a ++ b) = blocks a ++ blocks b
  | 0, a, b, h, _ => by
    have : a = [] := List.length_eq_zero_iff.1 (by omega)
    subst this; rw [blocks_nil]; rfl
  | n + 1, a, b, h, h16 => by
    by_cases ha : a = []
    · subst ha; rw [blocks_nil]; rfl
    · have hp := List.length_pos_iff.2 ha
      rw [blocks_ne ha, blocks_ne (by simp [ha]), List.cons_append, ← blocks_append n (a.drop 16) b (by rw [List.length_drop]; omega)
        (by rw [List.length_drop]; omega), List.drop_append_of_le_length (by omega)]
      congr 1
      funext i
      have := i.isLt
      rw [List.getD_eq_getElem?_getD, List.getD_eq_getElem?_getD, List.getElem?_append_left (by omega)]

theorem iter_succ (F : Block → Block) : ∀ n b, iter F (n + 1) b = iter F n (F b)
  | 0, _ => rfl
  | n + 1, b => congrArg F (iter_succ F n b)

theorem iter_add (F : Block → Block) (m : Nat) : ∀ n b, iter F (m + n) b = iter F n (iter F m b)
  | 0, _ => rfl
  | n + 1, b => congrArg F (iter_add F m n b)

theorem gctr_append (E : Block → Block) : ∀ n (c : Block) (a b : List Byte), a.length ≤ n → a.length % 16 = 0 →
    gctr E c (a ++ b) = gctr E c a ++ gctr E (iter inc32 (a.length / 16) c) b
  | 0, c, a, b, h, _ => by
    have : a = [] := List.length_eq_zero_iff.1 (by omega)
    subst this; rw [gctr_nil]; rfl
  | n + 1, c, a, b, h, h16 => by
    by_cases ha : a = []
    · subst ha; rw [gctr_nil]; rfl
    · have hp := List.length_pos_iff.2 ha
      have h1 := gctr_append E n (inc32 c) (a.drop 16) b (by rw [List.length_drop]; omega) (by rw [List.length_drop]; omega)
      rw [List.length_drop, ← iter_succ, show (a.length - 16) / 16 + 1 = a.length / 16 by omega] at h1
      rw [gctr_ne E c ha, gctr_ne E c (by simp [ha]), List.append_assoc, ← h1, List.drop_append_of_le_length (by omega),
        List.take_append_of_le_length (by omega)]

theorem gctr_gctr (E : Block → Block) : ∀ n (c : Block) (l : List Byte), l.length ≤ n → gctr E c (gctr E c l) = l
  | 0, c, l, h => by
    have : l = [] := List.length_eq_zero_iff.1 (by omega)
    subst this; rw [gctr_nil, gctr_nil]
  | n + 1, c, l, h => by
    by_cases hl : l = []
    · subst hl; rw [gctr_nil, gctr_nil]
    · have hp := List.length_pos_iff.2 hl
      have hm : mask (mask (l.take 16) (E c)) (E c) = l.take 16 := by
        unfold mask
        apply List.ext_getElem?
        intro i
        rw [List.getElem?_zipWith, List.getElem?_zipWith]
        by_cases h16 : i < 16
        · rw [bytes_get _ _ h16]
          cases (l.take 16)[i]? with
          | none => rfl
          | some x => simp [BitVec.xor_assoc]
        · rw [List.getElem?_eq_none (l := l.take 16) (by rw [List.length_take]; omega)]
      have h2 : gctr E (inc32 c) (gctr E (inc32 c) (l.drop 16)) = l.drop 16 :=
        gctr_gctr E n (inc32 c) (l.drop 16) (by rw [List.length_drop]; omega)
      rw [gctr_ne E c hl]
      by_cases h16 : l.length < 16
      · have hd : l.drop 16 = [] := List.drop_eq_nil_of_le (by omega)
        rw [hd, gctr_nil, List.append_nil, gctr_ne _ _ (by
          intro e
          have := congrArg List.length e
          rw [mask_length, List.length_take, List.length_nil] at this
          omega), List.drop_eq_nil_of_le (by rw [mask_length]; omega), gctr_nil, List.append_nil, mask_take, hm,
          List.take_of_length_le (by omega)]
      · have hl16 : (mask (l.take 16) (E c)).length = 16 := by rw [mask_length, List.length_take]; omega
        rw [gctr_ne _ _ (by
          intro e
          have := congrArg List.length e
          rw [List.length_append, List.length_nil] at this
          omega), List.take_append_of_le_length (by omega), List.take_of_length_le (by omega), hm,
          List.drop_append_of_le_length (by omega), List.drop_eq_nil_of_le (by omega), List.nil_append, h2, List.take_append_drop]

theorem bv_zip (p : List UInt8) (c : Vector UInt8 16) : bv (List.zipWith (· ^^^ ·) p c.toList) = mask (bv p) (blk c) := by
  unfold mask
  apply List.ext_getElem?
  intro i
  rw [bv, List.getElem?_map, List.getElem?_zipWith, List.getElem?_zipWith, bv, List.getElem?_map]
  by_cases h : i < 16
  · rw [bytes_get _ _ h, Vector.getElem?_toList, Vector.getElem?_eq_getElem h]
    cases p[i]? with
    | none => rfl
    | some x => simp [blk]
  · rw [List.getElem?_eq_none (l := bytes _) (by rw [bytes_length]; omega), List.getElem?_eq_none (l := c.toList) (by simp; omega)]
    cases p[i]? <;> rfl

/-! ## The counters of bytes -/

/-- The number of two words, the first the more significant. -/
def cnt (l : Vector UInt32 2) : Nat := 2 ^ 32 * l[0].toNat + l[1].toNat

theorem count_wp (l : Vector UInt32 2) : Wp (count false l) fun r => cnt r = (cnt l + 1) % 2 ^ 64 := by
  unfold count add1 cnt
  have h0 := l[0].toNat_lt
  have h1 := l[1].toNat_lt
  simp only [Bool.false_eq_true, false_and, if_false, Option.bind_eq_bind, Option.bind_some]
  have hz : l[1] + 1 = 0 ↔ l[1].toNat = 2 ^ 32 - 1 := by
    constructor
    · intro h
      have := congrArg UInt32.toNat h
      rw [UInt32.toNat_add] at this
      simp at this
      omega
    · intro h
      apply UInt32.toNat_inj.1
      rw [UInt32.toNat_add, h]
      rfl
  split
  · rename_i h
    refine Wp.ret ?_
    have := hz.1 h
    simp only [Vector.getElem_mk, List.getElem_toArray, List.getElem_cons_zero, List.getElem_cons_succ, h, UInt32.toNat_add]
    simp
    omega
  · rename_i h
    refine Wp.ret ?_
    have : ¬ l[1].toNat = 2 ^ 32 - 1 := fun h' => h (hz.2 h')
    simp only [Vector.getElem_mk, List.getElem_toArray, List.getElem_cons_zero, List.getElem_cons_succ, UInt32.toNat_add]
    simp
    omega

theorem len_bits (x y : UInt32) {m : Nat} (h : 2 ^ 32 * x.toNat + y.toNat = m % 2 ^ 64) :
    BitVec.ofNat 64 (8 * m) = (x.toBitVec ++ y.toBitVec) <<< 3 := by
  have hy := y.toNat_lt
  apply BitVec.eq_of_toNat_eq
  rw [BitVec.toNat_ofNat, BitVec.toNat_shiftLeft, BitVec.toNat_append, UInt32.toNat_toBitVec, UInt32.toNat_toBitVec,
    Nat.shiftLeft_eq, Nat.shiftLeft_eq]
  rw [show x.toNat * 2 ^ 32 ||| y.toNat = x.toNat * 2 ^ 32 + y.toNat by
    rw [← Nat.shiftLeft_eq, Nat.shiftLeft_add_eq_or_of_lt hy]]
  omega

theorem lens_eq (x0 x1 y0 y1 : UInt32) {m n : Nat} (hm : 2 ^ 32 * x0.toNat + x1.toNat = m % 2 ^ 64)
    (hn : 2 ^ 32 * y0.toNat + y1.toNat = n % 2 ^ 64) :
    blk (store #v[(x0 <<< 3) ||| ((x1 &&& 0xE0000000) >>> 29), x1 <<< 3, (y0 <<< 3) ||| ((y1 &&& 0xE0000000) >>> 29), y1 <<< 3]) =
      lengths (8 * m) (8 * n) := by
  rw [store_eq, lengths, len_bits _ _ hm, len_bits _ _ hn]
  congr 1
  apply W_ext
  intro k hk
  clear hm hn
  rw [BitVec.getLsbD_cast, BitVec.getLsbD_append, BitVec.getLsbD_shiftLeft, BitVec.getLsbD_shiftLeft, BitVec.getLsbD_append,
    BitVec.getLsbD_append]
  interval_cases k <;> simp

/-! ## Absorbing -/

theorem getD_take (src : List UInt8) (len j : Nat) (h : j < len) : (src.take len).getD j 0 = src.getD j 0 := by
  rw [List.getD_eq_getElem?_getD, List.getElem?_take, if_pos h, List.getD_eq_getElem?_getD]

theorem end_nil (src : List UInt8) {len j : Nat} (h : len ≤ j) : (src.take len).drop j = [] :=
  List.drop_eq_nil_of_le (by rw [List.length_take]; omega)

theorem drop_min (src : List UInt8) (len j : Nat) : (src.take len).drop (min (j + 16) len) = (src.take len).drop (j + 16) := by
  by_cases h : j + 16 ≤ len
  · rw [Nat.min_eq_left h]
  · rw [Nat.min_eq_right (by omega), end_nil src (Nat.le_refl _), end_nil src (show len ≤ j + 16 by omega)]

/-- `s` with the bytes of `d` added from the place `i` on. -/
def Added (i : Nat) (d : List UInt8) (s r : Vector UInt8 16) : Prop :=
  ∀ k (h : k < 16), r[k] = if i ≤ k then s[k] ^^^ d.getD (k - i) 0 else s[k]

theorem Added.nil (i : Nat) (s : Vector UInt8 16) : Added i [] s s := by
  intro k h
  split <;> simp

theorem Added.cons {i : Nat} {x : UInt8} {d : List UInt8} {s r : Vector UInt8 16} (hi : i < 16)
    (h : Added (i + 1) d (s.set i (s[i] ^^^ x)) r) : Added i (x :: d) s r := by
  intro k hk
  rw [h k hk]
  by_cases h1 : k = i
  · subst h1
    rw [if_neg (by omega), if_pos (by omega), Vector.getElem_set_self, Nat.sub_self]
    rfl
  · rw [Vector.getElem_set_ne _ _ (by omega)]
    by_cases h2 : i ≤ k
    · rw [if_pos (by omega), if_pos h2, show k - i = k - (i + 1) + 1 by omega]
      rfl
    · rw [if_neg (by omega), if_neg h2]

theorem Added.blk {d : List UInt8} {s r : Vector UInt8 16} (h : Added 0 d s r) :
    blk r = addBlock (blk s) fun i => (bv d).getD i 0 := by
  funext i
  rw [addBlock, bv_getD]
  show (r[i.val]).toBitVec = _
  rw [h i.val i.isLt, if_pos (by omega)]
  rfl

theorem absorbBlock_wp (src : List UInt8) (len : Nat) (hlen : len ≤ src.length) : ∀ n i j s l, i + n = 16 → j ≤ len →
    Wp (absorbBlock false src len n i j s l) fun r =>
      r.1 = min (j + n) len ∧ Added i ((src.take len).drop j) s r.2.1 ∧ cnt r.2.2 = (cnt l + (r.1 - j)) % 2 ^ 64
  | 0, i, j, s, l, hi, hj => by
    refine Wp.ret ⟨by simp only; omega, ?_, ?_⟩
    · intro k hk
      rw [if_neg (by omega)]
    · have := l[0].toNat_lt
      have := l[1].toNat_lt
      simp only [cnt]
      omega
  | n + 1, i, j, s, l, hi, hj => by
    rw [absorbBlock]
    by_cases h : len ≤ j
    · rw [if_pos h]
      refine Wp.ret ⟨by simp only; omega, ?_, ?_⟩
      · rw [end_nil src (by omega)]
        exact Added.nil i s
      · have := l[0].toNat_lt
        have := l[1].toNat_lt
        simp only [cnt]
        omega
    · rw [if_neg h, Vector.getElem?_eq_getElem (by omega), List.getElem?_eq_getElem (by omega)]
      simp only [Option.bind_eq_bind, Option.bind_some, setAt_eq s (show i < 16 by omega)]
      refine Wp.bind (count_wp l) fun l' hl' => ?_
      refine (absorbBlock_wp src len hlen n (i + 1) (j + 1) _ l' (by omega) (by omega)).mono ?_
      rintro ⟨j', s', l''⟩ ⟨h1, h2, h3⟩
      dsimp only at h1 h2 h3 ⊢
      refine ⟨by omega, ?_, ?_⟩
      · rw [List.drop_eq_getElem_cons (by rw [List.length_take]; omega), List.getElem_take]
        exact Added.cons (by omega) h2
      · rw [h3, hl']
        omega

theorem ghashFrom_append (h y : Block) (a b : List Block) : ghashFrom h y (a ++ b) = ghashFrom h (ghashFrom h y a) b :=
  List.foldl_append

theorem headerLoop_wp (src : List UInt8) (len : Nat) (hlen : len ≤ src.length) {h : Block} : ∀ m j (g : GCM), len - j ≤ m → j ≤ len →
    Tab g.table (toBits h) → ∃ s l, headerLoop false src len j g = some { g with statex := s, lena := l } ∧
      blk s = ghashFrom h (blk g.statex) (blocks (bv ((src.take len).drop j))) ∧
      (cnt g.lena < 2 ^ 64 → cnt l = (cnt g.lena + (len - j)) % 2 ^ 64) := by
  intro m
  induction m with
  | zero =>
    intro j g hm hj ht
    rw [headerLoop, if_neg (by omega), end_nil src (by omega)]
    refine ⟨g.statex, g.lena, rfl, ?_, fun h => ?_⟩
    · rw [bv, List.map_nil, blocks_nil]; rfl
    · rw [Nat.mod_eq_of_lt (by omega)]; omega
  | succ m ih =>
    intro j g hm hj ht
    rw [headerLoop]
    by_cases hjl : j < len
    · rw [if_pos hjl]
      obtain ⟨⟨j', s, l⟩, e, h1, h2, h3⟩ := absorbBlock_wp src len hlen 16 0 j g.statex g.lena (by decide) hj
      dsimp only at h1 h2 h3
      rw [e]
      obtain ⟨s', e', hs'⟩ := gf2mul_wp { g with statex := s, lena := l } ht
      simp only [Option.bind_eq_bind, Option.bind_some, e']
      obtain ⟨s'', l'', e'', hs'', hl''⟩ := ih j' { g with statex := s', lena := l } (by omega) (by omega) ht
      refine ⟨s'', l'', e'', ?_, fun _ => ?_⟩
      · have hne : bv ((src.take len).drop j) ≠ [] := by
          intro e
          have := congrArg List.length e
          rw [bv_length, List.length_drop, List.length_take, List.length_nil] at this
          omega
        rw [hs'', blocks_ne hne, ← bv_drop, List.drop_drop]
        show ghashFrom h (blk s') _ = ghashFrom h (Spec.GCM.mul (addBlock (blk g.statex) _) h) _
        rw [hs']
        show ghashFrom h (Spec.GCM.mul (blk s) h) _ = _
        rw [h2.blk]
        rw [show (src.take len).drop j' = (src.take len).drop (j + 16) by rw [h1, drop_min]]
      · rw [hl'' (by dsimp only; omega)]
        dsimp only
        omega
    · rw [if_neg hjl, end_nil src (by omega)]
      refine ⟨g.statex, g.lena, rfl, ?_, fun h => ?_⟩
      · rw [bv, List.map_nil, blocks_nil]; rfl
      · rw [Nat.mod_eq_of_lt (by omega)]; omega

theorem ghashLoop_wp (src : List UInt8) (len : Nat) (hlen : len ≤ src.length) {h : Block} : ∀ m j (g : GCM), len - j ≤ m → j ≤ len →
    Tab g.table (toBits h) → ∃ s l, ghashLoop false src len j g = some { g with statex := s, lenc := l } ∧
      blk s = ghashFrom h (blk g.statex) (blocks (bv ((src.take len).drop j))) ∧
      (cnt g.lenc < 2 ^ 64 → cnt l = (cnt g.lenc + (len - j)) % 2 ^ 64) := by
  intro m
  induction m with
  | zero =>
    intro j g hm hj ht
    rw [ghashLoop, if_neg (by omega), end_nil src (by omega)]
    refine ⟨g.statex, g.lenc, rfl, ?_, fun h => ?_⟩
    · rw [bv, List.map_nil, blocks_nil]; rfl
    · rw [Nat.mod_eq_of_lt (by omega)]; omega
  | succ m ih =>
    intro j g hm hj ht
    rw [ghashLoop]
    by_cases hjl : j < len
    · rw [if_pos hjl]
      obtain ⟨⟨j', s, l⟩, e, h1, h2, h3⟩ := absorbBlock_wp src len hlen 16 0 j g.statex g.lenc (by decide) hj
      dsimp only at h1 h2 h3
      rw [e]
      obtain ⟨s', e', hs'⟩ := gf2mul_wp { g with statex := s, lenc := l } ht
      simp only [Option.bind_eq_bind, Option.bind_some, e']
      obtain ⟨s'', l'', e'', hs'', hl''⟩ := ih j' { g with statex := s', lenc := l } (by omega) (by omega) ht
      refine ⟨s'', l'', e'', ?_, fun _ => ?_⟩
      · have hne : bv ((src.take len).drop j) ≠ [] := by
          intro e
          have := congrArg List.length e
          rw [bv_length, List.length_drop, List.length_take, List.length_nil] at this
          omega
        rw [hs'', blocks_ne hne, ← bv_drop, List.drop_drop]
        show ghashFrom h (blk s') _ = ghashFrom h (Spec.GCM.mul (addBlock (blk g.statex) _) h) _
        rw [hs']
        show ghashFrom h (Spec.GCM.mul (blk s) h) _ = _
        rw [h2.blk]
        rw [show (src.take len).drop j' = (src.take len).drop (j + 16) by rw [h1, drop_min]]
      · rw [hl'' (by dsimp only; omega)]
        dsimp only
        omega
    · rw [if_neg hjl, end_nil src (by omega)]
      refine ⟨g.statex, g.lenc, rfl, ?_, fun h => ?_⟩
      · rw [bv, List.map_nil, blocks_nil]; rfl
      · rw [Nat.mod_eq_of_lt (by omega)]; omega

/-! ## The end of the hash -/

theorem wrap_wp (g : GCM) {h : Block} (ht : Tab g.table (toBits h)) {m n : Nat} (hm : cnt g.lena = m % 2 ^ 64)
    (hn : cnt g.lenc = n % 2 ^ 64) : ∃ s, wrap false g = some { g with statex := s } ∧
      blk s = ghashFrom h (blk g.statex) [lengths (8 * m) (8 * n)] := by
  unfold wrap
  obtain ⟨s, e, hs⟩ := gf2mul_wp { g with statex := xorFirst 16 g.statex (store
    #v[(g.lena[0] <<< 3) ||| ((g.lena[1] &&& 0xE0000000) >>> 29), g.lena[1] <<< 3,
    (g.lenc[0] <<< 3) ||| ((g.lenc[1] &&& 0xE0000000) >>> 29), g.lenc[1] <<< 3]) } ht
  refine ⟨s, e, ?_⟩
  rw [hs]
  dsimp only
  rw [blk_xor16, lens_eq _ _ _ _ hm hn]
  rfl

/-! ## The key stream -/

theorem pack_add (f : Vector UInt8 16) (b : Vector UInt8 4)
    (hb : b = unpack (pack #v[f[12], f[13], f[14], f[15]] + 1)) :
    blk #v[f[0], f[1], f[2], f[3], f[4], f[5], f[6], f[7], f[8], f[9], f[10], f[11], b[0], b[1], b[2], b[3]] = inc32 (blk f) := by
  have hp : (toBits (blk f)).extractLsb' 0 32 = (pack #v[f[12], f[13], f[14], f[15]]).toBitVec := by
    apply BitVec.eq_of_getLsbD_eq
    intro i hi
    rw [BitVec.getLsbD_extractLsb', decide_eq_true hi, Bool.true_and, toBits_bit _ (by omega), pack_bit _ hi]
    interval_cases i <;> rfl
  have hq : (pack #v[f[12], f[13], f[14], f[15]] + 1).toBitVec = (pack #v[f[12], f[13], f[14], f[15]]).toBitVec + (1 : BitVec 32) := rfl
  unfold inc32
  rw [hp, ← hq]
  generalize pack #v[f[12], f[13], f[14], f[15]] + 1 = w at hb
  subst hb
  clear hp hq
  funext k
  apply BitVec.eq_of_getLsbD_eq
  intro i hi
  have hk := k.isLt
  simp only [ofBits, BitVec.getLsbD_extractLsb']
  rw [decide_eq_true hi, Bool.true_and, BitVec.getLsbD_cast, BitVec.getLsbD_append]
  by_cases h12 : k.val < 12
  · rw [if_neg (by omega), BitVec.getLsbD_extractLsb', decide_eq_true (by omega), Bool.true_and, toBits_bit _ (by omega)]
    have e1 : (127 - (32 + (8 * (15 - k.val) + i - 32))) / 8 = k := by omega
    have e2 : (32 + (8 * (15 - k.val) + i - 32)) % 8 = i := by omega
    simp only [e1, e2, blk]
    congr 2
    obtain ⟨k, hk'⟩ := k
    simp only at h12 ⊢
    interval_cases k <;> rfl
  · rw [if_pos (by omega)]
    obtain ⟨r, hr⟩ : ∃ r : Fin 4, k.val = 12 + r.val := ⟨⟨k.val - 12, by omega⟩, by simp only; omega⟩
    have e : 8 * (15 - k.val) + i = 8 * (3 - r.val) + i := by omega
    rw [e, ← unpack_bit w r hi]
    have hk' : k = ⟨12 + r.val, by omega⟩ := Fin.ext hr
    rw [hk']
    simp only [blk]
    congr 2
    fin_cases r <;> rfl

theorem bump_wp (f : Vector UInt8 16) : Wp (bump false f) fun r => blk r = inc32 (blk f) := by
  unfold bump
  exact Wp.ret (pack_add f _ rfl)

/-- `a` encrypts blocks by `E`. -/
def Enc (a : AES) (E : Block → Block) : Prop := ∀ b, ∃ c, ecb_encrypt a b = some c ∧ blk c = E (blk b)

theorem Enc.with_f {a : AES} {E : Block → Block} (h : Enc a E) (f : Vector UInt8 16) : Enc { a with f := f } E := h

theorem keystream_wp (g : GCM) {E : Block → Block} (hE : Enc g.a E) : ∃ f cb,
    keystream false g = some ({ g with a := { g.a with f := f } }, cb) ∧ blk f = inc32 (blk g.a.f) ∧ blk cb = E (blk f) := by
  obtain ⟨f, ef, hf⟩ := bump_wp g.a.f
  obtain ⟨cb, e, hcb⟩ := hE.with_f f f
  refine ⟨f, cb, ?_, hf, hcb⟩
  unfold keystream
  rw [ef]
  simp only [Option.bind_eq_bind, Option.bind_some]
  rw [e]
  rfl

/-! ## Encryption and decryption -/

theorem set_mid (d t : List UInt8) (x : UInt8) (h : 0 < t.length) : (d ++ t).set d.length x = d ++ x :: t.drop 1 := by
  cases t with
  | nil => exact absurd h (by simp)
  | cons y t => rw [List.set_append_right _ _ (Nat.le_refl _), Nat.sub_self]; rfl

theorem setB_mid (d t : List UInt8) (x : UInt8) {j : Nat} (hj : d.length = j) (h : 0 < t.length) :
    SHA3.setB (d ++ t) j x = some ((d ++ [x]) ++ t.drop 1) := by
  subst hj
  unfold SHA3.setB
  rw [if_pos (by rw [List.length_append]; omega), set_mid d t x h, List.append_assoc]
  rfl

/-- The bytes that a round of 16 writes. -/
def out (src : List UInt8) (len j : Nat) (cb : Vector UInt8 16) (i : Nat) : List UInt8 :=
  List.zipWith (· ^^^ ·) ((src.take len).drop j) (cb.toList.drop i)

theorem out_nil (src : List UInt8) (len j : Nat) (cb : Vector UInt8 16) (i : Nat) (h : len ≤ j ∨ 16 ≤ i) : out src len j cb i = [] := by
  unfold out
  rcases h with h | h
  · rw [end_nil src (by omega), List.zipWith_nil_left]
  · rw [List.drop_eq_nil_of_le (as := cb.toList) (by simp; omega), List.zipWith_nil_right]

theorem out_cons (src : List UInt8) (len j : Nat) (cb : Vector UInt8 16) (i : Nat) (hj : j < len) (hl : len ≤ src.length) (hi : i < 16) :
    out src len j cb i = (src[j] ^^^ cb[i]) :: out src len (j + 1) cb (i + 1) := by
  unfold out
  rw [List.drop_eq_getElem_cons (by rw [List.length_take]; omega), List.drop_eq_getElem_cons (l := cb.toList) (by simp; omega), List.zipWith_cons_cons,
    List.getElem_take]
  rfl

theorem plainBlock_wp (src : List UInt8) (len : Nat) (hlen : len ≤ src.length) (cb : Vector UInt8 16) : ∀ n i j (d t : List UInt8) s l,
    i + n = 16 → j ≤ len → d.length = j → len ≤ j + t.length →
    Wp (plainBlock false src len cb n i j (d ++ t) s l) fun r =>
      r.1 = d ++ out src len j cb i ++ t.drop (out src len j cb i).length ∧ r.2.1 = min (j + n) len ∧
      (out src len j cb i).length = r.2.1 - j ∧
      Added i (out src len j cb i) s r.2.2.1 ∧ cnt r.2.2.2 = (cnt l + (r.2.1 - j)) % 2 ^ 64
  | 0, i, j, d, t, s, l, hi, hj, hd, ht => by
    rw [out_nil _ _ _ _ _ (Or.inr (by omega))]
    refine Wp.ret ⟨by simp, by simp only; omega, by simp, ?_, ?_⟩
    · intro k hk
      rw [if_neg (by omega)]
    · have := l[0].toNat_lt
      have := l[1].toNat_lt
      simp only [cnt]
      omega
  | n + 1, i, j, d, t, s, l, hi, hj, hd, ht => by
    rw [plainBlock]
    by_cases h : len ≤ j
    · rw [if_pos h, out_nil _ _ _ _ _ (Or.inl h)]
      refine Wp.ret ⟨by simp, by simp only; omega, ?_, Added.nil i s, ?_⟩
      · simp
      · have := l[0].toNat_lt
        have := l[1].toNat_lt
        simp only [cnt]
        omega
    · rw [if_neg h, List.getElem?_eq_getElem (by omega), Vector.getElem?_eq_getElem (by omega)]
      simp only [Option.bind_eq_bind, Option.bind_some]
      rw [setB_mid d t _ hd (by omega), Option.bind_some, Vector.getElem?_eq_getElem (by omega), Option.bind_some,
        List.getElem?_append_left (by rw [List.length_append, List.length_singleton]; omega),
        List.getElem?_append_right (by omega), hd, Nat.sub_self, List.getElem?_cons_zero, Option.bind_some,
        setAt_eq s (show i < 16 by omega), Option.bind_some]
      refine Wp.bind (count_wp l) fun l' hl' => ?_
      refine (plainBlock_wp src len hlen cb n (i + 1) (j + 1) _ (t.drop 1) _ l' (by omega) (by omega)
        (by rw [List.length_append, List.length_singleton, hd]) (by rw [List.length_drop]; omega)).mono ?_
      rintro ⟨c', j', s', l''⟩ ⟨h1, h2, h3, h4, h5⟩
      dsimp only at h1 h2 h3 h4 h5 ⊢
      rw [out_cons src len j cb i (by omega) hlen (by omega)]
      refine ⟨?_, by omega, ?_, Added.cons (by omega) h4, ?_⟩
      · rw [h1, List.drop_drop, List.length_cons, List.append_assoc, List.append_assoc, List.append_assoc, Nat.add_comm 1]
        rfl
      · rw [List.length_cons, h3]; omega
      · rw [h5, hl']
        omega

theorem cipherBlock_wp (src : List UInt8) (len : Nat) (hlen : len ≤ src.length) (cb : Vector UInt8 16) : ∀ n i j (d t : List UInt8) s l,
    i + n = 16 → j ≤ len → d.length = j → len ≤ j + t.length →
    Wp (cipherBlock false src len cb n i j (d ++ t) s l) fun r =>
      r.1 = d ++ out src len j cb i ++ t.drop (out src len j cb i).length ∧ r.2.1 = min (j + n) len ∧
      (out src len j cb i).length = r.2.1 - j ∧
      Added i ((src.take len).drop j) s r.2.2.1 ∧ cnt r.2.2.2 = (cnt l + (r.2.1 - j)) % 2 ^ 64
  | 0, i, j, d, t, s, l, hi, hj, hd, ht => by
    rw [out_nil _ _ _ _ _ (Or.inr (by omega))]
    refine Wp.ret ⟨by simp, by simp only; omega, by simp, ?_, ?_⟩
    · intro k hk
      rw [if_neg (by omega)]
    · have := l[0].toNat_lt
      have := l[1].toNat_lt
      simp only [cnt]
      omega
  | n + 1, i, j, d, t, s, l, hi, hj, hd, ht => by
    rw [cipherBlock]
    by_cases h : len ≤ j
    · rw [if_pos h, out_nil _ _ _ _ _ (Or.inl h)]
      refine Wp.ret ⟨by simp, by simp only; omega, ?_, ?_, ?_⟩
      · simp
      · rw [end_nil src (by omega)]
        exact Added.nil i s
      · have := l[0].toNat_lt
        have := l[1].toNat_lt
        simp only [cnt]
        omega
    · rw [if_neg h, List.getElem?_eq_getElem (by omega), Vector.getElem?_eq_getElem (by omega)]
      simp only [Option.bind_eq_bind, Option.bind_some]
      rw [setB_mid d t _ hd (by omega), Option.bind_some, Vector.getElem?_eq_getElem (by omega), Option.bind_some,
        setAt_eq s (show i < 16 by omega), Option.bind_some]
      refine Wp.bind (count_wp l) fun l' hl' => ?_
      refine (cipherBlock_wp src len hlen cb n (i + 1) (j + 1) _ (t.drop 1) _ l' (by omega) (by omega)
        (by rw [List.length_append, List.length_singleton, hd]) (by rw [List.length_drop]; omega)).mono ?_
      rintro ⟨c', j', s', l''⟩ ⟨h1, h2, h3, h4, h5⟩
      dsimp only at h1 h2 h3 h4 h5 ⊢
      rw [out_cons src len j cb i (by omega) hlen (by omega)]
      refine ⟨?_, by omega, ?_, ?_, ?_⟩
      · rw [h1, List.drop_drop, List.length_cons, List.append_assoc, List.append_assoc, List.append_assoc, Nat.add_comm 1]
        rfl
      · rw [List.length_cons, h3]; omega
      · rw [List.drop_eq_getElem_cons (by rw [List.length_take]; omega), List.getElem_take]
        exact Added.cons (by omega) h4
      · rw [h5, hl']
        omega

theorem bv_out (src : List UInt8) (len j : Nat) (cb : Vector UInt8 16) :
    bv (out src len j cb 0) = mask ((bv ((src.take len).drop j)).take 16) (blk cb) := by
  unfold out
  rw [List.drop_zero, bv_zip, mask_take]

theorem plainLoop_wp (src : List UInt8) (len : Nat) (hlen : len ≤ src.length) {h : Block} {E : Block → Block} :
    ∀ m j (d t : List UInt8) (g : GCM), len - j ≤ m → j ≤ len → d.length = j → len ≤ j + t.length →
    Tab g.table (toBits h) → Enc g.a E → ∃ s l f o,
      plainLoop false src len j (d ++ t) g = some ({ g with statex := s, lenc := l, a := { g.a with f := f } }, d ++ o ++ t.drop (len - j)) ∧
      bv o = gctr E (inc32 (blk g.a.f)) (bv ((src.take len).drop j)) ∧ o.length = len - j ∧
      blk s = ghashFrom h (blk g.statex) (blocks (bv o)) ∧
      blk f = iter inc32 ((len - j + 15) / 16) (blk g.a.f) ∧
      (cnt g.lenc < 2 ^ 64 → cnt l = (cnt g.lenc + (len - j)) % 2 ^ 64) := by
  intro m
  induction m with
  | zero =>
    intro j d t g hm hj hd ht htab hE
    rw [plainLoop, if_neg (by omega), end_nil src (by omega)]
    refine ⟨g.statex, g.lenc, g.a.f, [], ?_, ?_, ?_, ?_, ?_, fun h => ?_⟩
    · rw [show len - j = 0 by omega, List.drop_zero, List.append_nil]
      rfl
    · rw [bv, List.map_nil, gctr_nil]
    · rw [List.length_nil]; omega
    · rw [bv, List.map_nil, blocks_nil]; rfl
    · rw [show len - j = 0 by omega]; rfl
    · rw [Nat.mod_eq_of_lt (by omega)]; omega
  | succ m ih =>
    intro j d t g hm hj hd ht htab hE
    by_cases hjl : j < len
    · rw [plainLoop, if_pos hjl]
      obtain ⟨f, cb, ek, hf, hcb⟩ := keystream_wp g hE
      rw [ek]
      simp only [Option.bind_eq_bind, Option.bind_some]
      obtain ⟨⟨c', j', s, l⟩, e, h1, h2, h3, h4, h5⟩ := plainBlock_wp src len hlen cb 16 0 j d t g.statex g.lenc (by decide) hj hd ht
      dsimp only at h1 h2 h3 h4 h5
      have hne : bv ((src.take len).drop j) ≠ [] := by
        intro e
        have := congrArg List.length e
        rw [bv_length, List.length_drop, List.length_take, List.length_nil] at this
        omega
      have ho := bv_out src len j cb
      generalize out src len j cb 0 = o1 at h1 h3 h4 ho
      rw [e]
      obtain ⟨s', e', hs'⟩ := gf2mul_wp { g with statex := s, lenc := l, a := { g.a with f := f } } htab
      simp only [Option.bind_some, e']
      rw [h1]
      obtain ⟨s'', l'', f'', o2, e'', ho'', hl2, hs'', hf'', hl''⟩ := ih j' (d ++ o1) (t.drop o1.length)
        { g with statex := s', lenc := l, a := { g.a with f := f } }
        (by omega) (by omega) (by rw [List.length_append]; omega) (by rw [List.length_drop]; omega) htab (hE.with_f f)
      dsimp only at ho'' hs'' hf'' hl''
      refine ⟨s'', l'', f'', o1 ++ o2, ?_, ?_, ?_, ?_, ?_, fun _ => ?_⟩
      · rw [e'', List.drop_drop, ← List.append_assoc d, show o1.length + (len - j') = len - j by omega]
      · rw [bv_append, ho, gctr_ne E _ hne, hcb, hf, ho'', hf, ← bv_drop, List.drop_drop]
        rw [show (src.take len).drop j' = (src.take len).drop (j + 16) by rw [h2, drop_min]]
      · rw [List.length_append]; omega
      · rw [hs'', hs']
        dsimp only
        rw [h4.blk, bv_append]
        by_cases hc : j + 16 ≤ len
        · rw [blocks_append _ _ _ (Nat.le_refl _) (by rw [bv_length]; omega), blocks_ne (l := bv o1) (by
            intro e
            have := congrArg List.length e
            rw [bv_length, List.length_nil] at this
            omega), List.drop_eq_nil_of_le (by rw [bv_length]; omega), blocks_nil]
          rfl
        · have : o2 = [] := List.length_eq_zero_iff.1 (by omega)
          subst this
          rw [show bv ([] : List UInt8) = [] from rfl, List.append_nil, blocks_nil, blocks_ne (l := bv o1) (by
            intro e
            have := congrArg List.length e
            rw [bv_length, List.length_nil] at this
            omega), List.drop_eq_nil_of_le (by rw [bv_length]; omega), blocks_nil]
          rfl
      · rw [hf'', hf, ← iter_succ]
        congr 1
        omega
      · rw [hl'' (by omega)]
        omega
    · rw [plainLoop, if_neg hjl, end_nil src (by omega)]
      refine ⟨g.statex, g.lenc, g.a.f, [], ?_, ?_, ?_, ?_, ?_, fun h => ?_⟩
      · rw [show len - j = 0 by omega, List.drop_zero, List.append_nil]
        rfl
      · rw [bv, List.map_nil, gctr_nil]
      · rw [List.length_nil]; omega
      · rw [bv, List.map_nil, blocks_nil]; rfl
      · rw [show len - j = 0 by omega]; rfl
      · rw [Nat.mod_eq_of_lt (by omega)]; omega

theorem cipherLoop_wp (src : List UInt8) (len : Nat) (hlen : len ≤ src.length) {h : Block} {E : Block → Block} :
    ∀ m j (d t : List UInt8) (g : GCM), len - j ≤ m → j ≤ len → d.length = j → len ≤ j + t.length →
    Tab g.table (toBits h) → Enc g.a E → ∃ s l f o,
      cipherLoop false src len j (d ++ t) g = some ({ g with statex := s, lenc := l, a := { g.a with f := f } }, d ++ o ++ t.drop (len - j)) ∧
      bv o = gctr E (inc32 (blk g.a.f)) (bv ((src.take len).drop j)) ∧ o.length = len - j ∧
      blk s = ghashFrom h (blk g.statex) (blocks (bv ((src.take len).drop j))) ∧
      blk f = iter inc32 ((len - j + 15) / 16) (blk g.a.f) ∧
      (cnt g.lenc < 2 ^ 64 → cnt l = (cnt g.lenc + (len - j)) % 2 ^ 64) := by
  intro m
  induction m with
  | zero =>
    intro j d t g hm hj hd ht htab hE
    rw [cipherLoop, if_neg (by omega), end_nil src (by omega)]
    refine ⟨g.statex, g.lenc, g.a.f, [], ?_, ?_, ?_, ?_, ?_, fun h => ?_⟩
    · rw [show len - j = 0 by omega, List.drop_zero, List.append_nil]
      rfl
    · rw [bv, List.map_nil, gctr_nil]
    · rw [List.length_nil]; omega
    · rw [bv, List.map_nil, blocks_nil]; rfl
    · rw [show len - j = 0 by omega]; rfl
    · rw [Nat.mod_eq_of_lt (by omega)]; omega
  | succ m ih =>
    intro j d t g hm hj hd ht htab hE
    by_cases hjl : j < len
    · rw [cipherLoop, if_pos hjl]
      obtain ⟨f, cb, ek, hf, hcb⟩ := keystream_wp g hE
      rw [ek]
      simp only [Option.bind_eq_bind, Option.bind_some]
      obtain ⟨⟨c', j', s, l⟩, e, h1, h2, h3, h4, h5⟩ := cipherBlock_wp src len hlen cb 16 0 j d t g.statex g.lenc (by decide) hj hd ht
      dsimp only at h1 h2 h3 h4 h5
      have hne : bv ((src.take len).drop j) ≠ [] := by
        intro e
        have := congrArg List.length e
        rw [bv_length, List.length_drop, List.length_take, List.length_nil] at this
        omega
      have ho := bv_out src len j cb
      generalize out src len j cb 0 = o1 at h1 h3 ho
      rw [e]
      obtain ⟨s', e', hs'⟩ := gf2mul_wp { g with statex := s, lenc := l, a := { g.a with f := f } } htab
      simp only [Option.bind_some, e']
      rw [h1]
      obtain ⟨s'', l'', f'', o2, e'', ho'', hl2, hs'', hf'', hl''⟩ := ih j' (d ++ o1) (t.drop o1.length)
        { g with statex := s', lenc := l, a := { g.a with f := f } }
        (by omega) (by omega) (by rw [List.length_append]; omega) (by rw [List.length_drop]; omega) htab (hE.with_f f)
      dsimp only at ho'' hs'' hf'' hl''
      have hdrop : (src.take len).drop j' = (src.take len).drop (j + 16) := by rw [h2, drop_min]
      refine ⟨s'', l'', f'', o1 ++ o2, ?_, ?_, ?_, ?_, ?_, fun _ => ?_⟩
      · rw [e'', List.drop_drop, ← List.append_assoc d, show o1.length + (len - j') = len - j by omega]
      · rw [bv_append, ho, gctr_ne E _ hne, hcb, hf, ho'', hf, ← bv_drop, List.drop_drop, hdrop]
      · rw [List.length_append]; omega
      · rw [hs'', hs']
        dsimp only
        rw [h4.blk, blocks_ne hne, ← bv_drop, List.drop_drop, hdrop]
        rfl
      · rw [hf'', hf, ← iter_succ]
        congr 1
        omega
      · rw [hl'' (by omega)]
        omega
    · rw [cipherLoop, if_neg hjl, end_nil src (by omega)]
      refine ⟨g.statex, g.lenc, g.a.f, [], ?_, ?_, ?_, ?_, ?_, fun h => ?_⟩
      · rw [show len - j = 0 by omega, List.drop_zero, List.append_nil]
        rfl
      · rw [bv, List.map_nil, gctr_nil]
      · rw [List.length_nil]; omega
      · rw [bv, List.map_nil, blocks_nil]; rfl
      · rw [show len - j = 0 by omega]; rfl
      · rw [Nat.mod_eq_of_lt (by omega)]; omega

end Amcl.GCM
