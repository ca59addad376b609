import Verif.Model.Gcm
import Verif.Spec.Gcm
import Verif.Proof.AesModes

namespace Amcl.GCM
open Spec.AES Spec.Modes Spec.GCM Amcl.AES

set_option maxRecDepth 8000

/-! ## Bits -/

/-- The bit string of four words, the first word the leftmost. -/
def W (p : Vector UInt32 4) : BitVec 128 :=
  BitVec.ofFnLE fun n : Fin 128 => (p[3 - n.val / 32]'(by omega)).toBitVec.getLsbD (n.val % 32)

theorem W_bit (p : Vector UInt32 4) {n : Nat} (h : n < 128) : (W p).getLsbD n = (p[3 - n / 32]).toBitVec.getLsbD (n % 32) := by
  rw [BitVec.getLsbD_eq_getElem h, W, BitVec.getElem_ofFnLE]

theorem toBits_bit (b : Block) {n : Nat} (h : n < 128) :
    (toBits b).getLsbD n = (b ⟨(127 - n) / 8, by omega⟩).getLsbD (n % 8) := by
  rw [BitVec.getLsbD_eq_getElem h, toBits, BitVec.getElem_ofFnLE]

theorem bits_ext {a b : BitVec 128} (h : ∀ n < 128, a.getLsbD n = b.getLsbD n) : a = b :=
  BitVec.eq_of_getLsbD_eq fun i hi => h i hi

theorem toBits_ofBits (v : BitVec 128) : toBits (ofBits v) = v := by
  apply bits_ext
  intro n h
  rw [toBits_bit _ h]
  simp only [ofBits, BitVec.getLsbD_extractLsb']
  rw [decide_eq_true (show n % 8 < 8 by omega), Bool.true_and]
  congr 1
  omega

theorem ofBits_toBits (b : Block) : ofBits (toBits b) = b := by
  funext k
  apply BitVec.eq_of_getLsbD_eq
  intro i hi
  have hk := k.isLt
  simp only [ofBits, BitVec.getLsbD_extractLsb']
  rw [decide_eq_true hi, Bool.true_and, toBits_bit _ (by omega)]
  have h1 : (⟨(127 - (8 * (15 - k.val) + i)) / 8, by omega⟩ : Fin 16) = k := Fin.ext (by simp only; omega)
  rw [h1]
  congr 1
  omega

theorem unpack_bit (a : UInt32) (r : Fin 4) {i : Nat} (hi : i < 8) :
    ((unpack a)[r]).toBitVec.getLsbD i = a.toBitVec.getLsbD (8 * (3 - r) + i) := by
  fin_cases r <;> interval_cases i <;> simp [unpack]

theorem pack_bit (b : Vector UInt8 4) {n : Nat} (h : n < 32) :
    (pack b).toBitVec.getLsbD n = (b[3 - n / 8]).toBitVec.getLsbD (n % 8) := by
  interval_cases n <;> simp [pack]

theorem store_word (p : Vector UInt32 4) (k : Fin 16) : (store p)[k] = (unpack (p[k.val / 4]))[k.val % 4] := by
  fin_cases k <;> rfl

theorem store_eq (p : Vector UInt32 4) : blk (store p) = ofBits (W p) := by
  funext k
  apply BitVec.eq_of_getLsbD_eq
  intro i hi
  have hk := k.isLt
  simp only [ofBits, BitVec.getLsbD_extractLsb', blk]
  rw [decide_eq_true hi, Bool.true_and, W_bit _ (by omega), store_word]
  have := unpack_bit (p[k.val / 4]) ⟨k.val % 4, by omega⟩ hi
  refine this.trans ?_
  have h1 : 3 - (8 * (15 - k.val) + i) / 32 = k.val / 4 := by omega
  have h2 : 8 * (3 - k.val % 4) + i = (8 * (15 - k.val) + i) % 32 := by omega
  simp only [h1, h2]

theorem toBits_store (p : Vector UInt32 4) : toBits (blk (store p)) = W p := by rw [store_eq, toBits_ofBits]

theorem row_eq (h : Vector UInt8 16) :
    W #v[pack #v[h[0], h[1], h[2], h[3]], pack #v[h[4], h[5], h[6], h[7]],
      pack #v[h[8], h[9], h[10], h[11]], pack #v[h[12], h[13], h[14], h[15]]] = toBits (blk h) := by
  apply bits_ext
  intro n hn
  rw [W_bit _ hn, toBits_bit _ hn]
  interval_cases n <;> exact pack_bit _ (by decide)

theorem W_xor (p q : Vector UInt32 4) :
    W #v[p[0] ^^^ q[0], p[1] ^^^ q[1], p[2] ^^^ q[2], p[3] ^^^ q[3]] = W p ^^^ W q := by
  apply bits_ext
  intro n h
  rw [BitVec.getLsbD_xor, W_bit _ h, W_bit _ h, W_bit _ h]
  have h4 : n / 32 = 0 ∨ n / 32 = 1 ∨ n / 32 = 2 ∨ n / 32 = 3 := by omega
  rcases h4 with e | e | e | e <;> simp [e]

theorem W_ext {p : Vector UInt32 4} {v : BitVec 128} (h : ∀ n < 128, (p[3 - n / 32]).toBitVec.getLsbD (n % 32) = v.getLsbD n) :
    W p = v := bits_ext fun n hn => (W_bit p hn).trans (h n hn)

/-- Each row of the table is the one before, times `x`. -/
theorem nextRow_eq (r : Vector UInt32 4) : W (nextRow r) = next (W r) := by
  have hc : (r[3] <<< 31 ≠ 0) ↔ (W r).getLsbD 0 = true := by
    rw [W_bit r (by decide)]
    constructor
    · intro h
      by_contra hb
      apply h
      apply UInt32.toBitVec_inj.1
      apply BitVec.eq_of_getLsbD_eq
      intro i hi
      have hb' : r[3].toBitVec.getLsbD 0 = false := by simpa using hb
      by_cases e : i = 31
      · subst e
        simpa using hb'
      · have h31 : i < 31 := by omega
        simp [h31]
    · intro h h0
      have := congrArg (fun x : UInt32 => x.toBitVec.getLsbD 31) h0
      simp at this h
      rw [this] at h
      exact absurd h (by decide)
  have hs : W #v[r[0] >>> 1, (r[0] <<< 31) ||| (r[1] >>> 1), (r[1] <<< 31) ||| (r[2] >>> 1), (r[2] <<< 31) ||| (r[3] >>> 1)] =
      W r >>> 1 := by
    apply W_ext
    intro n hn
    rw [BitVec.getLsbD_ushiftRight]
    by_cases h127 : n = 127
    · subst h127
      simp
    · rw [W_bit r (by omega)]
      have hn' : n < 127 := by omega
      clear hc
      interval_cases n <;> simp
  unfold nextRow next
  simp only
  by_cases h : (W r).getLsbD 0 = true
  · rw [if_pos (hc.2 h), if_pos h, ← hs, show Spec.GCM.R = W #v[0xE1000000, 0, 0, 0] by decide +kernel]
    have := W_xor #v[r[0] >>> 1, (r[0] <<< 31) ||| (r[1] >>> 1), (r[1] <<< 31) ||| (r[2] >>> 1), (r[2] <<< 31) ||| (r[3] >>> 1)]
      #v[0xE1000000, 0, 0, 0]
    rw [← this]
    simp
  · rw [if_neg (fun h' => h (hc.1 h')), if_neg h, ← hs]

/-! ## The table -/

/-- `V_i`. -/
def V (h : BitVec 128) : Nat → BitVec 128
  | 0 => h
  | n + 1 => next (V h n)

/-- The table holds the `V_i` of `h`. -/
def Tab (t : Vector (Vector UInt32 4) 128) (h : BitVec 128) : Prop := ∀ i (hi : i < 128), W t[i] = V h i

theorem fill_wp (h : BitVec 128) : ∀ n i (t : Vector (Vector UInt32 4) 128), 1 ≤ i → i + n = 128 →
    (∀ k (hk : k < 128), k < i → W t[k] = V h k) → Wp (fill n i t) fun t => Tab t h
  | 0, i, t, _, hn, ht => Wp.ret fun k hk => ht k hk (by omega)
  | n + 1, i, t, h1, hn, ht => by
    rw [fill, if_neg (by omega), Vector.getElem?_eq_getElem (by omega), Option.bind_eq_bind, Option.bind_some,
      setAt_eq t (by omega)]
    simp only
    refine fill_wp h n (i + 1) _ (by omega) (by omega) ?_
    intro k hk hki
    by_cases e : k = i
    · subst e
      rw [Vector.getElem_set_self, nextRow_eq, ht (k - 1) (by omega) (by omega)]
      obtain ⟨j, rfl⟩ : ∃ j, k = j + 1 := ⟨k - 1, by omega⟩
      rfl
    · rw [Vector.getElem_set_ne _ _ (by omega)]
      exact ht k hk (by omega)

theorem precompute_wp (g : GCM) (h : Vector UInt8 16) :
    ∃ t, precompute g h = some { g with table := t } ∧ Tab t (toBits (blk h)) := by
  unfold precompute
  simp only [setAt_eq g.table (show 0 < 128 by decide), Option.bind_eq_bind, Option.bind_some]
  obtain ⟨t, e, ht⟩ := fill_wp (toBits (blk h)) 127 1
    (g.table.set 0 #v[pack #v[h[0], h[1], h[2], h[3]], pack #v[h[4], h[5], h[6], h[7]],
      pack #v[h[8], h[9], h[10], h[11]], pack #v[h[12], h[13], h[14], h[15]]]) (by decide) (by decide) (by
    intro k hk h1
    have : k = 0 := by omega
    subst this
    rw [Vector.getElem_set_self, row_eq]
    rfl)
  exact ⟨t, by rw [e]; rfl, ht⟩

/-! ## The product -/

theorem mask_word (x : UInt8) (j : Fin 8) : ~~~(((x >>> (j.val).toUInt8) &&& 1).toUInt32) + 1 =
    if x.toBitVec.getLsbD j then 0xffffffff else 0 := by
  revert j
  obtain ⟨b⟩ := x
  revert b
  apply all_bytes
  decide +kernel

theorem mask_debug (x : UInt8) (j : Fin 8) : ~~~(((x >>> (j.val).toUInt8) &&& 1).toUInt32) = 0xffffffff ↔
    x.toBitVec.getLsbD j = false := by
  revert j
  obtain ⟨b⟩ := x
  revert b
  apply all_bytes
  decide +kernel

theorem state_bit (s : Vector UInt8 16) {i : Nat} (h : i < 128) :
    (toBits (blk s)).getLsbD (127 - i) = (s[i / 8]).toBitVec.getLsbD (7 - i % 8) := by
  rw [toBits_bit _ (by omega)]
  simp only [blk, Fin.getElem_fin]
  have h1 : (127 - (127 - i)) / 8 = i / 8 := by omega
  have h2 : (127 - i) % 8 = 7 - i % 8 := by omega
  simp only [h1, h2]

theorem and_ones (x : UInt32) : x &&& 0xffffffff = x := by
  apply UInt32.toBitVec_inj.1
  rw [UInt32.toBitVec_and]
  exact BitVec.and_allOnes

theorem mulLoop_wp (t : Vector (Vector UInt32 4) 128) (s : Vector UInt8 16) {h : BitVec 128} (ht : Tab t h) : ∀ n i p, i + n = 128 →
    Wp (mulLoop false t s n i p) fun q => W q = mulFrom (toBits (blk s)) n i (W p) (V h i)
  | 0, i, p, _ => Wp.ret rfl
  | n + 1, i, p, hn => by
    rw [mulLoop, mulFrom, Vector.getElem?_eq_getElem (by omega), Option.bind_eq_bind, Option.bind_some,
      Vector.getElem?_eq_getElem (by omega)]
    have hj := mask_word s[i / 8] ⟨7 - i % 8, by omega⟩
    simp only [add1, Bool.false_eq_true, false_and, if_false, Option.bind_eq_bind, Option.bind_some]
    simp only at hj
    rw [hj]
    refine (mulLoop_wp t s ht n (i + 1) _ (by omega)).mono ?_
    intro q hq
    rw [hq, state_bit s (by omega)]
    have hi := ht i (by omega)
    congr 1
    by_cases hb : s[i / 8].toBitVec.getLsbD (7 - i % 8) = true
    · rw [if_pos hb, if_pos hb, ← hi, ← W_xor]
      simp only [and_ones]
    · rw [if_neg hb, if_neg hb]
      apply W_ext
      intro m hm
      rw [W_bit p hm]
      have h4 : m / 32 = 0 ∨ m / 32 = 1 ∨ m / 32 = 2 ∨ m / 32 = 3 := by omega
      rcases h4 with e | e | e | e <;> simp [e]

/-- `gf2mul` multiplies the state by `h`. -/
theorem gf2mul_wp (g : GCM) {h : Block} (ht : Tab g.table (toBits h)) :
    ∃ s, gf2mul false g = some { g with statex := s } ∧ blk s = Spec.GCM.mul (blk g.statex) h := by
  obtain ⟨p, e, hp⟩ := mulLoop_wp g.table g.statex ht 128 0 (Vector.replicate 4 0) (by decide)
  refine ⟨store p, by rw [gf2mul, e]; rfl, ?_⟩
  rw [store_eq, hp]
  unfold Spec.GCM.mul
  rw [show W (Vector.replicate 4 0) = 0 by decide +kernel]
  rfl

theorem mulLoop_debug (t : Vector (Vector UInt32 4) 128) (s : Vector UInt8 16) : ∀ n i p, i + n = 128 →
    mulLoop true t s n i p = if ∀ k, i ≤ k → k < 128 → (toBits (blk s)).getLsbD (127 - k) = true then mulLoop false t s n i p
      else none
  | 0, i, p, hi => by rw [if_pos (fun k h1 h2 => by omega)]; rfl
  | n + 1, i, p, hn => by
    rw [mulLoop, mulLoop, Vector.getElem?_eq_getElem (by omega), Option.bind_eq_bind, Option.bind_some]
    have hj := mask_debug s[i / 8] ⟨7 - i % 8, by omega⟩
    simp only at hj
    have hb := state_bit s (show i < 128 by omega)
    simp only [add1, true_and, Bool.false_eq_true, false_and, if_false, Option.bind_eq_bind, Option.bind_some]
    by_cases h0 : s[i / 8].toBitVec.getLsbD (7 - i % 8) = false
    · rw [if_pos (hj.2 h0), Option.bind_none, if_neg]
      intro h
      have := h i (by omega) (by omega)
      rw [hb, h0] at this
      exact absurd this (by decide)
    · rw [if_neg (fun h => h0 (hj.1 h)), Option.bind_some, Vector.getElem?_eq_getElem (by omega), Option.bind_some, Option.bind_some,
        mulLoop_debug t s n (i + 1) _ (by omega)]
      have h1 : s[i / 8].toBitVec.getLsbD (7 - i % 8) = true := by simpa using h0
      congr 1
      apply propext
      constructor
      · intro h k hk1 hk2
        by_cases e : k = i
        · subst e; rw [hb, h1]
        · exact h k (by omega) hk2
      · intro h k hk1 hk2
        exact h k (by omega) hk2

/-- With checks of the overflow, `gf2mul` panics unless all bits of the state are 1. -/
theorem gf2mul_debug (g : GCM) : gf2mul true g = if ∀ i, blk g.statex i = 255 then gf2mul false g else none := by
  unfold gf2mul
  rw [mulLoop_debug _ _ _ _ _ (by decide)]
  have hiff : (∀ k, 0 ≤ k → k < 128 → (toBits (blk g.statex)).getLsbD (127 - k) = true) ↔ ∀ i, blk g.statex i = 255 := by
    constructor
    · intro h i
      apply BitVec.eq_of_getLsbD_eq
      intro j hj
      have hi := i.isLt
      have := h (8 * i + 7 - j) (by omega) (by omega)
      rw [state_bit _ (by omega)] at this
      have e1 : (8 * i.val + 7 - j) / 8 = i := by omega
      have e2 : 7 - (8 * i.val + 7 - j) % 8 = j := by omega
      simp only [e1, e2] at this
      refine Eq.trans this ?_
      interval_cases j <;> decide
    · intro h k _ hk
      rw [toBits_bit _ (by omega), h]
      have : (127 - k) % 8 < 8 := by omega
      generalize (127 - k) % 8 = j at this
      interval_cases j <;> decide
  by_cases h : ∀ i, blk g.statex i = 255
  · rw [if_pos h, if_pos (hiff.2 h)]
  · rw [if_neg h, if_neg (fun h' => h (hiff.1 h'))]
    rfl

end Amcl.GCM
