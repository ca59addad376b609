import Verif.Model.Ecdh
import Verif.Props.AesModes
import Verif.Proof.NhsCode3
import Verif.Spec.CbcPad
/-!
# AES in CBC mode of `ecdh.rs`
-/

namespace Amcl

namespace ecdh

open NHS (bt get_bt bt_append bt_take bt_drop bt_ext)
open Props (encryptAll decryptAll)
open AES (blk Ciph)
open Spec.AES (Block)
open Spec.Modes (pad blocksOf cbcEnc cbcDec)

/-- The sixteen bytes from the index `p`. -/
def vecAt (l : List UInt8) (p : Nat) : Vector UInt8 16 := Vector.ofFn fun j => bt l (p + j.val)

/-- `q` such blocks one after the other. -/
def full (l : List UInt8) : Nat → Nat → List (Vector UInt8 16)
  | _, 0 => []
  | p, q + 1 => vecAt l p :: full l (p + 16) q

/-- The bytes of the blocks. -/
def flat (bs : List (Vector UInt8 16)) : List UInt8 := bs.flatMap Vector.toList

theorem sb' {α β : Type} (a : α) (f : α → Option β) : (some a >>= f) = f a := rfl

theorem flat_cons (b : Vector UInt8 16) (bs : List (Vector UInt8 16)) : flat (b :: bs) = b.toList ++ flat bs := rfl

theorem flat_append (a b : List (Vector UInt8 16)) : flat (a ++ b) = flat a ++ flat b := by simp [flat]

theorem length_flat : ∀ bs, (flat bs).length = 16 * bs.length
  | [] => rfl
  | b :: bs => by rw [flat_cons, List.length_append, length_flat bs]; simp; omega

theorem length_full (l : List UInt8) : ∀ p q, (full l p q).length = q
  | _, 0 => rfl
  | p, q + 1 => by rw [full, List.length_cons, length_full]

theorem full_append (l : List UInt8) : ∀ p q, full l p (q + 1) = full l p q ++ [vecAt l (p + 16 * q)]
  | p, 0 => rfl
  | p, q + 1 => by
    rw [full, full_append l (p + 16) q, full, List.cons_append, show p + 16 + 16 * q = p + 16 * (q + 1) by omega]

theorem bt_vec (v : Vector UInt8 16) {i : Nat} (h : i < 16) : bt v.toList i = v[i] := by simp [bt, h]

theorem flat_full {l : List UInt8} : ∀ (q p : Nat), p + 16 * q ≤ l.length → flat (full l p q) = (l.drop p).take (16 * q)
  | 0, p, _ => by simp [full, flat]
  | q + 1, p, h => by
    rw [full, flat_cons, flat_full q (p + 16) (by omega)]
    refine bt_ext (by simp; omega) fun i hi => ?_
    have hi : i < 16 * (q + 1) := by simp at hi; omega
    rw [bt_append, bt_take (l.drop p) hi, bt_drop, Vector.length_toList]
    split
    · rename_i c
      rw [bt_vec _ c, vecAt, Vector.getElem_ofFn]
    · rw [bt_take _ (by omega), bt_drop]; congr 1; omega

theorem blocksOf_flat (bs : List (Vector UInt8 16)) : blocksOf (flat bs) = bs.map blk := by
  apply List.ext_getElem
  · simp [blocksOf, length_flat]
  · intro i h1 h2
    have hi : i < bs.length := by simpa using h2
    simp only [blocksOf, List.getElem_map, List.getElem_range]
    funext j
    simp only [blk, Fin.getElem_fin]
    congr 1
    rw [NHS.getD_bt]
    show bt (flat bs) (16 * i + j.val) = bs[i][j.val]
    clear h1
    clear h2
    induction bs generalizing i with
    | nil => simp at hi
    | cons b bs ih =>
      rw [flat_cons, bt_append, Vector.length_toList]
      have := j.isLt
      cases i with
      | zero => rw [if_pos (by omega), Nat.mul_zero, Nat.zero_add, bt_vec _ this]; rfl
      | succ i =>
        rw [if_neg (by omega), show 16 * (i + 1) + j.val - 16 = 16 * i + j.val by omega, ih i (by simpa using hi)]; rfl

theorem encryptAll_append {a a1 a2 : AES} {bs cs : List (Vector UInt8 16)} {b c : Vector UInt8 16} {x : UInt32}
    (h1 : encryptAll true a bs = some (a1, cs)) (h2 : AES.encrypt true a1 b = some (a2, c, x)) :
    encryptAll true a (bs ++ [b]) = some (a2, cs ++ [c]) := by
  induction bs generalizing a cs with
  | nil =>
    obtain ⟨rfl, rfl⟩ : a = a1 ∧ [] = cs := by simpa [encryptAll] using h1
    rw [List.nil_append, encryptAll, h2]; rfl
  | cons d bs ih =>
    rw [encryptAll] at h1
    obtain ⟨⟨a', c', x'⟩, e1, e⟩ := Option.bind_eq_some_iff.1 h1
    dsimp only at e
    obtain ⟨⟨a'', cs'⟩, e2, e⟩ := Option.bind_eq_some_iff.1 e
    obtain ⟨rfl, rfl⟩ : a'' = a1 ∧ c' :: cs' = cs := by simpa using e
    rw [List.cons_append, encryptAll, e1]
    simp [ih e2]

theorem decryptAll_append {a a1 a2 : AES} {bs cs : List (Vector UInt8 16)} {b c : Vector UInt8 16} {x : UInt32}
    (h1 : decryptAll true a bs = some (a1, cs)) (h2 : AES.decrypt true a1 b = some (a2, c, x)) :
    decryptAll true a (bs ++ [b]) = some (a2, cs ++ [c]) := by
  induction bs generalizing a cs with
  | nil =>
    obtain ⟨rfl, rfl⟩ : a = a1 ∧ [] = cs := by simpa [decryptAll] using h1
    rw [List.nil_append, decryptAll, h2]; rfl
  | cons d bs ih =>
    rw [decryptAll] at h1
    obtain ⟨⟨a', c', x'⟩, e1, e⟩ := Option.bind_eq_some_iff.1 h1
    dsimp only at e
    obtain ⟨⟨a'', cs'⟩, e2, e⟩ := Option.bind_eq_some_iff.1 e
    obtain ⟨rfl, rfl⟩ : a'' = a1 ∧ c' :: cs' = cs := by simpa using e
    rw [List.cons_append, decryptAll, e1]
    simp [ih e2]

/-! ## Encryption -/

theorem fillBlock_full (m : List UInt8) : ∀ (n i ipt : Nat) (buff : Vector UInt8 16), i + n ≤ 16 → ipt + n ≤ m.length →
    ∃ b, fillBlock m n i ipt buff = some (i + n, ipt + n, false, b) ∧
      ∀ j (hj : j < 16), b[j] = if i ≤ j ∧ j < i + n then bt m (ipt + (j - i)) else buff[j]
  | 0, i, ipt, buff, _, _ => ⟨buff, rfl, fun j hj => by rw [if_neg (by omega)]⟩
  | n + 1, i, ipt, buff, h1, h2 => by
    rw [fillBlock, if_pos (by omega), get_bt m (by omega)]
    simp only [sb']
    rw [AES.setAt_eq buff (by omega : i < 16), sb']
    obtain ⟨b, e, h⟩ := fillBlock_full m n (i + 1) (ipt + 1) (buff.set i (bt m ipt)) (by omega) (by omega)
    refine ⟨b, by rw [e, show i + 1 + n = i + (n + 1) by omega, show ipt + 1 + n = ipt + (n + 1) by omega], fun j hj => ?_⟩
    rw [h j hj, Vector.getElem_set]
    by_cases c : i = j
    · subst c
      rw [if_neg (by omega), if_pos rfl, if_pos (by omega), Nat.sub_self, Nat.add_zero]
    · rw [if_neg c]
      by_cases c2 : i + 1 ≤ j ∧ j < i + 1 + n
      · rw [if_pos c2, if_pos (by omega)]; congr 1; omega
      · rw [if_neg c2, if_neg (by omega)]

theorem fillBlock_keep (m : List UInt8) : ∀ (n i ipt : Nat) (buff : Vector UInt8 16) {i' ipt' : Nat} {f : Bool} {b : Vector UInt8 16},
    fillBlock m n i ipt buff = some (i', ipt', f, b) → ∀ j (hj : j < 16), j < i → b[j] = buff[j]
  | 0, i, ipt, buff, i', ipt', f, b, e, j, hj, _ => by
    rw [fillBlock] at e
    obtain ⟨-, -, -, rfl⟩ : i = i' ∧ ipt = ipt' ∧ false = f ∧ buff = b := by simpa using e
    rfl
  | n + 1, i, ipt, buff, i', ipt', f, b, e, j, hj, hlt => by
    rw [fillBlock] at e
    split at e
    · rename_i c
      rw [get_bt m c] at e
      simp only [sb'] at e
      unfold HASH256.setAt at e
      split at e
      · rw [sb'] at e
        rw [fillBlock_keep m n (i + 1) (ipt + 1) _ e j hj (by omega), Vector.getElem_set, if_neg (by omega)]
      · cases e
    · obtain ⟨-, -, -, rfl⟩ : i = i' ∧ ipt = ipt' ∧ true = f ∧ buff = b := by simpa using e
      rfl

theorem fillBlock_part (m : List UInt8) : ∀ (n i ipt : Nat) (buff : Vector UInt8 16), i + n ≤ 16 → ipt ≤ m.length → m.length < ipt + n →
    ∃ b, fillBlock m n i ipt buff = some (i + (m.length - ipt), m.length, true, b) ∧
      ∀ j (hj : j < 16), i ≤ j → j < i + (m.length - ipt) → b[j] = bt m (ipt + (j - i))
  | 0, i, ipt, buff, _, _, _ => by omega
  | n + 1, i, ipt, buff, h1, h2, h3 => by
    by_cases c : ipt < m.length
    · rw [fillBlock, if_pos c, get_bt m c]
      simp only [sb']
      rw [AES.setAt_eq buff (by omega : i < 16), sb']
      obtain ⟨b, e, h⟩ := fillBlock_part m n (i + 1) (ipt + 1) (buff.set i (bt m ipt)) (by omega) (by omega) (by omega)
      refine ⟨b, by rw [e, show i + 1 + (m.length - (ipt + 1)) = i + (m.length - ipt) by omega], fun j hj h4 h5 => ?_⟩
      by_cases c2 : i = j
      · subst c2
        rw [fillBlock_keep m n _ _ _ e i hj (by omega), Vector.getElem_set, if_pos rfl, Nat.sub_self, Nat.add_zero]
      · rw [h j hj (by omega) (by omega)]; congr 1; omega
    · rw [fillBlock, if_neg c]
      refine ⟨buff, ?_, fun j hj _ _ => by omega⟩
      rw [show m.length - ipt = 0 by omega, show m.length = ipt by omega]; rfl

theorem encLoop_eq (m : List UInt8) : ∀ (q : Nat) (a : AES) (ipt : Nat) (buff : Vector UInt8 16) (c : List UInt8) {a' : AES} {cs : List (Vector UInt8 16)},
    ipt + 16 * q ≤ m.length → m.length < ipt + 16 * (q + 1) → encryptAll true a (full m ipt q) = some (a', cs) →
      ∃ b, encLoop m a ipt buff c = some (a', m.length - ipt - 16 * q, b, c ++ flat cs) ∧
        ∀ j (hj : j < 16), j < m.length - ipt - 16 * q → b[j] = bt m (ipt + 16 * q + j)
  | 0, a, ipt, buff, c, a', cs, h1, h2, e => by
    obtain ⟨rfl, rfl⟩ : a = a' ∧ [] = cs := by simpa [encryptAll, full] using e
    obtain ⟨b, e1, h⟩ := fillBlock_part m 16 0 ipt buff (by omega) (by omega) (by omega)
    refine ⟨b, ?_, fun j hj hlt => by rw [h j hj (by omega) (by omega)]; congr 1⟩
    rw [encLoop, e1]
    simp [flat]
  | q + 1, a, ipt, buff, c, a', cs, h1, h2, e => by
    rw [full, encryptAll] at e
    obtain ⟨⟨a1, c1, x1⟩, e1, e⟩ := Option.bind_eq_some_iff.1 e
    dsimp only at e
    obtain ⟨⟨a2, cs'⟩, e2, e⟩ := Option.bind_eq_some_iff.1 e
    obtain ⟨rfl, rfl⟩ : a2 = a' ∧ c1 :: cs' = cs := by simpa using e
    obtain ⟨b, e3, h⟩ := fillBlock_full m 16 0 ipt buff (by omega) (by omega)
    have hb : b = vecAt m ipt := by
      apply Vector.ext
      intro j hj
      rw [h j hj, if_pos (by omega), vecAt, Vector.getElem_ofFn, Nat.sub_zero]
    subst hb
    obtain ⟨b', e4, h4⟩ := encLoop_eq m q a1 (ipt + 16) c1 (c ++ c1.toList) (by omega) (by omega) e2
    refine ⟨b', ?_, fun j hj hlt => by rw [h4 j hj (by omega)]; congr 1; omega⟩
    rw [encLoop, e3]
    simp only [sb']
    rw [if_neg (by decide), e1]
    try simp only [sb']
    rw [e4, flat_cons, List.append_assoc, show m.length - (ipt + 16) - 16 * q = m.length - ipt - 16 * (q + 1) by omega]

theorem padBlock_eq (x : UInt8) : ∀ (n j : Nat) (buff : Vector UInt8 16), j + n ≤ 16 →
    ∃ b, padBlock x n j buff = some b ∧ ∀ i (hi : i < 16), b[i] = if j ≤ i ∧ i < j + n then x else buff[i]
  | 0, j, buff, _ => ⟨buff, rfl, fun i hi => by rw [if_neg (by omega)]⟩
  | n + 1, j, buff, h => by
    rw [padBlock, AES.setAt_eq buff (by omega : j < 16), sb']
    obtain ⟨b, e, hb⟩ := padBlock_eq x n (j + 1) (buff.set j x) (by omega)
    refine ⟨b, e, fun i hi => ?_⟩
    rw [hb i hi, Vector.getElem_set]
    by_cases c : j = i
    · subst c; rw [if_neg (by omega), if_pos rfl, if_pos (by omega)]
    · rw [if_neg c]
      by_cases c2 : j + 1 ≤ i ∧ i < j + 1 + n
      · rw [if_pos c2, if_pos (by omega)]
      · rw [if_neg c2, if_neg (by omega)]

theorem length_pad (m : List UInt8) : (pad m).length = 16 * (m.length / 16 + 1) := by
  unfold pad; simp; omega

theorem full_pad (m : List UInt8) : ∀ (q p : Nat), p + 16 * q ≤ m.length → full (pad m) p q = full m p q
  | 0, _, _ => rfl
  | q + 1, p, h => by
    rw [full, full, full_pad m q (p + 16) (by omega)]
    congr 1
    apply Vector.ext
    intro j hj
    simp only [vecAt, Vector.getElem_ofFn]
    rw [pad, bt_append, if_pos (by omega)]

theorem split_left {a : AES} {bs : List (Vector UInt8 16)} {b : Vector UInt8 16} {r : AES × List (Vector UInt8 16)}
    (h : encryptAll true a (bs ++ [b]) = some r) : ∃ r, encryptAll true a bs = some r := by
  induction bs generalizing a r with
  | nil => exact ⟨_, rfl⟩
  | cons d bs ih =>
    rw [List.cons_append, encryptAll] at h
    obtain ⟨⟨a', c', x'⟩, e1, e⟩ := Option.bind_eq_some_iff.1 h
    dsimp only at e
    obtain ⟨⟨a'', cs'⟩, e2, e⟩ := Option.bind_eq_some_iff.1 e
    obtain ⟨r', e3⟩ := ih e2
    exact ⟨(r'.1, c' :: r'.2), by rw [encryptAll, e1]; simp [e3]⟩
theorem split_right {a a1 a' : AES} {bs cs1 cs : List (Vector UInt8 16)} {b : Vector UInt8 16} (e1 : encryptAll true a bs = some (a1, cs1))
    (h : encryptAll true a (bs ++ [b]) = some (a', cs)) : ∃ c x, AES.encrypt true a1 b = some (a', c, x) ∧ cs = cs1 ++ [c] := by
  induction bs generalizing a cs1 cs with
  | nil =>
    obtain ⟨rfl, rfl⟩ : a = a1 ∧ [] = cs1 := by simpa [encryptAll] using e1
    rw [List.nil_append, encryptAll] at h
    obtain ⟨⟨a2, c, x⟩, e2, e⟩ := Option.bind_eq_some_iff.1 h
    obtain ⟨rfl, rfl⟩ : a2 = a' ∧ [c] = cs := by simpa [encryptAll] using e
    exact ⟨c, x, e2, rfl⟩
  | cons d bs ih =>
    rw [List.cons_append, encryptAll] at h
    rw [encryptAll] at e1
    obtain ⟨⟨b1, c1, x1⟩, g1, e⟩ := Option.bind_eq_some_iff.1 e1
    dsimp only at e
    obtain ⟨⟨b2, cs2⟩, g2, e⟩ := Option.bind_eq_some_iff.1 e
    obtain ⟨rfl, rfl⟩ : b2 = a1 ∧ c1 :: cs2 = cs1 := by simpa using e
    rw [g1] at h
    simp only [sb'] at h
    obtain ⟨⟨b3, cs3⟩, g3, e⟩ := Option.bind_eq_some_iff.1 h
    obtain ⟨rfl, rfl⟩ : b3 = a' ∧ c1 :: cs3 = cs := by simpa using e
    obtain ⟨c, x, g4, rfl⟩ := ih g2 g3
    exact ⟨c, x, g4, rfl⟩

theorem encrypt_eq {k m : List UInt8} {a : AES} {ok : Bool} (hi : AES.init AES.new AES.CBC k.length k none = some (a, ok))
    {a' : AES} {cs : List (Vector UInt8 16)} (h : encryptAll true a (full (pad m) 0 (m.length / 16 + 1)) = some (a', cs))
    (hf : ∃ z, a'.finish = some z) : cbc_iv0_encrypt k m = some (flat cs) := by
  rw [full_append, full_pad m _ 0 (by omega)] at h
  obtain ⟨⟨a1, cs1⟩, e1⟩ : ∃ r, encryptAll true a (full m 0 (m.length / 16)) = some r := split_left h
  obtain ⟨c, x, e2, rfl⟩ := split_right e1 h
  obtain ⟨b, e3, h3⟩ := encLoop_eq m (m.length / 16) a 0 (Vector.replicate 16 0) [] (by omega) (by omega) e1
  rw [cbc_iv0_encrypt, hi]
  simp only [sb']
  rw [e3]
  try simp only [sb']
  obtain ⟨b', e4, h4⟩ := padBlock_eq (UInt8.ofNat (16 - (m.length - 0 - 16 * (m.length / 16)))) (16 - (m.length - 0 - 16 * (m.length / 16)))
    (m.length - 0 - 16 * (m.length / 16)) b (by omega)
  have hb : b' = vecAt (pad m) (0 + 16 * (m.length / 16)) := by
    apply Vector.ext
    intro j hj
    rw [h4 j hj, vecAt, Vector.getElem_ofFn, pad, bt_append]
    have hm : m.length - 0 - 16 * (m.length / 16) = m.length % 16 := by omega
    by_cases c : j < m.length % 16
    · rw [if_neg (by omega), if_pos (by show _ + j < _; omega), h3 j hj (by omega)]
    · rw [if_pos (by omega), if_neg (by show ¬ _ + j < _; omega), hm]
      show _ = bt (List.replicate _ _) (0 + 16 * (m.length / 16) + j - m.length)
      rw [bt, List.getElem?_replicate, if_pos (by omega)]; rfl
  rw [e4, sb', hb, e2]
  obtain ⟨z, hz⟩ := hf
  try simp only [sb']
  rw [hz, sb', List.nil_append, flat_append]
  simp [flat]

/-! ## Decryption -/

theorem readBlock_full (c : List UInt8) : ∀ (n i p : Nat) (buff : Vector UInt8 16), i + n ≤ 16 → p + n < c.length →
    ∃ b, readBlock c n i (p + 1) (bt c p) buff = some (i + n, p + n + 1, bt c (p + n), false, b) ∧
      ∀ j (hj : j < 16), b[j] = if i ≤ j ∧ j < i + n then bt c (p + (j - i)) else buff[j]
  | 0, i, p, buff, _, _ => ⟨buff, rfl, fun j hj => by rw [if_neg (by omega)]⟩
  | n + 1, i, p, buff, h1, h2 => by
    rw [readBlock, AES.setAt_eq buff (by omega : i < 16), sb', if_neg (by omega), get_bt c (by omega)]
    try simp only [sb']
    obtain ⟨b, e, h⟩ := readBlock_full c n (i + 1) (p + 1) (buff.set i (bt c p)) (by omega) (by omega)
    refine ⟨b, by rw [e, show i + 1 + n = i + (n + 1) by omega, show p + 1 + n = p + (n + 1) by omega], fun j hj => ?_⟩
    rw [h j hj, Vector.getElem_set]
    by_cases c' : i = j
    · subst c'
      rw [if_neg (by omega), if_pos rfl, if_pos (by omega), Nat.sub_self, Nat.add_zero]
    · rw [if_neg c']
      by_cases c2 : i + 1 ≤ j ∧ j < i + 1 + n
      · rw [if_pos c2, if_pos (by omega)]; congr 1; omega
      · rw [if_neg c2, if_neg (by omega)]

theorem readBlock_part (c : List UInt8) : ∀ (n i p : Nat) (buff : Vector UInt8 16), i + n ≤ 16 → p < c.length → c.length ≤ p + n →
    ∃ b ipt ch, readBlock c n i (p + 1) (bt c p) buff = some (i + (c.length - p - 1), ipt, ch, true, b) ∧
      ∀ j (hj : j < 16), b[j] = if i ≤ j ∧ j < i + (c.length - p) then bt c (p + (j - i)) else buff[j]
  | 0, i, p, buff, _, _, _ => by omega
  | n + 1, i, p, buff, h1, h2, h3 => by
    rw [readBlock, AES.setAt_eq buff (by omega : i < 16), sb']
    by_cases cc : c.length ≤ p + 1
    · rw [if_pos cc]
      refine ⟨_, _, _, by rw [show c.length - p - 1 = 0 by omega]; rfl, fun j hj => ?_⟩
      rw [Vector.getElem_set]
      by_cases c' : i = j
      · subst c'; rw [if_pos rfl, if_pos (by omega), Nat.sub_self, Nat.add_zero]
      · rw [if_neg c', if_neg (by omega)]
    · rw [if_neg cc, get_bt c (by omega)]
      try simp only [sb']
      obtain ⟨b, ipt, ch, e, h⟩ := readBlock_part c n (i + 1) (p + 1) (buff.set i (bt c p)) (by omega) (by omega) (by omega)
      refine ⟨b, ipt, ch, by rw [e, show i + 1 + (c.length - (p + 1) - 1) = i + (c.length - p - 1) by omega], fun j hj => ?_⟩
      rw [h j hj, Vector.getElem_set]
      by_cases c' : i = j
      · subst c'
        rw [if_neg (by omega), if_pos rfl, if_pos (by omega), Nat.sub_self, Nat.add_zero]
      · rw [if_neg c']
        by_cases c2 : i + 1 ≤ j ∧ j < i + 1 + (c.length - (p + 1))
        · rw [if_pos c2, if_pos (by omega)]; congr 1; omega
        · rw [if_neg c2, if_neg (by omega)]

/-- The loop of the decryption: the complete blocks before the last, perhaps incomplete, one. -/
theorem decLoop_eq (c : List UInt8) : ∀ (q : Nat) (a : AES) (p : Nat) (buff : Vector UInt8 16) (m : List UInt8) {a1 : AES} {ps : List (Vector UInt8 16)},
    p + 16 * q < c.length → c.length ≤ p + 16 * (q + 1) → decryptAll true a (full c p q) = some (a1, ps) →
      ∃ b, (∀ j (hj : j < 16), j < c.length - p - 16 * q → b[j] = bt c (p + 16 * q + j)) ∧
        ∀ {a2 : AES} {d : Vector UInt8 16} {x : UInt32}, AES.decrypt true a1 b = some (a2, d, x) →
          decLoop c a (p + 1) (bt c p) buff m = some (a2, c.length - p - 16 * q - 1, d, m ++ flat ps)
  | 0, a, p, buff, m, a1, ps, h1, h2, e => by
    obtain ⟨rfl, rfl⟩ : a = a1 ∧ [] = ps := by simpa [decryptAll, full] using e
    obtain ⟨b, ipt, ch, e1, h⟩ := readBlock_part c 16 0 p buff (by omega) (by omega) (by omega)
    refine ⟨b, fun j hj hlt => by rw [h j hj, if_pos (by omega)]; congr 1, fun e2 => ?_⟩
    rw [decLoop, e1]
    simp [e2, flat]
  | q + 1, a, p, buff, m, a1, ps, h1, h2, e => by
    rw [full, decryptAll] at e
    obtain ⟨⟨a', c1, x1⟩, e1, e⟩ := Option.bind_eq_some_iff.1 e
    dsimp only at e
    obtain ⟨⟨a'', cs'⟩, e2, e⟩ := Option.bind_eq_some_iff.1 e
    obtain ⟨rfl, rfl⟩ : a'' = a1 ∧ c1 :: cs' = ps := by simpa using e
    obtain ⟨b, e3, h⟩ := readBlock_full c 16 0 p buff (by omega) (by omega)
    have hb : b = vecAt c p := by
      apply Vector.ext
      intro j hj
      rw [h j hj, if_pos (by omega), vecAt, Vector.getElem_ofFn, Nat.sub_zero]
    subst hb
    obtain ⟨b', h4, h5⟩ := decLoop_eq c q a' (p + 16) c1 (m ++ c1.toList) (by omega) (by omega) e2
    refine ⟨b', fun j hj hlt => by rw [h4 j hj (by omega)]; congr 1; omega, fun e6 => ?_⟩
    rw [decLoop, e3]
    simp only [sb']
    rw [e1]
    try simp only [sb']
    rw [if_neg (by decide), h5 e6, flat_cons, List.append_assoc, show c.length - (p + 16) - 16 * q - 1 = c.length - p - 16 * (q + 1) - 1 by omega]

end ecdh

end Amcl
