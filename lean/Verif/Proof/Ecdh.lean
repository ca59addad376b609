import Verif.Model.Ecdh
import Verif.Spec.Ecdh
import Verif.Proof.Mpin
import Verif.Proof.NhsParts
import Verif.Proof.Gcm
/-!
# Hashes, HMAC and key derivation of `ecdh.rs`
-/

namespace Amcl

namespace ecdh

open SHA3 (setB)
open NHS (copy clear bt bt_ext bt_append bt_take bt_drop copy_wp get_bt)
open Spec (mpinDigest toBE)
open Spec.Kdf (H blockLen key0 ceilDiv)

/-- The names of the hash functions. -/
def IsSha (sha : Nat) : Prop := sha = 32 ∨ sha = 48 ∨ sha = 64

theorem IsSha.le {sha : Nat} (h : IsSha sha) : sha ≤ 64 := by unfold IsSha at h; omega
theorem IsSha.pos {sha : Nat} (h : IsSha sha) : 32 ≤ sha := by unfold IsSha at h; omega

theorem digest_eq {sha : Nat} (hs : IsSha sha) {m : List UInt8} (hm : m.length + 17 ≤ 2 ^ 29) :
    mpin.digest sha m = some (some (H sha m)) ∧ (H sha m).length = sha := by
  obtain ⟨d, e, h1, h2⟩ := mpin.digest_wp sha hm
  have hn : ∃ x, mpinDigest sha m = some x := by
    unfold mpinDigest
    rcases hs with h | h | h <;> subst h <;> exact ⟨_, rfl⟩
  obtain ⟨x, hx⟩ := hn
  subst h1
  have hH : H sha m = x := by rw [H, hx]; rfl
  rw [hx] at h2
  rcases h2 with h2 | h2
  · rw [e, hx, hH]
    exact ⟨rfl, Option.some.inj h2⟩
  · cases h2

theorem length_H {sha : Nat} (hs : IsSha sha) {m : List UInt8} (hm : m.length + 17 ≤ 2 ^ 29) : (H sha m).length = sha :=
  (digest_eq hs hm).2

theorem copy_eq (p q n : Nat) (src dst : List UInt8) (hs : n + q ≤ src.length) (hd : n + p ≤ dst.length) :
    copy p q src n 0 dst = some (dst.take p ++ (src.drop q).take n ++ dst.drop (p + n)) := by
  obtain ⟨d, e, h1, h2⟩ := copy_wp p q src n 0 dst (by omega) (by omega)
  rw [e]
  refine congrArg some (bt_ext (by simp; omega) fun i hi => ?_)
  have hp : (dst.take p).length = p := by rw [List.length_take]; omega
  have hq : ((src.drop q).take n).length = n := by rw [List.length_take, List.length_drop]; omega
  rw [h2, bt_append, bt_append, List.length_append, hp, hq]
  by_cases c1 : i < p
  · rw [if_neg (by omega), if_pos (by omega), if_pos c1, bt_take _ c1]
  · by_cases c2 : i < p + n
    · rw [if_pos (by omega), if_pos c2, if_neg c1, bt_take _ (by omega), bt_drop]
      congr 1; omega
    · rw [if_neg (by omega), if_neg c2, bt_drop]
      congr 1; omega

theorem clear_eq : ∀ (n : Nat) (d t : List UInt8), n ≤ t.length →
    clear n d.length (d ++ t) = some (d ++ List.replicate n 0 ++ t.drop n)
  | 0, d, t, _ => by simp [clear]
  | n + 1, d, t, h => by
    rw [clear, Amcl.GCM.setB_mid d t 0 rfl (by omega), Option.bind_eq_bind, Option.bind_some]
    have := clear_eq n (d ++ [0]) (t.drop 1) (by simp; omega)
    rw [List.length_append, List.length_singleton] at this
    rw [this, List.drop_drop, List.append_assoc d [0], List.singleton_append, ← List.replicate_succ, Nat.add_comm 1 n]

/-- The data that `hashit` hashes. -/
def data (a : List UInt8) (n : Nat) (b : Option (List UInt8)) : List UInt8 := a ++ (if n > 0 then toBE 4 n else []) ++ b.getD []

theorem digest64_eq {sha : Nat} (hs : IsSha sha) {a : List UInt8} {n : Nat} {b : Option (List UInt8)} (hn : n < 2 ^ 32)
    (hl : (data a n b).length + 17 ≤ 2 ^ 29) :
    digest64 sha a n b = some (H sha (data a n b) ++ List.replicate (64 - sha) 0) := by
  obtain ⟨h1, h2⟩ := digest_eq hs hl
  have := hs.le
  rw [digest64, numBytes_eq hn]
  unfold data at *
  rw [h1, Option.bind_eq_bind, Option.bind_some]
  dsimp only
  rw [copy_eq 0 0 sha _ _ (by omega) (by simp; omega)]
  rw [List.take_zero, List.nil_append, List.drop_zero, List.take_of_length_le (by omega), List.drop_replicate, Nat.zero_add]

/-- The bytes that `hashit` writes. -/
def fit (sha pad : Nat) (h : List UInt8) : List UInt8 :=
  if pad = 0 then h else if pad ≤ sha then h.take pad else List.replicate (pad - sha) 0 ++ h

theorem length_fit {sha pad : Nat} {h : List UInt8} (hh : h.length = sha) : (fit sha pad h).length = if pad = 0 then sha else pad := by
  unfold fit
  split
  · exact hh
  · split <;> simp <;> omega

theorem hashit_eq {sha : Nat} (hs : IsSha sha) {a : List UInt8} {n : Nat} {b : Option (List UInt8)} (hn : n < 2 ^ 32)
    (hl : (data a n b).length + 17 ≤ 2 ^ 29) {pad : Nat} {w : List UInt8} (hw : (if pad = 0 then sha else pad) ≤ w.length) :
    hashit sha a n b pad w = some (fit sha pad (H sha (data a n b)) ++ w.drop (if pad = 0 then sha else pad)) := by
  have h2 := length_H hs hl
  rw [hashit, digest64_eq hs hn hl, Option.bind_eq_bind, Option.bind_some]
  unfold fit
  by_cases c0 : pad = 0
  · rw [if_pos c0] at hw
    rw [if_pos c0, if_pos c0, if_pos c0, copy_eq 0 0 sha _ _ (by simp; omega) (by omega)]
    rw [List.take_zero, List.nil_append, List.drop_zero, List.take_left' h2, Nat.zero_add]
  · rw [if_neg c0] at hw
    rw [if_neg c0, if_neg c0, if_neg c0]
    by_cases c1 : pad ≤ sha
    · rw [if_pos c1, if_pos c1, copy_eq 0 0 pad _ _ (by simp; omega) (by omega)]
      simp [List.take_append, h2, show pad - sha = 0 by omega]
    · rw [if_neg c1, if_neg c1, copy_eq (pad - sha) 0 sha _ _ (by simp; omega) (by omega), Option.bind_some]
      have := clear_eq (pad - sha) [] (w.take (pad - sha) ++ ((H sha (data a n b) ++ List.replicate (64 - sha) 0).drop 0).take sha ++
        w.drop (pad - sha + sha)) (by simp; omega)
      rw [List.length_nil, List.nil_append] at this
      rw [this, List.nil_append, List.append_assoc (w.take (pad - sha)), List.drop_left' (by rw [List.length_take]; omega),
        List.drop_zero, List.take_left' h2, List.append_assoc, show pad - sha + sha = pad by omega]

/-! ## HMAC -/

theorem xorLoop_eq (c : UInt8) : ∀ (n : Nat) (d t : List UInt8), n ≤ t.length →
    xorLoop c n d.length (d ++ t) = some (d ++ (t.take n).map (· ^^^ c) ++ t.drop n)
  | 0, d, t, _ => by simp [xorLoop]
  | n + 1, d, t, h => by
    obtain ⟨x, t, rfl⟩ : ∃ x u, t = x :: u := by
      cases t with
      | nil => simp at h
      | cons x u => exact ⟨x, u, rfl⟩
    rw [xorLoop, List.getElem?_append_right (le_refl _), Nat.sub_self, List.getElem?_cons_zero]
    simp only [Option.bind_eq_bind, Option.bind_some]
    rw [Amcl.GCM.setB_mid d (x :: t) (x ^^^ c) rfl (by simp), Option.bind_some, List.drop_one, List.tail_cons]
    have := xorLoop_eq c n (d ++ [x ^^^ c]) t (by simpa using h)
    rw [List.length_append, List.length_singleton] at this
    rw [this]
    simp

theorem slice_eq {l : List UInt8} {n : Nat} (h : n ≤ l.length) : slice l n = some (l.take n) := if_pos h

theorem length_key0 {sha : Nat} (hs : IsSha sha) {k : List UInt8} (hk : k.length + 17 ≤ 2 ^ 29) : (key0 sha k).length = blockLen sha := by
  have := hs.le
  have hb : 64 ≤ blockLen sha := by unfold blockLen; split <;> omega
  unfold key0
  dsimp only
  split
  · simp; omega
  · simp [length_H hs hk]; omega

theorem hmacKey_eq {sha : Nat} (hs : IsSha sha) {k : List UInt8} (hk : k.length + 17 ≤ 2 ^ 29) :
    hmacKey sha (blockLen sha) k = some (key0 sha k ++ List.replicate (128 - blockLen sha) 0) := by
  have h64 := hs.le
  have hd : data k 0 none = k := by simp [data]
  have hb : 64 ≤ blockLen sha ∧ blockLen sha ≤ 128 := by unfold blockLen; split <;> omega
  unfold hmacKey key0
  dsimp only
  by_cases c : k.length > blockLen sha
  · rw [if_pos c, if_neg (by omega), hashit_eq hs (by omega) (by rw [hd]; exact hk) (by simp; omega), hd]
    simp only [Option.bind_eq_bind, Option.bind_some]
    have hl := length_H hs hk
    rw [fit, if_pos rfl, copy_eq 0 0 sha _ _ (by simp; omega) (by simp; omega)]
    refine congrArg some ?_
    rw [List.take_zero, List.nil_append, List.drop_zero, List.take_left' hl, List.drop_replicate, List.append_assoc,
      List.replicate_append_replicate, hl]
    congr 2; omega
  · rw [if_neg c, if_pos (by omega), copy_eq 0 0 k.length _ _ (by omega) (by simp; omega)]
    refine congrArg some ?_
    rw [List.take_zero, List.nil_append, List.drop_zero, List.take_length, List.drop_replicate, List.append_assoc,
      List.replicate_append_replicate]
    congr 2; omega

/-- The block length that the code finds. -/
theorem lb_eq {sha : Nat} (hs : IsSha sha) : (if sha > 32 then 128 else 64) = blockLen sha := by
  unfold blockLen
  have := hs.pos
  split <;> split <;> omega

theorem xor_mask (l : List UInt8) : (l.map (· ^^^ 0x36)).map (· ^^^ 0x6a) = l.map (· ^^^ 0x5c) := by
  rw [List.map_map]
  refine List.map_congr_left fun x _ => ?_
  show x ^^^ 0x36 ^^^ 0x6a = x ^^^ 0x5c
  rw [UInt8.xor_assoc]; rfl

theorem length_hmac {sha : Nat} (hs : IsSha sha) {m k : List UInt8} (hm : m.length + 145 ≤ 2 ^ 29) (hk : k.length + 17 ≤ 2 ^ 29) :
    (Spec.Kdf.hmac sha k m).length = sha := by
  have hb : blockLen sha ≤ 128 := by unfold blockLen; split <;> omega
  have := hs.le
  refine length_H hs ?_
  rw [List.length_append, List.length_map, length_key0 hs hk, length_H hs (by
    rw [List.length_append, List.length_map, length_key0 hs hk]; omega)]
  omega

theorem hmac_eq {sha : Nat} (hs : IsSha sha) {m k : List UInt8} (hm : m.length + 145 ≤ 2 ^ 29) (hk : k.length + 17 ≤ 2 ^ 29)
    {olen : Nat} (ho : 4 ≤ olen) {tag : List UInt8} (ht : olen ≤ tag.length) :
    hmac sha m k olen tag = some (true, fit sha olen (Spec.Kdf.hmac sha k m) ++ tag.drop olen) := by
  have h64 := hs.le
  have hb : 64 ≤ blockLen sha ∧ blockLen sha ≤ 128 := by unfold blockLen; split <;> omega
  have hl := length_key0 hs hk
  have hx : ∀ (c : UInt8) (l : List UInt8), l.length = blockLen sha →
      xorLoop c (blockLen sha) 0 (l ++ List.replicate (128 - blockLen sha) 0) =
        some (l.map (· ^^^ c) ++ List.replicate (128 - blockLen sha) 0) := fun c l e => by
    have := xorLoop_eq c (blockLen sha) [] (l ++ List.replicate (128 - blockLen sha) 0) (by simp; omega)
    rw [List.length_nil, List.nil_append] at this
    rw [this, List.nil_append, List.take_left' e, List.drop_left' e]
  have hsl : ∀ (l : List UInt8), l.length = blockLen sha → slice (l ++ List.replicate (128 - blockLen sha) 0) (blockLen sha) = some l :=
    fun l e => by rw [slice_eq (by simp; omega), List.take_left' e]
  have d1 : data ((key0 sha k).map (· ^^^ 0x36)) 0 (some m) = (key0 sha k).map (· ^^^ 0x36) ++ m := by simp [data]
  have l1 : ((key0 sha k).map (· ^^^ 0x36) ++ m).length + 17 ≤ 2 ^ 29 := by rw [List.length_append, List.length_map, hl]; omega
  have e1 := length_H hs l1
  unfold hmac
  rw [if_neg (by omega)]
  simp only [lb_eq hs, hmacKey_eq hs hk, Option.bind_eq_bind, Option.bind_some, hx 0x36 _ hl, hsl _ (by rw [List.length_map, hl] : ((key0 sha k).map (· ^^^ 0x36)).length = _)]
  rw [hashit_eq hs (by omega) (by rw [d1]; exact l1) (by simp; omega), d1, fit, if_pos rfl, Option.bind_some, hx 0x6a _ (by rw [List.length_map, hl]), Option.bind_some, xor_mask,
    hsl _ (by rw [List.length_map, hl]), Option.bind_some, slice_eq (by simp; omega), List.take_left' e1, Option.bind_some]
  have d2 : data ((key0 sha k).map (· ^^^ 0x5c)) 0 (some (H sha ((key0 sha k).map (· ^^^ 0x36) ++ m))) =
      (key0 sha k).map (· ^^^ 0x5c) ++ H sha ((key0 sha k).map (· ^^^ 0x36) ++ m) := by simp [data]
  have l2 : ((key0 sha k).map (· ^^^ 0x5c) ++ H sha ((key0 sha k).map (· ^^^ 0x36) ++ m)).length + 17 ≤ 2 ^ 29 := by
    rw [List.length_append, List.length_map, hl, e1]; omega
  rw [hashit_eq hs (by omega) (by rw [d2]; exact l2) (by rw [if_neg (by omega)]; exact ht), d2, if_neg (by omega), Option.bind_some]
  rfl

/-! ## KDF -/

/-- The blocks that `kdf1` and `kdf2` make: as in the reference, but without the number if it is 0. -/
noncomputable def cblocks (sha : Nat) (z : List UInt8) (p : Option (List UInt8)) : Nat → Nat → List UInt8
  | 0, _ => []
  | n + 1, c => H sha (data z c p) ++ cblocks sha z p n (c + 1)

theorem cblocks_eq (sha : Nat) (z : List UInt8) (p : Option (List UInt8)) : ∀ n c, 0 < c → cblocks sha z p n c = Spec.Kdf.blocks sha z (p.getD []) n c
  | 0, _, _ => rfl
  | n + 1, c, h => by
    rw [cblocks, Spec.Kdf.blocks, cblocks_eq sha z p n (c + 1) (by omega), data, if_pos h]

theorem length_data (a : List UInt8) (n : Nat) (b : Option (List UInt8)) : (data a n b).length ≤ a.length + 4 + (b.getD []).length := by
  unfold data
  rw [List.length_append, List.length_append]
  split
  · simp [Spec.toBE]
  · simp

theorem length_cblocks {sha : Nat} (hs : IsSha sha) {z : List UInt8} {p : Option (List UInt8)} (hl : z.length + 4 + (p.getD []).length + 17 ≤ 2 ^ 29) :
    ∀ n c, (cblocks sha z p n c).length = sha * n
  | 0, _ => rfl
  | n + 1, c => by
    have := length_data z c p
    rw [cblocks, List.length_append, length_cblocks hs hl n, length_H hs (by omega), Nat.mul_succ]; omega

theorem kdfLoop_eq {sha : Nat} (hs : IsSha sha) {z : List UInt8} {p : Option (List UInt8)} (hl : z.length + 4 + (p.getD []).length + 17 ≤ 2 ^ 29)
    (olen : Nat) : ∀ (n c : Nat) (d t : List UInt8), c + n ≤ 2 ^ 32 → d.length + t.length ≥ olen → d.length ≤ olen →
      sha * n ≥ olen - d.length → sha * n < olen - d.length + sha → sha ∣ d.length → 
      kdfLoop sha z p olen n c d.length (d ++ t) = some (d ++ (cblocks sha z p n c).take (olen - d.length) ++ t.drop (olen - d.length))
  | 0, c, d, t, _, _, h1, h2, h3, _ => by
    have : olen - d.length = 0 := by omega
    rw [kdfLoop, this]; simp
  | n + 1, c, d, t, hc, ht, h1, h2, h3, hd => by
    have hp := hs.pos
    have h64 := hs.le
    rw [Nat.mul_succ] at h2 h3
    have hdat := length_data z c p
    have hH := length_H hs (m := data z c p) (by omega)
    have hlt : d.length < olen := by omega
    rw [kdfLoop, hashit_eq hs (by omega) (by omega) (by simp; omega), fit, if_pos rfl, if_pos rfl, Option.bind_eq_bind, Option.bind_some]
    dsimp only
    obtain ⟨q, hq⟩ := hd
    by_cases c1 : d.length + sha > olen
    · have hm : olen % sha = olen - d.length := by
        conv_lhs => rw [show olen = (olen - d.length) + sha * q by omega, Nat.add_mul_mod_self_left]
        exact Nat.mod_eq_of_lt (by omega)
      rw [if_pos c1, hm, copy_eq _ _ _ _ _ (by simp; omega) (by simp; omega), Option.bind_some]
      have hn : n = 0 := by
        by_contra hne
        have : sha * 1 ≤ sha * n := Nat.mul_le_mul_left _ (by omega)
        omega
      subst hn
      rw [kdfLoop, cblocks, cblocks, List.append_nil]
      refine congrArg some ?_
      rw [List.take_left' rfl, List.drop_zero, List.take_append_of_le_length (by omega), List.drop_append,
        List.drop_eq_nil_of_le (by omega : d.length ≤ d.length + (olen - d.length)), List.nil_append]
      congr 2; omega
    · rw [if_neg c1, copy_eq _ _ _ _ _ (by simp; omega) (by simp; omega), Option.bind_some]
      rw [List.take_left' rfl, List.drop_zero, List.take_left' hH, List.drop_append,
        List.drop_eq_nil_of_le (by omega : d.length ≤ d.length + sha), List.nil_append, show d.length + sha - d.length = sha by omega]
      have ih := kdfLoop_eq hs hl olen n (c + 1) (d ++ H sha (data z c p)) (t.drop sha) (by omega) (by simp; omega) (by simp; omega)
        (by simp; omega) (by simp; omega) (by rw [List.length_append, hH]; exact Nat.dvd_add ⟨q, hq⟩ (dvd_refl _))
      rw [List.length_append, hH] at ih
      rw [ih, cblocks, List.take_append, hH, List.take_of_length_le (by omega : (H sha (data z c p)).length ≤ olen - d.length), List.drop_drop,
        show olen - (d.length + sha) = olen - d.length - sha by omega, show sha + (olen - d.length - sha) = olen - d.length by omega]
      simp only [List.append_assoc]

theorem threshold_eq {sha : Nat} (hs : 0 < sha) (olen : Nat) : threshold sha olen = some (ceilDiv olen sha) := by
  rw [threshold, if_neg (by omega)]
  refine congrArg some ?_
  unfold ceilDiv
  have h := Nat.div_add_mod olen sha
  have hm := Nat.mod_lt olen hs
  split
  · rename_i c
    symm
    rw [Nat.div_eq_iff hs]
    have : (olen / sha + 1) * sha = sha * (olen / sha) + sha := by rw [Nat.add_mul, Nat.mul_comm]; omega
    omega
  · rename_i c
    symm
    rw [Nat.div_eq_iff hs]
    have : olen / sha * sha = sha * (olen / sha) := Nat.mul_comm _ _
    omega

theorem ceil_bounds {sha : Nat} (hs : 0 < sha) (olen : Nat) : sha * ceilDiv olen sha ≥ olen ∧ sha * ceilDiv olen sha < olen + sha := by
  unfold ceilDiv
  have h := Nat.div_add_mod (olen + sha - 1) sha
  have hm := Nat.mod_lt (olen + sha - 1) hs
  omega

theorem kdfAll_eq {sha : Nat} (hs : IsSha sha) {z : List UInt8} {p : Option (List UInt8)} (hl : z.length + 4 + (p.getD []).length + 17 ≤ 2 ^ 29)
    {olen : Nat} {k : List UInt8} (ho : olen ≤ k.length) {c : Nat} (hc : c + ceilDiv olen sha ≤ 2 ^ 32) :
    kdfLoop sha z p olen (ceilDiv olen sha) c 0 k = some ((cblocks sha z p (ceilDiv olen sha) c).take olen ++ k.drop olen) := by
  have hb := ceil_bounds (by have := hs.pos; omega : 0 < sha) olen
  exact kdfLoop_eq hs hl olen (ceilDiv olen sha) c [] k hc (by simpa using ho) (by simp) (by simpa using hb.1) (by simpa using hb.2) (by simp)

end ecdh

end Amcl
