import Verif.Proof.Ecdh
/-!
# PBKDF2 of `ecdh.rs`
-/

namespace Amcl

namespace ecdh

open SHA3 (setB)
open NHS (copy clear)
open Spec (toBE)
open Spec.Kdf (H blockLen key0 ceilDiv)

/-- `U_(j+1)` as `pbkdf2` computes it: the hash value is filled up with zeros to 64 bytes before it is hashed again. -/
noncomputable def chain (sha : Nat) (pass u : List UInt8) : Nat → List UInt8
  | 0 => Spec.Kdf.hmac sha pass u
  | j + 1 => Spec.Kdf.hmac sha pass (chain sha pass u j ++ List.replicate (64 - sha) 0)

/-- The sum of `U_1 … U_(c+1)`. -/
noncomputable def chainSum (sha : Nat) (pass u : List UInt8) : Nat → List UInt8
  | 0 => chain sha pass u 0
  | j + 1 => List.zipWith (· ^^^ ·) (chainSum sha pass u j) (chain sha pass u (j + 1))

/-- The first 32 bytes of every sum, for `n` blocks from number `i`. -/
noncomputable def heads (sha : Nat) (pass salt : List UInt8) (rep : Nat) : Nat → Nat → List UInt8
  | 0, _ => []
  | n + 1, i => (chainSum sha pass (salt ++ toBE 4 i) (rep - 1)).take 32 ++ heads sha pass salt rep n (i + 1)

theorem sb {α β : Type} (a : α) (f : α → Option β) : (some a >>= f) = f a := rfl

theorem length_chain {sha : Nat} (hs : IsSha sha) {pass u : List UInt8} (hk : pass.length + 17 ≤ 2 ^ 29) (hu : u.length + 145 ≤ 2 ^ 29) :
    ∀ j, (chain sha pass u j).length = sha
  | 0 => length_hmac hs hu hk
  | j + 1 => by
    have := length_chain hs hk hu j
    have := hs.le
    exact length_hmac hs (by simp; omega) hk

theorem length_chainSum {sha : Nat} (hs : IsSha sha) {pass u : List UInt8} (hk : pass.length + 17 ≤ 2 ^ 29) (hu : u.length + 145 ≤ 2 ^ 29) :
    ∀ j, (chainSum sha pass u j).length = sha
  | 0 => length_chain hs hk hu 0
  | j + 1 => by
    rw [chainSum, List.length_zipWith, length_chainSum hs hk hu j, length_chain hs hk hu, Nat.min_self]

theorem exists_cons {t : List UInt8} {n : Nat} (h : n + 1 ≤ t.length) : ∃ x u, t = x :: u ∧ n ≤ u.length := by
  cases t with
  | nil => simp at h
  | cons x u => exact ⟨x, u, rfl, by simpa using h⟩

theorem mixLoop_eq : ∀ (n : Nat) (dk tk du tu df tf : List UInt8), du.length = dk.length → df.length = dk.length → n ≤ tk.length →
    n ≤ tu.length → n ≤ tf.length → mixLoop (dk ++ tk) n dk.length (du ++ tu) (df ++ tf) =
      some (du ++ tk.take n ++ tu.drop n, df ++ List.zipWith (· ^^^ ·) (tf.take n) (tk.take n) ++ tf.drop n)
  | 0, dk, tk, du, tu, df, tf, _, _, _, _, _ => by simp [mixLoop]
  | n + 1, dk, tk, du, tu, df, tf, h1, h2, h3, h4, h5 => by
    obtain ⟨xk, tk, rfl, h3'⟩ := exists_cons h3
    obtain ⟨xu, tu, rfl, h4'⟩ := exists_cons h4
    obtain ⟨xf, tf, rfl, h5'⟩ := exists_cons h5
    rw [mixLoop, List.getElem?_append_right (le_refl _), Nat.sub_self, List.getElem?_cons_zero]
    simp only [sb]
    rw [Amcl.GCM.setB_mid du (xu :: tu) xk h1 (by simp), sb, List.drop_one, List.tail_cons, ← h2,
      List.getElem?_append_right (le_refl _), Nat.sub_self, List.getElem?_cons_zero, sb, h2, ← h1, List.append_assoc,
      List.getElem?_append_right (le_refl _), Nat.sub_self, List.singleton_append, List.getElem?_cons_zero, sb,
      Amcl.GCM.setB_mid df (xf :: tf) _ (by omega) (by simp), sb, List.drop_one, List.tail_cons]
    have := mixLoop_eq n (dk ++ [xk]) tk (du ++ [xk]) tu (df ++ [xf ^^^ xk]) tf (by simp [h1]) (by simp [h2]) h3' h4' h5'
    rw [List.length_append, List.length_singleton, List.append_assoc dk, List.append_assoc du, List.singleton_append, List.singleton_append] at this
    rw [h1, this]
    simp

theorem repLoop_wp {sha : Nat} (hs : IsSha sha) {pass u : List UInt8} (hk : pass.length + 17 ≤ 2 ^ 29) (hu : u.length + 145 ≤ 2 ^ 29) :
    ∀ (n j : Nat) (K : List UInt8), K.length = sha →
      ∃ U' K', U'.length = sha ∧ K'.length = sha ∧
        repLoop sha pass n (chain sha pass u j ++ List.replicate (64 - sha) 0) (K ++ List.replicate (64 - sha) 0)
          (chainSum sha pass u j ++ List.replicate (64 - sha) 0) =
        some (U' ++ List.replicate (64 - sha) 0, K' ++ List.replicate (64 - sha) 0, chainSum sha pass u (j + n) ++ List.replicate (64 - sha) 0)
  | 0, j, K, h => ⟨_, K, length_chain hs hk hu j, h, rfl⟩
  | n + 1, j, K, h => by
    have h64 := hs.le
    have hp := hs.pos
    have l1 := length_chain hs hk hu j
    have l2 := length_chain hs hk hu (j + 1)
    have l3 := length_chainSum hs hk hu j
    rw [repLoop, hmac_eq hs (by simp; omega) hk (by omega) (by simp; omega), sb]
    dsimp only
    have hf : fit sha sha (Spec.Kdf.hmac sha pass (chain sha pass u j ++ List.replicate (64 - sha) 0)) = chain sha pass u (j + 1) := by
      rw [fit, if_neg (by omega), if_pos (le_refl _), List.take_of_length_le (by rw [chain] at l2; omega)]; rfl
    rw [hf, List.drop_left' h]
    have := mixLoop_eq sha [] (chain sha pass u (j + 1) ++ List.replicate (64 - sha) 0) [] (chain sha pass u j ++ List.replicate (64 - sha) 0)
      [] (chainSum sha pass u j ++ List.replicate (64 - sha) 0) rfl rfl (by simp; omega) (by simp; omega) (by simp; omega)
    simp only [List.length_nil, List.nil_append] at this
    rw [this, List.take_left' l2, List.drop_left' l1, List.take_left' l3, List.drop_left' l3, ← chainSum, sb]
    dsimp only
    obtain ⟨U', K', g1, g2, g3⟩ := repLoop_wp hs hk hu n (j + 1) (chain sha pass u (j + 1)) l2
    exact ⟨U', K', g1, g2, by rw [g3, show j + 1 + n = j + (n + 1) by omega]⟩

theorem intLoop_eq : ∀ (j m v : Nat) (suf : List UInt8), v ≤ m → intLoop j m (toBE j v ++ suf) = some (toBE j m ++ suf)
  | 0, m, v, suf, _ => rfl
  | j + 1, m, v, suf, h => by
    rw [intLoop]
    by_cases c : m = 0
    · subst c
      rw [if_pos rfl, show v = 0 by omega]; rfl
    · rw [if_neg c, toBE, List.append_assoc, List.singleton_append, Amcl.GCM.setB_mid _ _ _ (Spec.length_toBE j _) (by simp), sb, List.drop_one, List.tail_cons, List.append_assoc, intLoop_eq j (m / 256) (v / 256) _ (by omega), toBE, List.append_assoc]

theorem inttobytes_eq {n v : Nat} (h : v ≤ n) : inttobytes n (toBE 4 v) = some (toBE 4 n) := by
  rw [inttobytes, Spec.length_toBE]
  have := intLoop_eq 4 n v [] h
  rwa [List.append_nil, List.append_nil] at this

theorem outLoop_done (f : List UInt8) (olen p : Nat) : ∀ (n j : Nat) (k : List UInt8), olen ≤ p + j → outLoop f olen p n j k = some k
  | 0, _, _, _ => rfl
  | n + 1, j, k, h => by
    rw [outLoop, if_neg (by omega), sb]
    exact outLoop_done f olen p n (j + 1) k (by omega)

theorem outLoop_eq (olen p : Nat) : ∀ (n : Nat) (df tf d t : List UInt8), d.length = p + df.length → olen ≤ d.length + t.length →
    n ≤ tf.length → outLoop (df ++ tf) olen p n df.length (d ++ t) =
      some (d ++ (tf.take n).take (olen - d.length) ++ t.drop (min n (olen - d.length)))
  | 0, df, tf, d, t, _, _, _ => by simp [outLoop]
  | n + 1, df, tf, d, t, h1, h2, h3 => by
    by_cases c : p + df.length < olen
    · obtain ⟨x, tf, rfl, h3'⟩ := exists_cons h3
      obtain ⟨y, t, rfl, h2'⟩ := exists_cons (n := olen - d.length - 1) (t := t) (by omega)
      rw [outLoop, if_pos c, List.getElem?_append_right (le_refl _), Nat.sub_self, List.getElem?_cons_zero]
      simp only [sb]
      rw [Amcl.GCM.setB_mid d (y :: t) x h1 (by simp), sb, List.drop_one, List.tail_cons]
      have := outLoop_eq olen p n (df ++ [x]) tf (d ++ [x]) t (by simp; omega) (by simp at h2 ⊢; omega) h3'
      rw [List.length_append, List.length_singleton, List.append_assoc df, List.singleton_append, List.length_append, List.length_singleton] at this
      rw [this, show olen - d.length = (olen - (d.length + 1)) + 1 by omega, List.take_succ_cons, List.take_succ_cons, Nat.add_min_add_right,
        List.drop_succ_cons]
      simp
    · rw [outLoop_done _ _ _ _ _ _ (by omega), show olen - d.length = 0 by omega]
      simp

/-- The state between two rounds. -/
structure Between (sha i : Nat) (v : Pb) : Prop where
  f : ∃ F, F.length = sha ∧ v.f = F ++ List.replicate (64 - sha) 0
  u : ∃ F, F.length = sha ∧ v.u = F ++ List.replicate (64 - sha) 0
  ku : ∃ F, F.length = sha ∧ v.ku = F ++ List.replicate (64 - sha) 0
  s : v.s.length = 36
  n : v.n = toBE 4 i

theorem pbRound_wp {sha : Nat} (hs : IsSha sha) {pass salt : List UInt8} (hk : pass.length + 17 ≤ 2 ^ 29) (hsl : salt.length ≤ 32)
    (rep olen i : Nat) {v : Pb} (hv : Between sha i v) {d t : List UInt8} (hd : d.length = i * 32) (ht : olen ≤ d.length + t.length) (he : v.k = d ++ t) :
    ∃ v', pbRound sha pass salt rep olen i v = some v' ∧ Between sha (i + 1) v' ∧
      v'.k = d ++ ((chainSum sha pass (salt ++ toBE 4 (i + 1)) (rep - 1)).take 32).take (olen - d.length) ++ t.drop (min 32 (olen - d.length)) := by
  have h64 := hs.le
  have hp := hs.pos
  obtain ⟨⟨F, lF, eF⟩, ⟨U, lU, eU⟩, ⟨K, lK, eK⟩, hS, hn⟩ := hv
  have l4 : (toBE 4 (i + 1)).length = 4 := Spec.length_toBE _ _
  have lS : (salt ++ toBE 4 (i + 1)).length + 145 ≤ 2 ^ 29 := by rw [List.length_append, l4]; omega
  have lH := length_hmac hs lS hk
  rw [pbRound]
  dsimp only
  rw [copy_eq 0 0 salt.length salt v.s (by omega) (by omega), hn, inttobytes_eq (by omega), sb, sb,
    List.take_zero, List.nil_append, List.drop_zero, List.take_length, Nat.zero_add,
    copy_eq salt.length 0 4 _ _ (by omega) (by simp; omega), sb, List.take_left' rfl, List.drop_zero, List.take_of_length_le (by omega : (toBE 4 (i + 1)).length ≤ 4),
    slice_eq (by simp; omega), List.take_left' (by rw [List.length_append, l4]), sb, eF,
    hmac_eq hs lS hk (by omega) (by simp; omega), sb]
  dsimp only
  have hf : fit sha sha (Spec.Kdf.hmac sha pass (salt ++ toBE 4 (i + 1))) = chain sha pass (salt ++ toBE 4 (i + 1)) 0 := by
    rw [fit, if_neg (by omega), if_pos (le_refl _), chain, List.take_of_length_le (by omega)]
  rw [hf, List.drop_left' lF, copy_eq 0 0 sha _ _ (by simp [length_chain hs hk lS]) (by rw [eU]; simp; omega), sb, List.take_zero,
    List.nil_append, List.drop_zero, List.take_left' (length_chain hs hk lS 0), eU, Nat.zero_add, List.drop_left' lU, eK]
  obtain ⟨U', K', g1, g2, g3⟩ := repLoop_wp hs hk lS (rep - 1) 0 K lK
  rw [show chainSum sha pass (salt ++ toBE 4 (i + 1)) 0 = chain sha pass (salt ++ toBE 4 (i + 1)) 0 from rfl] at g3
  rw [g3, sb]
  dsimp only
  have lC := length_chainSum hs hk lS (rep - 1)
  rw [Nat.zero_add, he]
  have := outLoop_eq olen (i * 32) 32 [] (chainSum sha pass (salt ++ toBE 4 (i + 1)) (rep - 1) ++ List.replicate (64 - sha) 0) d t (by simpa using hd) ht (by simp; omega)
  rw [List.length_nil, List.nil_append, List.take_append_of_le_length (by omega)] at this
  rw [EFS, this, sb]
  refine ⟨_, rfl, ⟨⟨_, lC, rfl⟩, ⟨_, g1, rfl⟩, ⟨_, g2, rfl⟩, ?_, rfl⟩, rfl⟩
  simp; omega

theorem pbLoop_wp {sha : Nat} (hs : IsSha sha) {pass salt : List UInt8} (hk : pass.length + 17 ≤ 2 ^ 29) (hsl : salt.length ≤ 32)
    (rep olen : Nat) : ∀ (n i : Nat) {v : Pb} {d t : List UInt8}, Between sha i v → d.length = i * 32 → olen ≤ d.length + t.length → v.k = d ++ t →
      (∀ j, j < i + n → j * 32 < olen) → (heads sha pass salt rep n (i + 1)).length = n * 32 ∧
      ∃ v', pbLoop sha pass salt rep olen n i v = some v' ∧
        v'.k = d ++ (heads sha pass salt rep n (i + 1)).take (olen - d.length) ++ t.drop (min (n * 32) (olen - d.length))
  | 0, i, v, d, t, hv, hd, ht, he, _ => ⟨rfl, v, rfl, by simp [heads, he]⟩
  | n + 1, i, v, d, t, hv, hd, ht, he, hj => by
    obtain ⟨v1, e1, h1, h2⟩ := pbRound_wp hs hk hsl rep olen i hv hd ht he
    have lS : (salt ++ toBE 4 (i + 1)).length + 145 ≤ 2 ^ 29 := by rw [List.length_append, Spec.length_toBE]; omega
    have lC := length_chainSum hs hk lS (rep - 1)
    have hp := hs.pos
    have lT : ((chainSum sha pass (salt ++ toBE 4 (i + 1)) (rep - 1)).take 32).length = 32 := by rw [List.length_take]; omega
    rw [heads]
    by_cases c : olen - d.length < 32
    · have hn : n = 0 := by
        by_contra hne
        have := hj (i + 1) (by omega)
        omega
      subst hn
      refine ⟨by rw [List.length_append, lT]; rfl, v1, by rw [pbLoop, e1]; rfl, ?_⟩
      rw [h2, heads, List.append_nil]
    · rw [Nat.min_eq_left (by omega), List.take_of_length_le (l := (chainSum sha pass (salt ++ toBE 4 (i + 1)) (rep - 1)).take 32) (by omega)] at h2
      obtain ⟨g1, v', e2, g2⟩ := pbLoop_wp hs hk hsl rep olen n (i + 1) h1 (by rw [List.length_append, lT]; omega)
        (by rw [List.length_append, lT, List.length_drop]; omega) h2 (fun j hj' => hj j (by omega))
      refine ⟨by rw [List.length_append, lT, g1]; omega, v', by rw [pbLoop, e1]; exact e2, ?_⟩
      rw [g2, List.length_append, lT, List.take_append, lT, List.take_of_length_le (l := (chainSum sha pass (salt ++ toBE 4 (i + 1)) (rep - 1)).take 32) (by omega),
        List.drop_drop, show olen - (d.length + 32) = olen - d.length - 32 by omega, show 32 + min (n * 32) (olen - d.length - 32) = min ((n + 1) * 32) (olen - d.length) by omega]
      simp only [List.append_assoc]

theorem pbkdf2_eq {sha : Nat} (hs : IsSha sha) {pass salt : List UInt8} (hk : pass.length + 17 ≤ 2 ^ 29) (hsl : salt.length ≤ 32)
    (rep : Nat) {olen : Nat} {k : List UInt8} (ho : olen ≤ k.length) :
    pbkdf2 sha pass salt rep olen k = some ((heads sha pass salt rep (ceilDiv olen sha) 1).take olen ++ k.drop (min (ceilDiv olen sha * 32) olen)) ∧
      (heads sha pass salt rep (ceilDiv olen sha) 1).length = ceilDiv olen sha * 32 := by
  have h64 := hs.le
  have hp := hs.pos
  have hz : List.replicate 64 (0 : UInt8) = List.replicate sha 0 ++ List.replicate (64 - sha) 0 := by
    rw [List.replicate_append_replicate]; congr 1; omega
  rw [pbkdf2, threshold_eq (by omega), sb]
  dsimp only
  have hb : Between sha 0 ⟨List.replicate 64 0, List.replicate 64 0, List.replicate 64 0, List.replicate 36 0, List.replicate 4 0, k⟩ :=
    ⟨⟨_, List.length_replicate, hz⟩, ⟨_, List.length_replicate, hz⟩, ⟨_, List.length_replicate, hz⟩, List.length_replicate, rfl⟩
  obtain ⟨g1, v', e, g2⟩ := pbLoop_wp hs hk hsl rep olen (ceilDiv olen sha) 0 (d := []) (t := k) hb rfl (by simpa using ho) rfl (fun j hj => by
    have hc := ceil_bounds (by omega : 0 < sha) olen
    have h1 : sha * (j + 1) ≤ sha * ceilDiv olen sha := Nat.mul_le_mul_left _ (by omega)
    have h2 : 32 * j ≤ sha * j := Nat.mul_le_mul_right _ hp
    rw [Nat.mul_succ] at h1
    omega)
  refine ⟨?_, g1⟩
  rw [e, sb]
  refine congrArg some ?_
  rw [g2]
  simp

/-- Salts of more than 32 bytes. -/
theorem pbkdf2_salt {sha : Nat} (hs : IsSha sha) {salt : List UInt8} (hsl : 32 < salt.length) (pass : List UInt8) (rep : Nat) {olen : Nat} (ho : 0 < olen)
    (k : List UInt8) : pbkdf2 sha pass salt rep olen k = none := by
  have hp := hs.pos
  have hc := ceil_bounds (by omega : 0 < sha) olen
  rw [pbkdf2, threshold_eq (by omega), sb]
  dsimp only
  obtain ⟨n, hn⟩ : ∃ n, ceilDiv olen sha = n + 1 := by
    cases h : ceilDiv olen sha with
    | zero => rw [h] at hc; omega
    | succ n => exact ⟨n, rfl⟩
  rw [hn, pbLoop, pbRound]
  dsimp only
  by_cases c : salt.length ≤ 36
  · rw [copy_eq 0 0 salt.length salt _ (by omega) (by simp; omega), sb, List.take_zero, List.nil_append, List.drop_zero,
      List.take_length, Nat.zero_add, show List.replicate 4 (0 : UInt8) = toBE 4 0 by decide, inttobytes_eq (by omega), sb,
      NHS.copy_none salt.length 0 _ 4 0 _ (Or.inl (by simp; omega)) (by omega)]
    rfl
  · rw [NHS.copy_none 0 0 salt salt.length 0 _ (Or.inl (by simp; omega)) (by omega)]
    rfl

end ecdh

end Amcl
