import Verif.Model.Hash256
import Verif.Proof.Machine
import Verif.Spec.Sha256
import Mathlib.Tactic.IntervalCases
import Mathlib.Tactic.Linarith
/-!
# The hash of `hash256.rs` is SHA-256
-/

namespace Amcl.HASH256

open Spec Spec.Sha256

/-! ### Constants -/

theorem cbrt_eq {m k : Nat} (h1 : k ^ 3 ≤ m) (h2 : m < (k + 1) ^ 3) : cbrt m = k := by
  apply le_antisymm
  · by_contra h
    have : cbrt m ^ 3 ≤ m := Nat.findGreatest_spec (P := fun n => n ^ 3 ≤ m) (m := 0) (Nat.zero_le _) (Nat.zero_le _)
    have : (k + 1) ^ 3 ≤ cbrt m ^ 3 := Nat.pow_le_pow_left (by omega) 3
    omega
  · refine Nat.le_findGreatest (P := fun n => n ^ 3 ≤ m) ?_ h1
    exact (Nat.le_self_pow (by norm_num) k).trans h1

/-- The first 64 primes. -/
def primes : List Nat := [2, 3, 5, 7, 11, 13, 17, 19, 23, 29, 31, 37, 41, 43, 47, 53, 59, 61, 67, 71, 73, 79, 83, 89,
  97, 101, 103, 107, 109, 113, 127, 131, 137, 139, 149, 151, 157, 163, 167, 173, 179, 181, 191, 193, 197, 199, 211,
  223, 227, 229, 233, 239, 241, 251, 257, 263, 269, 271, 277, 281, 283, 293, 307, 311]

/-- A prime test that the kernel can evaluate. -/
def isPrime (n : Nat) : Bool := 2 ≤ n && (List.range n).all fun m => m < 2 || n % m != 0

theorem isPrime_iff (n : Nat) : isPrime n = true ↔ n.Prime := by
  rw [isPrime, Nat.prime_def_lt']
  simp only [Bool.and_eq_true, decide_eq_true_eq, List.all_eq_true, List.mem_range, Bool.or_eq_true, bne_iff_ne, ne_eq,
    Nat.dvd_iff_mod_eq_zero]
  refine and_congr_right fun _ => ⟨fun h m h2 hm => (h m hm).resolve_left (by omega), fun h m hm => ?_⟩
  by_cases h2 : m < 2
  · exact .inl h2
  · exact .inr (h m (by omega) hm)

/-- The number of primes below `n`. -/
def primeCount : Nat → Nat
  | 0 => 0
  | n + 1 => primeCount n + if isPrime n then 1 else 0

theorem primeCount_eq (n : Nat) : primeCount n = Nat.count Nat.Prime n := by
  induction n with
  | zero => simp [primeCount]
  | succ n ih =>
    rw [primeCount, ih, Nat.count_succ]
    simp only [isPrime_iff]

theorem nth_prime (t : Nat) (ht : t < 64) : Nat.nth Nat.Prime t = primes[t]! := by
  have h : ∀ t < 64, isPrime primes[t]! = true ∧ primeCount primes[t]! = t := by decide +kernel
  obtain ⟨h1, h2⟩ := h t ht
  rw [isPrime_iff] at h1
  rw [primeCount_eq] at h2
  have := Nat.nth_count h1
  rwa [h2] at this

/-- The integer parts of the scaled cube roots. -/
def roots : List Nat := [5411319704, 6194414737, 7344290767, 8215976869, 9551921755, 10098905585, 11043570340, 11460697813,
  12214315672, 13195500289, 13492127166, 14311783875, 14809980276, 15046980094, 15499789991,
  16133124468, 16720292289, 16907126662, 17444216262, 17784676812, 17950125167, 18429019306,
  18734950876, 19175934170, 19734090066, 20001703533, 20132865992, 20390182855, 20516441075,
  20764397895, 21588763473, 21813078375, 22141143685, 22248366392, 22769593852, 22871018771,
  23170020180, 23461497531, 23651862830, 23931792517, 24205322401, 24295138891, 24734567280,
  24820601251, 24990902297, 25075189284, 25569408389, 26045227120, 26200031510, 26276752392,
  26428864332, 26653801653, 26727943347, 27092625994, 27306805839, 27517677555, 27725365998,
  27793908591, 27997534228, 28131656200, 28198240250, 28526537963, 28973835255, 29099129074]

theorem K_val : ∀ t : Fin 64, (K[t.val]).toBitVec = BitVec.ofNat 32 roots[t.val]! := by
  decide +kernel

theorem K_eq (t : Nat) (ht : t < 64) : (K[t]).toBitVec = Sha256.K t := by
  have h : ∀ t < 64, roots[t]! ^ 3 ≤ primes[t]! * 2 ^ 96 ∧ primes[t]! * 2 ^ 96 < (roots[t]! + 1) ^ 3 := by
    decide +kernel
  rw [K_val ⟨t, ht⟩, Sha256.K, nth_prime t ht, cbrt_eq (h t ht).1 (h t ht).2]

/-- The integer parts of the scaled square roots. -/
def sqrts : List Nat := [6074000999, 7439101573, 9603838834, 11363415354, 14244795007, 15485724812, 17708603819, 18721328409]

theorem H0_val : ∀ t : Fin 8, (H0[t.val]).toBitVec = BitVec.ofNat 32 sqrts[t.val]! := by
  decide +kernel

theorem H0_eq (t : Nat) (ht : t < 8) : (H0[t]).toBitVec = Sha256.H0 t := by
  have h : ∀ t < 8, sqrts[t]! ^ 2 ≤ primes[t]! * 2 ^ 64 ∧ primes[t]! * 2 ^ 64 < (sqrts[t]! + 1) ^ 2 := by
    decide +kernel
  rw [H0_val ⟨t, ht⟩, Sha256.H0, nth_prime t (by omega), Nat.eq_sqrt'.2 (h t ht)]

/-! ### Word functions -/

theorem sig0_eq (x : UInt32) : (sig0 x).toBitVec = bsig0 x.toBitVec := rfl
theorem sig1_eq (x : UInt32) : (sig1 x).toBitVec = bsig1 x.toBitVec := rfl
theorem theta0_eq (x : UInt32) : (theta0 x).toBitVec = ssig0 x.toBitVec := rfl
theorem theta1_eq (x : UInt32) : (theta1 x).toBitVec = ssig1 x.toBitVec := rfl
theorem ch_eq (x y z : UInt32) : (ch x y z).toBitVec = Sha256.ch x.toBitVec y.toBitVec z.toBitVec := rfl
theorem maj_eq (x y z : UInt32) : (maj x y z).toBitVec = Sha256.maj x.toBitVec y.toBitVec z.toBitVec := rfl

/-! ### The compression function -/

/-- The hash words as a state of the specification. -/
def st (h : Vector UInt32 8) : State :=
  ⟨h[0].toBitVec, h[1].toBitVec, h[2].toBitVec, h[3].toBitVec,
    h[4].toBitVec, h[5].toBitVec, h[6].toBitVec, h[7].toBitVec⟩

/-- The working variables as a state of the specification. -/
def vst (v : Vars) : State :=
  ⟨v.a.toBitVec, v.b.toBitVec, v.c.toBitVec, v.d.toBitVec, v.e.toBitVec, v.f.toBitVec, v.g.toBitVec, v.hh.toBitVec⟩

theorem setAt_wp {α : Type} {n : Nat} (a : Vector α n) (i : Nat) (v : α) (h : i < n) :
    setAt a i v = some (a.set i v) := dif_pos h

theorem round_eq (v : Vars) (k w : UInt32) : vst (round v k w) = step (vst v) k.toBitVec w.toBitVec := rfl

theorem schedule_wp (block : List UInt8) : ∀ (n j : Nat) (w : Vector UInt32 64), 16 ≤ j → j + n = 64 →
    (∀ i (h : i < 64), i < j → (w[i]).toBitVec = W block i) →
    Wp (schedule n j w) fun w' => ∀ i (h : i < 64), (w'[i]).toBitVec = W block i
  | 0, j, w, _, hj, hw => by
    rw [schedule]
    exact ⟨w, rfl, fun i h => hw i h (by omega)⟩
  | n + 1, j, w, h16, hj, hw => by
    rw [schedule, Vector.getElem?_eq_getElem (by omega : j - 2 < 64), Vector.getElem?_eq_getElem (by omega : j - 7 < 64),
      Vector.getElem?_eq_getElem (by omega : j - 15 < 64), Vector.getElem?_eq_getElem (by omega : j - 16 < 64)]
    simp only [Option.bind_eq_bind, Option.bind_some]
    rw [setAt_wp _ _ _ (by omega : j < 64), Option.bind_some]
    refine schedule_wp block n (j + 1) _ (by omega) (by omega) fun i h hi => ?_
    rw [Vector.getElem_set]
    split
    · subst i
      rw [W, if_neg (by omega)]
      simp only [UInt32.toBitVec_add, theta0_eq, theta1_eq]
      rw [hw _ _ (by omega), hw _ _ (by omega), hw _ _ (by omega), hw _ _ (by omega)]
    · exact hw i h (by omega)

theorem rounds_wp (block : List UInt8) (s : State) (w : Vector UInt32 64)
    (hw : ∀ i (h : i < 64), (w[i]).toBitVec = W block i) : ∀ (n j : Nat) (v : Vars), j + n = 64 →
    vst v = Sha256.rounds block s j → Wp (rounds w n j v) fun v' => vst v' = Sha256.rounds block s 64
  | 0, j, v, hj, hv => by
    rw [rounds]
    obtain rfl : j = 64 := by omega
    exact ⟨v, rfl, hv⟩
  | n + 1, j, v, hj, hv => by
    rw [rounds, Vector.getElem?_eq_getElem (by omega : j < 64), Vector.getElem?_eq_getElem (by omega : j < 64)]
    simp only [Option.bind_eq_bind, Option.bind_some]
    refine rounds_wp block s w hw n (j + 1) _ (by omega) ?_
    rw [round_eq, hv, K_eq j (by omega), hw, Sha256.rounds]

theorem transform_wp (block : List UInt8) (t : HASH256)
    (hw : ∀ i (h : i < 64), i < 16 → (t.w[i]).toBitVec = wordAt block i) :
    Wp (transform t) fun t' => t'.length0 = t.length0 ∧ t'.length1 = t.length1 ∧ st t'.h = compress (st t.h) block := by
  rw [transform]
  refine Wp.bind (schedule_wp block 48 16 t.w (le_refl _) rfl fun i h hi => ?_) fun w hw' => ?_
  · rw [hw i h hi, W, if_pos hi]
  refine Wp.bind (rounds_wp block (st t.h) w hw' 64 0 _ rfl rfl) fun v hv => ?_
  refine ⟨_, rfl, rfl, rfl, ?_⟩
  rw [compress, ← hv]
  rfl

/-! ### Collecting bytes -/

/-- The message words hold the bytes `rem` of the unfinished block; a word that is still being filled
holds them in its low bytes. -/
def WOk (w : Vector UInt32 64) (rem : List UInt8) : Prop :=
  ∀ j (_ : j < 64), j < 16 →
    (w[j]).toNat % 256 ^ ((rem.drop (4 * j)).take 4).length = beNat ((rem.drop (4 * j)).take 4)

theorem WOk.nil (w : Vector UInt32 64) : WOk w [] := by
  intro j _ _
  simp [beNat, Nat.mod_one]

theorem WOk.words {w : Vector UInt32 64} {rem : List UInt8} (h : WOk w rem) (hl : rem.length = 64) :
    ∀ i (h : i < 64), i < 16 → (w[i]).toBitVec = wordAt rem i := by
  intro i hi h16
  have := h i hi h16
  rw [List.length_take, List.length_drop, hl, min_eq_left (by omega)] at this
  rw [wordAt, ← this]
  apply BitVec.eq_of_toNat_eq
  rw [BitVec.toNat_ofNat]
  have := (w[i]).toNat_lt
  have e : (w[i]).toBitVec.toNat = (w[i]).toNat := rfl
  rw [e]
  norm_num

theorem shiftIn_toNat (x : UInt32) (b : UInt8) :
    ((x <<< 8) ||| (b &&& 0xFF).toUInt32).toNat = (256 * x.toNat) % 2 ^ 32 + b.toNat := by
  have hb : b &&& 0xFF = b := by
    rw [← UInt8.toNat_inj, UInt8.toNat_and]
    show b.toNat &&& (2 ^ 8 - 1) = _
    rw [Nat.and_two_pow_sub_one_eq_mod]
    have := b.toNat_lt
    omega
  have hs : (256 * x.toNat) % 2 ^ 32 = (x.toNat % 2 ^ 24) <<< 8 := by
    rw [Nat.shiftLeft_eq]
    omega
  have hx : (x <<< 8).toNat = (256 * x.toNat) % 2 ^ 32 := by
    rw [UInt32.toNat_shiftLeft]
    show x.toNat <<< 8 % 2 ^ 32 = _
    rw [Nat.shiftLeft_eq, mul_comm]
  rw [hb, UInt32.toNat_or, hx, hs, ← Nat.shiftLeft_add_eq_or_of_lt]
  · rfl
  · exact b.toNat_lt

theorem WOk.push {w : Vector UInt32 64} {rem : List UInt8} (h : WOk w rem) (b : UInt8)
    (hi : rem.length / 4 < 64) :
    WOk (w.set (rem.length / 4) ((w[rem.length / 4] <<< 8) ||| (b &&& 0xFF).toUInt32)) (rem ++ [b]) := by
  intro j hj h16
  rw [Vector.getElem_set]
  split
  · rename_i e
    have hj' := h _ hi (by omega)
    have e1 : (rem.drop (4 * (rem.length / 4))).take 4 = rem.drop (4 * (rem.length / 4)) := by
      apply List.take_of_length_le
      rw [List.length_drop]
      omega
    have e2 : ((rem ++ [b]).drop (4 * j)).take 4 = rem.drop (4 * (rem.length / 4)) ++ [b] := by
      rw [← e, List.drop_append_of_le_length (by omega)]
      apply List.take_of_length_le
      rw [List.length_append, List.length_drop, List.length_singleton]
      omega
    rw [e1] at hj'
    rw [e2, shiftIn_toNat, beNat_append_singleton, ← hj', List.length_append, List.length_drop, List.length_singleton]
    have hk : rem.length - 4 * (rem.length / 4) < 4 := by omega
    generalize rem.length - 4 * (rem.length / 4) = k at *
    have := b.toNat_lt
    generalize b.toNat = y at *
    generalize (w[rem.length / 4]).toNat = x at *
    interval_cases k <;> norm_num <;> omega
  · rename_i e
    by_cases hlt : j < rem.length / 4
    · have : ((rem ++ [b]).drop (4 * j)).take 4 = (rem.drop (4 * j)).take 4 := by
        rw [List.drop_append_of_le_length (by omega), List.take_append_of_le_length]
        rw [List.length_drop]
        omega
      rw [this]
      exact h j hj h16
    · have : (rem ++ [b]).drop (4 * j) = [] := by
        apply List.drop_eq_nil_of_le
        rw [List.length_append, List.length_singleton]
        omega
      simp [this, beNat, Nat.mod_one]

theorem chain_append (l l' : List UInt8) : ∀ n, 64 * n ≤ l.length → chain (l ++ l') n = chain l n
  | 0, _ => rfl
  | n + 1, h => by
    rw [chain, chain, chain_append l l' n (by omega), List.drop_append_of_le_length (by omega),
      List.take_append_of_le_length]
    rw [List.length_drop]
    omega

/-- The state after the bytes `m`. -/
structure After (t : HASH256) (m : List UInt8) : Prop where
  len0 : t.length0.toNat = 8 * m.length
  len1 : t.length1 = 0
  h : st t.h = chain m (m.length / 64)
  w : WOk t.w (m.drop (64 * (m.length / 64)))

theorem After.new : After new [] := by
  refine ⟨rfl, rfl, ?_, WOk.nil _⟩
  show st H0 = chain [] 0
  rw [chain, init, st, ← H0_eq 0 (by norm_num), ← H0_eq 1 (by norm_num), ← H0_eq 2 (by norm_num),
    ← H0_eq 3 (by norm_num), ← H0_eq 4 (by norm_num), ← H0_eq 5 (by norm_num), ← H0_eq 6 (by norm_num),
    ← H0_eq 7 (by norm_num)]

theorem process_wp {t : HASH256} {m : List UInt8} (ht : After t m) (b : UInt8) (hm : m.length + 1 < 2 ^ 29) :
    Wp (process t b) (After · (m ++ [b])) := by
  have hc : ((t.length0 / 32) % 16).toNat = (m.drop (64 * (m.length / 64))).length / 4 := by
    rw [UInt32.toNat_mod, UInt32.toNat_div, ht.len0, List.length_drop]
    show 8 * m.length / 32 % 16 = _
    omega
  have hr : (m.drop (64 * (m.length / 64))).length = m.length % 64 := by rw [List.length_drop]; omega
  rw [process, hc]
  have hi : (m.drop (64 * (m.length / 64))).length / 4 < 64 := by omega
  have hpush := ht.w.push b hi
  generalize hrem : m.drop (64 * (m.length / 64)) = rem at *
  simp only [Vector.getElem?_eq_getElem hi, Option.bind_eq_bind, Option.bind_some, setAt_wp _ _ _ hi,
    Vector.getElem_set_self, Vector.set_set]
  rw [if_neg (by rw [ht.len0]; omega)]
  have hlen : (t.length0 + 8).toNat = 8 * (m.length + 1) := by
    rw [UInt32.toNat_add, ht.len0]
    show (8 * m.length + 8) % 2 ^ 32 = _
    omega
  have hne : ¬ (t.length0 + 8 = 0) := by
    intro h
    rw [h] at hlen
    have : (0 : UInt32).toNat = 0 := rfl
    omega
  simp only [if_neg hne]
  have hdrop : (m ++ [b]).drop (64 * (m.length / 64)) = rem ++ [b] := by
    rw [List.drop_append_of_le_length (by omega), hrem]
  have hmod : (t.length0 + 8) % 512 = 0 ↔ (m.length + 1) % 64 = 0 := by
    rw [← UInt32.toNat_inj, UInt32.toNat_mod, hlen]
    show 8 * (m.length + 1) % 512 = 0 ↔ _
    omega
  by_cases hfull : (m.length + 1) % 64 = 0
  · rw [if_pos (hmod.2 hfull)]
    obtain ⟨t', e, h0, h1, h2⟩ := transform_wp (rem ++ [b]) ⟨t.length0 + 8, t.length1, t.h, _⟩ (hpush.words (by simp; omega))
    refine ⟨t', e, ?_, ?_, ?_, ?_⟩
    · rw [h0, hlen, List.length_append, List.length_singleton]
    · rw [h1, ht.len1]
    · rw [h2, List.length_append, List.length_singleton, show (m.length + 1) / 64 = m.length / 64 + 1 by omega, chain,
        hdrop, chain_append _ _ _ (by omega), List.take_of_length_le (by simp; omega), ← ht.h]
    · rw [List.drop_eq_nil_of_le (by rw [List.length_append, List.length_singleton]; omega)]
      exact WOk.nil _
  · rw [if_neg (fun h => hfull (hmod.1 h))]
    refine ⟨_, rfl, ?_, ht.len1, ?_, ?_⟩
    · rw [hlen, List.length_append, List.length_singleton]
    · rw [List.length_append, List.length_singleton, show (m.length + 1) / 64 = m.length / 64 by omega,
        chain_append _ _ _ (by omega)]
      exact ht.h
    · rw [List.length_append, List.length_singleton, show (m.length + 1) / 64 = m.length / 64 by omega, hdrop]
      exact hpush

/-! ### Finishing -/

theorem foldlM_wp {t : HASH256} {m : List UInt8} (ht : After t m) (l : List UInt8) (hm : m.length + l.length < 2 ^ 29) :
    Wp (l.foldlM process t) (After · (m ++ l)) := by
  induction l generalizing t m with
  | nil => exact ⟨t, rfl, by rwa [List.append_nil]⟩
  | cons b l ih =>
    rw [List.length_cons] at hm
    rw [List.foldlM_cons]
    refine Wp.bind (process_wp ht b (by omega)) fun t' ht' => ?_
    have := ih ht' (by rw [List.length_append, List.length_singleton]; omega)
    rwa [List.append_assoc] at this

theorem pad_wp (z : Nat) : ∀ {n : Nat} {t : HASH256} {m : List UInt8}, After t m → z = (119 - (m.length + 63) % 64) % 64 →
    z ≤ n → m.length + z < 2 ^ 29 → Wp (pad n t) (After · (m ++ List.replicate z 0)) := by
  induction z with
  | zero =>
    intro n t m ht hz hn hm
    have hmod : t.length0 % 512 = 448 := by
      rw [← UInt32.toNat_inj, UInt32.toNat_mod, ht.len0]
      show 8 * m.length % 512 = 448
      omega
    rw [pad.eq_def]
    cases n <;> simp only [if_pos hmod] <;> exact ⟨t, rfl, by simpa using ht⟩
  | succ z ih =>
    intro n t m ht hz hn hm
    obtain ⟨n, rfl⟩ : ∃ k, n = k + 1 := ⟨n - 1, by omega⟩
    have hmod : ¬ t.length0 % 512 = 448 := by
      rw [← UInt32.toNat_inj, UInt32.toNat_mod, ht.len0]
      show ¬ 8 * m.length % 512 = 448
      omega
    rw [pad, if_neg hmod]
    refine Wp.bind (process_wp ht 0 (by omega)) fun t' ht' => ?_
    have := ih (n := n) ht' (by rw [List.length_append, List.length_singleton]; omega) (by omega)
      (by rw [List.length_append, List.length_singleton]; omega)
    rwa [List.append_assoc, List.singleton_append, ← List.replicate_succ] at this

theorem byte_eq (x n : UInt32) (hn : n.toNat ≤ 24) :
    ((x >>> n) &&& 0xff).toUInt8 = UInt8.ofNat (x.toNat / 2 ^ n.toNat % 256) := by
  rw [← UInt8.toNat_inj, UInt32.toNat_toUInt8, UInt32.toNat_and, UInt32.toNat_shiftRight, UInt8.toNat_ofNat',
    Nat.mod_eq_of_lt (by omega : n.toNat < 32), Nat.shiftRight_eq_div_pow]
  show (_ &&& (2 ^ 8 - 1)) % 2 ^ 8 = _
  rw [Nat.and_two_pow_sub_one_eq_mod]

theorem toBE_four (v : Nat) : toBE 4 v =
    [UInt8.ofNat (v / 2 ^ 24 % 256), UInt8.ofNat (v / 2 ^ 16 % 256), UInt8.ofNat (v / 2 ^ 8 % 256), UInt8.ofNat (v / 2 ^ 0 % 256)] := by
  simp only [toBE, List.nil_append, List.cons_append, Nat.div_div_eq_div_mul]
  norm_num

theorem digest_eq (h : Vector UInt32 8) : (digest h).toList = (st h).bytes := by
  rw [digest, Vector.toList_ofFn, State.bytes]
  simp only [toBE_four, List.cons_append, List.nil_append, st, UInt32.toNat_toBitVec]
  have key : ∀ i : Fin 32, ((h[i.val / 4]'(by omega) >>> (8 * (3 - i.val % 4)).toUInt32) &&& 0xff).toUInt8 =
      UInt8.ofNat ((h[i.val / 4]'(by omega)).toNat / 2 ^ (8 * (3 - i.val % 4)) % 256) := by
    intro i
    have : (8 * (3 - i.val % 4)).toUInt32.toNat = 8 * (3 - i.val % 4) := by
      show (8 * (3 - i.val % 4)) % 2 ^ 32 = _
      omega
    rw [byte_eq _ _ (by omega), this]
  simp only [key]
  have gen : ∀ B : UInt32 → Nat → UInt8, List.ofFn (fun i : Fin 32 => B (h[i.val / 4]'(by omega)) (8 * (3 - i.val % 4))) =
      [B h[0] 24, B h[0] 16, B h[0] 8, B h[0] 0, B h[1] 24, B h[1] 16, B h[1] 8, B h[1] 0,
        B h[2] 24, B h[2] 16, B h[2] 8, B h[2] 0, B h[3] 24, B h[3] 16, B h[3] 8, B h[3] 0,
        B h[4] 24, B h[4] 16, B h[4] 8, B h[4] 0, B h[5] 24, B h[5] 16, B h[5] 8, B h[5] 0,
        B h[6] 24, B h[6] 16, B h[6] 8, B h[6] 0, B h[7] 24, B h[7] 16, B h[7] 8, B h[7] 0] := by
    intro B
    rfl
  exact gen fun x n => UInt8.ofNat (x.toNat / 2 ^ n % 256)

theorem toBE_eight (v : Nat) : toBE 8 v = toBE 4 (v / 2 ^ 32) ++ toBE 4 v := by
  simp only [toBE, List.nil_append, List.cons_append, Nat.div_div_eq_div_mul]
  norm_num

theorem hash_wp {t : HASH256} {m : List UInt8} (ht : After t m) (hm : m.length + 9 ≤ 2 ^ 29) :
    Wp (hash t) fun d => d.toList = sha256 m := by
  rw [hash]
  refine Wp.bind (process_wp ht 0x80 (by omega)) fun t1 h1 => ?_
  refine Wp.bind (pad_wp ((119 - m.length % 64) % 64) h1 (by rw [List.length_append, List.length_singleton]; omega) (by omega)
    (by rw [List.length_append, List.length_singleton]; omega)) fun t2 h2 => ?_
  rw [List.append_assoc, List.singleton_append] at h2
  generalize hq : m ++ 0x80 :: List.replicate ((119 - m.length % 64) % 64) (0 : UInt8) = q at h2
  have hl : q.length = m.length + 1 + (119 - m.length % 64) % 64 := by
    rw [← hq, List.length_append, List.length_cons, List.length_replicate]
    omega
  have hr : (q.drop (64 * (q.length / 64))).length = 56 := by rw [List.length_drop]; omega
  simp only [setAt_wp _ _ _ (by norm_num : 14 < 64), setAt_wp _ _ _ (by norm_num : 15 < 64), Option.bind_eq_bind,
    Option.bind_some]
  have hpad : Sha256.pad m = q ++ toBE 8 (8 * m.length) := by rw [Sha256.pad, hq]
  have hlp : (Sha256.pad m).length = q.length + 8 := by rw [hpad, List.length_append, length_toBE]
  refine Wp.bind (transform_wp (q.drop (64 * (q.length / 64)) ++ toBE 8 (8 * m.length)) _ ?_) ?_
  · intro i h64 h16
    have hv := ht.len0
    have hlt : t.length0.toNat < 2 ^ 32 := t.length0.toNat_lt
    have h0 : 8 * m.length / 2 ^ 32 = 0 := Nat.div_eq_of_lt (by omega)
    apply BitVec.eq_of_toNat_eq
    rw [wordAt, BitVec.toNat_ofNat, UInt32.toNat_toBitVec]
    by_cases h15 : i = 15
    · subst i
      rw [Vector.getElem_set_self, List.drop_append, hr, List.drop_eq_nil_of_le (by omega), List.nil_append, toBE_eight,
        List.drop_append_of_le_length (by rw [length_toBE]), List.drop_eq_nil_of_le (by rw [length_toBE]), List.nil_append,
        List.take_of_length_le (by rw [length_toBE]), beNat_toBE, hv]
      norm_num
      omega
    · rw [Vector.getElem_set_ne _ _ (by omega)]
      by_cases h14 : i = 14
      · subst i
        rw [Vector.getElem_set_self, List.drop_append, hr, List.drop_eq_nil_of_le (by omega), List.nil_append, toBE_eight,
          List.drop_zero, List.take_append_of_le_length (by rw [length_toBE]),
          List.take_of_length_le (by rw [length_toBE]), beNat_toBE, h0, ht.len1]
        rfl
      · rw [Vector.getElem_set_ne _ _ (by omega), List.drop_append_of_le_length (by omega),
          List.take_append_of_le_length (by rw [List.length_drop]; omega), ← h2.w i h64 h16, List.length_take, List.length_drop,
          hr, min_eq_left (by omega)]
        have := (t2.w[i]).toNat_lt
        norm_num
  · rintro t' ⟨-, -, h⟩
    refine ⟨_, rfl, ?_⟩
    beta_reduce
    rw [digest_eq, h, sha256, hlp, show (q.length + 8) / 64 = q.length / 64 + 1 by omega, chain, hpad,
      chain_append _ _ _ (by omega), List.drop_append_of_le_length (by omega), List.take_of_length_le, ← h2.h]
    rw [List.length_append, hr, length_toBE]

/-! ### Messages that are too long -/

theorem process_none {t : HASH256} {m : List UInt8} (ht : After t m) (b : UInt8) (hm : 2 ^ 29 ≤ m.length + 1) :
    process t b = none := by
  rw [process]
  have hi : ((t.length0 / 32) % 16).toNat < 64 := by
    rw [UInt32.toNat_mod]
    show _ % 16 < 64
    omega
  simp only [Vector.getElem?_eq_getElem hi, Option.bind_eq_bind, Option.bind_some, setAt_wp _ _ _ hi]
  rw [if_pos (by rw [ht.len0]; omega)]
  rfl

theorem foldlM_none {t : HASH256} {m : List UInt8} (ht : After t m) (l : List UInt8) (h0 : m.length < 2 ^ 29)
    (hm : 2 ^ 29 ≤ m.length + l.length) : l.foldlM process t = none := by
  induction l generalizing t m with
  | nil => simp at hm; omega
  | cons b l ih =>
    rw [List.foldlM_cons]
    by_cases h : 2 ^ 29 ≤ m.length + 1
    · rw [process_none ht b h]
      rfl
    · obtain ⟨t', e, ht'⟩ := process_wp ht b (by omega)
      rw [e]
      rw [List.length_cons] at hm
      exact ih ht' (by rw [List.length_append, List.length_singleton]; omega)
        (by rw [List.length_append, List.length_singleton]; omega)

theorem pad_none : ∀ {n : Nat} {t : HASH256} {m : List UInt8}, After t m → m.length < 2 ^ 29 → 2 ^ 29 < m.length + 8 →
    pad n t = none := by
  intro n
  induction n with
  | zero =>
    intro t m ht h0 h1
    have hmod : ¬ t.length0 % 512 = 448 := by
      rw [← UInt32.toNat_inj, UInt32.toNat_mod, ht.len0]
      show ¬ 8 * m.length % 512 = 448
      omega
    rw [pad, if_neg hmod]
  | succ n ih =>
    intro t m ht h0 h1
    have hmod : ¬ t.length0 % 512 = 448 := by
      rw [← UInt32.toNat_inj, UInt32.toNat_mod, ht.len0]
      show ¬ 8 * m.length % 512 = 448
      omega
    rw [pad, if_neg hmod]
    by_cases h : 2 ^ 29 ≤ m.length + 1
    · rw [process_none ht 0 h]
      rfl
    · obtain ⟨t', e, ht'⟩ := process_wp ht 0 (by omega)
      rw [e]
      exact ih ht' (by rw [List.length_append, List.length_singleton]; omega)
        (by rw [List.length_append, List.length_singleton]; omega)

theorem hash_none {t : HASH256} {m : List UInt8} (ht : After t m) (h0 : m.length < 2 ^ 29) (hm : 2 ^ 29 < m.length + 9) :
    hash t = none := by
  rw [hash]
  by_cases h : 2 ^ 29 ≤ m.length + 1
  · rw [process_none ht _ h]
    rfl
  · obtain ⟨t', e, ht'⟩ := process_wp ht 0x80 (by omega)
    rw [e]
    have := pad_none (n := 64) ht' (by rw [List.length_append, List.length_singleton]; omega)
      (by rw [List.length_append, List.length_singleton]; omega)
    simp only [Option.bind_eq_bind, Option.bind_some, this]
    rfl

end Amcl.HASH256
