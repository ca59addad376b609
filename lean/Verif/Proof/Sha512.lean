import Verif.Model.Hash512
import Verif.Proof.Sha256
import Verif.Spec.Sha512
/-!
# The hashes of `hash512.rs` and `hash384.rs` are SHA-512 and SHA-384
-/

namespace Amcl.Sha64

open Spec Spec.Sha512

/-! ### Constants -/

/-- The first 80 primes. -/
def primes : List Nat := [2, 3, 5, 7, 11, 13, 17, 19, 23, 29, 31, 37, 41, 43, 47, 53, 59, 61, 67, 71, 73, 79, 83, 89, 97, 101, 103,
  107, 109, 113, 127, 131, 137, 139, 149, 151, 157, 163, 167, 173, 179, 181, 191, 193, 197, 199, 211, 223, 227,
  229, 233, 239, 241, 251, 257, 263, 269, 271, 277, 281, 283, 293, 307, 311, 313, 317, 331, 337, 347, 349, 353,
  359, 367, 373, 379, 383, 389, 397, 401, 409]

theorem nth_prime (t : Nat) (ht : t < 80) : Nat.nth Nat.Prime t = primes[t]! := by
  have h : ∀ t < 80, HASH256.isPrime primes[t]! = true ∧ HASH256.primeCount primes[t]! = t := by decide +kernel
  obtain ⟨h1, h2⟩ := h t ht
  rw [HASH256.isPrime_iff] at h1
  rw [HASH256.primeCount_eq] at h2
  have := Nat.nth_count h1
  rwa [h2] at this

/-- The integer parts of the scaled cube roots. -/
def roots : List Nat := [23241441160490167842, 26604808713878332877, 31543488660544240431, 35287351959220771772, 41025191555757552952,
  43374469216020582425, 47431773444313272219, 49223322299838333208, 52460086356995146306, 56674242196778545086,
  57948244932766773900, 61468643694135456994, 63608380943893236079, 64626287408284341937, 66571091106846937653,
  69291241975837173396, 71813108563482594002, 72615556083564357091, 74922338351982630325, 76384605279477341285,
  77095200552867529333, 79152035218479047811, 80466001307761769428, 82360010132597855157, 84757271453788200875,
  85906662539289440784, 86470001012957192511, 87575168524888248036, 88117443448470540226, 89182409882623190821,
  92723033081372705391, 93686458245878541936, 95095488024300105724, 95556006044611561766, 97794660939065469677,
  98230277650290947039, 99514478923103560670, 100766364611844223656, 101583977345534766822,
  102786266195516601659, 103961068102722061156, 104346826991781163009, 106234157551817627537,
  106603670640207904304, 107335108066752287256, 107697117917222381840, 109819772810290077738,
  111863398698143437240, 112528278492720320712, 112857792170093030227, 113511107980111571865,
  114477206417490790568, 114795642568024087139, 116361942610802215627, 117281838038729876339,
  118187525164200278179, 119079540232616391420, 119373928427484032864, 120248493880617511794,
  120824543361758411244, 121110519679094562344, 122520547622920568297, 124441674862916172053,
  124979807718728684331, 125247145020423037340, 125778422408467759623, 127603441353585912606,
  128369846764518166904, 129627222056361226170, 129875788766833580198, 130370087684295691694,
  131104582549941012251, 132071287192121802116, 132787134709014930579, 133495346155087314620,
  133963344184962190668, 134659270149180113590, 135576127461610847786, 136029942151059536620,
  136928597060811708439]

theorem K_val : ∀ t : Fin 80, (K[t.val]).toBitVec = BitVec.ofNat 64 roots[t.val]! := by
  decide +kernel

theorem K_eq (t : Nat) (ht : t < 80) : (K[t]).toBitVec = Sha512.K t := by
  have h : ∀ t < 80, roots[t]! ^ 3 ≤ primes[t]! * 2 ^ 192 ∧ primes[t]! * 2 ^ 192 < (roots[t]! + 1) ^ 3 := by
    decide +kernel
  rw [K_val ⟨t, ht⟩, Sha512.K, nth_prime t ht, HASH256.cbrt_eq (h t ht).1 (h t ht).2]

/-- The integer parts of the scaled square roots. -/
def sqrts : List Nat := [26087635650665564424, 31950697969885030203, 41248173712355948587, 48805497317890012913, 61180928696206656209,
  66510681623121259551, 76057874264641092971, 80407493254657745273, 88467476731178360536, 99338756991957652743,
  102707124263845944599, 112207163657561200953, 118116794080090393393, 120963390236882638097,
  126464505871347584935, 134294323956039700388]

theorem H512_val : ∀ t : Fin 8, (HASH512.H0[t.val]).toBitVec = BitVec.ofNat 64 sqrts[t.val]! := by
  decide +kernel

theorem H384_val : ∀ t : Fin 8, (HASH384.H0[t.val]).toBitVec = BitVec.ofNat 64 sqrts[8 + t.val]! := by
  decide +kernel

theorem H0_eq (t : Nat) (ht : t < 16) : BitVec.ofNat 64 sqrts[t]! = Sha512.H0 t := by
  have h : ∀ t < 16, sqrts[t]! ^ 2 ≤ primes[t]! * 2 ^ 128 ∧ primes[t]! * 2 ^ 128 < (sqrts[t]! + 1) ^ 2 := by
    decide +kernel
  rw [Sha512.H0, nth_prime t (by omega), Nat.eq_sqrt'.2 (h t ht)]

/-! ### Word functions -/

theorem sig0_eq (x : UInt64) : (sig0 x).toBitVec = bsig0 x.toBitVec := rfl
theorem sig1_eq (x : UInt64) : (sig1 x).toBitVec = bsig1 x.toBitVec := rfl
theorem theta0_eq (x : UInt64) : (theta0 x).toBitVec = ssig0 x.toBitVec := rfl
theorem theta1_eq (x : UInt64) : (theta1 x).toBitVec = ssig1 x.toBitVec := rfl
theorem ch_eq (x y z : UInt64) : (ch x y z).toBitVec = Sha512.ch x.toBitVec y.toBitVec z.toBitVec := rfl
theorem maj_eq (x y z : UInt64) : (maj x y z).toBitVec = Sha512.maj x.toBitVec y.toBitVec z.toBitVec := rfl

/-! ### The compression function -/

/-- The hash words as a state of the specification. -/
def st (h : Vector UInt64 8) : State :=
  ⟨h[0].toBitVec, h[1].toBitVec, h[2].toBitVec, h[3].toBitVec,
    h[4].toBitVec, h[5].toBitVec, h[6].toBitVec, h[7].toBitVec⟩

/-- The working variables as a state of the specification. -/
def vst (v : Vars) : State :=
  ⟨v.a.toBitVec, v.b.toBitVec, v.c.toBitVec, v.d.toBitVec, v.e.toBitVec, v.f.toBitVec, v.g.toBitVec, v.hh.toBitVec⟩

theorem setAt_wp {α : Type} {n : Nat} (a : Vector α n) (i : Nat) (v : α) (h : i < n) :
    setAt a i v = some (a.set i v) := dif_pos h

theorem round_eq (v : Vars) (k w : UInt64) : vst (round v k w) = step (vst v) k.toBitVec w.toBitVec := rfl

theorem plus_false (x y : UInt64) : plus false x y = some (x + y) := rfl

theorem schedule_wp (block : List UInt8) : ∀ (n j : Nat) (w : Vector UInt64 80), 16 ≤ j → j + n = 80 →
    (∀ i (h : i < 80), i < j → (w[i]).toBitVec = W block i) →
    Wp (schedule false n j w) fun w' => ∀ i (h : i < 80), (w'[i]).toBitVec = W block i
  | 0, j, w, _, hj, hw => by
    rw [schedule]
    exact ⟨w, rfl, fun i h => hw i h (by omega)⟩
  | n + 1, j, w, h16, hj, hw => by
    rw [schedule, Vector.getElem?_eq_getElem (by omega : j - 2 < 80), Vector.getElem?_eq_getElem (by omega : j - 7 < 80),
      Vector.getElem?_eq_getElem (by omega : j - 15 < 80), Vector.getElem?_eq_getElem (by omega : j - 16 < 80)]
    simp only [Option.bind_eq_bind, Option.bind_some, plus_false]
    rw [setAt_wp _ _ _ (by omega : j < 80), Option.bind_some]
    refine schedule_wp block n (j + 1) _ (by omega) (by omega) fun i h hi => ?_
    rw [Vector.getElem_set]
    split
    · subst i
      rw [W, if_neg (by omega)]
      simp only [UInt64.toBitVec_add, theta0_eq, theta1_eq]
      rw [hw _ _ (by omega), hw _ _ (by omega), hw _ _ (by omega), hw _ _ (by omega)]
    · exact hw i h (by omega)

theorem rounds_wp (block : List UInt8) (s : State) (w : Vector UInt64 80)
    (hw : ∀ i (h : i < 80), (w[i]).toBitVec = W block i) : ∀ (n j : Nat) (v : Vars), j + n = 80 →
    vst v = Sha512.rounds block s j → Wp (rounds w n j v) fun v' => vst v' = Sha512.rounds block s 80
  | 0, j, v, hj, hv => by
    rw [rounds]
    obtain rfl : j = 80 := by omega
    exact ⟨v, rfl, hv⟩
  | n + 1, j, v, hj, hv => by
    rw [rounds, Vector.getElem?_eq_getElem (by omega : j < 80), Vector.getElem?_eq_getElem (by omega : j < 80)]
    simp only [Option.bind_eq_bind, Option.bind_some]
    refine rounds_wp block s w hw n (j + 1) _ (by omega) ?_
    rw [round_eq, hv, K_eq j (by omega), hw, Sha512.rounds]

theorem transform_wp (block : List UInt8) (t : Sha64)
    (hw : ∀ i (h : i < 80), i < 16 → (t.w[i]).toBitVec = wordAt block i) :
    Wp (transform false t) fun t' => t'.length0 = t.length0 ∧ t'.length1 = t.length1 ∧ st t'.h = compress (st t.h) block := by
  rw [transform]
  refine Wp.bind (schedule_wp block 64 16 t.w (le_refl _) rfl fun i h hi => ?_) fun w hw' => ?_
  · rw [hw i h hi, W, if_pos hi]
  refine Wp.bind (rounds_wp block (st t.h) w hw' 80 0 _ rfl rfl) fun v hv => ?_
  refine ⟨_, rfl, rfl, rfl, ?_⟩
  rw [compress, ← hv]
  rfl

/-! ### Collecting bytes -/

/-- The message words hold the bytes `rem` of the unfinished block; a word that is still being filled
holds them in its low bytes. -/
def WOk (w : Vector UInt64 80) (rem : List UInt8) : Prop :=
  ∀ j (_ : j < 80), j < 16 →
    (w[j]).toNat % 256 ^ ((rem.drop (8 * j)).take 8).length = beNat ((rem.drop (8 * j)).take 8)

theorem WOk.nil (w : Vector UInt64 80) : WOk w [] := by
  intro j _ _
  simp [beNat, Nat.mod_one]

theorem WOk.words {w : Vector UInt64 80} {rem : List UInt8} (h : WOk w rem) (hl : rem.length = 128) :
    ∀ i (h : i < 80), i < 16 → (w[i]).toBitVec = wordAt rem i := by
  intro i hi h16
  have := h i hi h16
  rw [List.length_take, List.length_drop, hl, min_eq_left (by omega)] at this
  rw [wordAt, ← this]
  apply BitVec.eq_of_toNat_eq
  rw [BitVec.toNat_ofNat]
  have := (w[i]).toNat_lt
  have e : (w[i]).toBitVec.toNat = (w[i]).toNat := rfl
  rw [e]
  norm_num

theorem shiftIn_toNat (x : UInt64) (b : UInt8) :
    ((x <<< 8) ||| (b &&& 0xFF).toUInt64).toNat = (256 * x.toNat) % 2 ^ 64 + b.toNat := by
  have hb : b &&& 0xFF = b := by
    rw [← UInt8.toNat_inj, UInt8.toNat_and]
    show b.toNat &&& (2 ^ 8 - 1) = _
    rw [Nat.and_two_pow_sub_one_eq_mod]
    have := b.toNat_lt
    omega
  have hs : (256 * x.toNat) % 2 ^ 64 = (x.toNat % 2 ^ 56) <<< 8 := by
    rw [Nat.shiftLeft_eq]
    omega
  have hx : (x <<< 8).toNat = (256 * x.toNat) % 2 ^ 64 := by
    rw [UInt64.toNat_shiftLeft]
    show x.toNat <<< 8 % 2 ^ 64 = _
    rw [Nat.shiftLeft_eq, mul_comm]
  rw [hb, UInt64.toNat_or, hx, hs, ← Nat.shiftLeft_add_eq_or_of_lt]
  · rfl
  · exact b.toNat_lt

theorem WOk.push {w : Vector UInt64 80} {rem : List UInt8} (h : WOk w rem) (b : UInt8)
    (hi : rem.length / 8 < 80) :
    WOk (w.set (rem.length / 8) ((w[rem.length / 8] <<< 8) ||| (b &&& 0xFF).toUInt64)) (rem ++ [b]) := by
  intro j hj h16
  rw [Vector.getElem_set]
  split
  · rename_i e
    have hj' := h _ hi (by omega)
    have e1 : (rem.drop (8 * (rem.length / 8))).take 8 = rem.drop (8 * (rem.length / 8)) := by
      apply List.take_of_length_le
      rw [List.length_drop]
      omega
    have e2 : ((rem ++ [b]).drop (8 * j)).take 8 = rem.drop (8 * (rem.length / 8)) ++ [b] := by
      rw [← e, List.drop_append_of_le_length (by omega)]
      apply List.take_of_length_le
      rw [List.length_append, List.length_drop, List.length_singleton]
      omega
    rw [e1] at hj'
    rw [e2, shiftIn_toNat, beNat_append_singleton, ← hj', List.length_append, List.length_drop, List.length_singleton]
    have hk : rem.length - 8 * (rem.length / 8) < 8 := by omega
    generalize rem.length - 8 * (rem.length / 8) = k at *
    have := b.toNat_lt
    generalize b.toNat = y at *
    generalize (w[rem.length / 8]).toNat = x at *
    interval_cases k <;> norm_num <;> omega
  · rename_i e
    by_cases hlt : j < rem.length / 8
    · have : ((rem ++ [b]).drop (8 * j)).take 8 = (rem.drop (8 * j)).take 8 := by
        rw [List.drop_append_of_le_length (by omega), List.take_append_of_le_length]
        rw [List.length_drop]
        omega
      rw [this]
      exact h j hj h16
    · have : (rem ++ [b]).drop (8 * j) = [] := by
        apply List.drop_eq_nil_of_le
        rw [List.length_append, List.length_singleton]
        omega
      simp [this, beNat, Nat.mod_one]

theorem chain_append (s : State) (l l' : List UInt8) : ∀ n, 128 * n ≤ l.length → chain s (l ++ l') n = chain s l n
  | 0, _ => rfl
  | n + 1, h => by
    rw [chain, chain, chain_append s l l' n (by omega), List.drop_append_of_le_length (by omega),
      List.take_append_of_le_length]
    rw [List.length_drop]
    omega

/-- The state after the bytes `m`, from the initial hash value `s`. -/
structure After (s : State) (t : Sha64) (m : List UInt8) : Prop where
  len0 : t.length0.toNat = 8 * m.length
  len1 : t.length1 = 0
  h : st t.h = chain s m (m.length / 128)
  w : WOk t.w (m.drop (128 * (m.length / 128)))

theorem After.init {s : State} {H0 : Vector UInt64 8} (h : st H0 = s) (t : Sha64) : After s (init H0 t) [] :=
  ⟨rfl, rfl, h, WOk.nil _⟩

theorem st_512 : st HASH512.H0 = Sha512.init 0 := by
  have h (t : Nat) (ht : t < 8) : (HASH512.H0[t]).toBitVec = Sha512.H0 (t) :=
    (H512_val ⟨t, ht⟩).trans (H0_eq _ (by show t < 16; omega))
  rw [Sha512.init, st, h 0 (by norm_num), h 1 (by norm_num), h 2 (by norm_num), h 3 (by norm_num), h 4 (by norm_num),
    h 5 (by norm_num), h 6 (by norm_num), h 7 (by norm_num)]

theorem st_384 : st HASH384.H0 = Sha512.init 8 := by
  have h (t : Nat) (ht : t < 8) : (HASH384.H0[t]).toBitVec = Sha512.H0 (8 + t) :=
    (H384_val ⟨t, ht⟩).trans (H0_eq _ (by show 8 + t < 16; omega))
  rw [Sha512.init, st, h 0 (by norm_num), h 1 (by norm_num), h 2 (by norm_num), h 3 (by norm_num), h 4 (by norm_num),
    h 5 (by norm_num), h 6 (by norm_num), h 7 (by norm_num)]

theorem process_wp {s : State} {t : Sha64} {m : List UInt8} (ht : After s t m) (b : UInt8) (hm : m.length + 1 < 2 ^ 61) :
    Wp (process false t b) (After s · (m ++ [b])) := by
  have hc : ((t.length0 / 64) % 16).toNat = (m.drop (128 * (m.length / 128))).length / 8 := by
    rw [UInt64.toNat_mod, UInt64.toNat_div, ht.len0, List.length_drop]
    show 8 * m.length / 64 % 16 = _
    omega
  have hr : (m.drop (128 * (m.length / 128))).length = m.length % 128 := by rw [List.length_drop]; omega
  rw [process, hc]
  have hi : (m.drop (128 * (m.length / 128))).length / 8 < 80 := by omega
  have hpush := ht.w.push b hi
  generalize hrem : m.drop (128 * (m.length / 128)) = rem at *
  simp only [Vector.getElem?_eq_getElem hi, Option.bind_eq_bind, Option.bind_some, setAt_wp _ _ _ hi,
    Vector.getElem_set_self, Vector.set_set]
  rw [if_neg (by rw [ht.len0]; omega)]
  have hlen : (t.length0 + 8).toNat = 8 * (m.length + 1) := by
    rw [UInt64.toNat_add, ht.len0]
    show (8 * m.length + 8) % 2 ^ 64 = _
    omega
  have hne : ¬ (t.length0 + 8 = 0) := by
    intro h
    rw [h] at hlen
    have : (0 : UInt64).toNat = 0 := rfl
    omega
  simp only [if_neg hne]
  have hdrop : (m ++ [b]).drop (128 * (m.length / 128)) = rem ++ [b] := by
    rw [List.drop_append_of_le_length (by omega), hrem]
  have hmod : (t.length0 + 8) % 1024 = 0 ↔ (m.length + 1) % 128 = 0 := by
    rw [← UInt64.toNat_inj, UInt64.toNat_mod, hlen]
    show 8 * (m.length + 1) % 1024 = 0 ↔ _
    omega
  by_cases hfull : (m.length + 1) % 128 = 0
  · rw [if_pos (hmod.2 hfull)]
    obtain ⟨t', e, h0, h1, h2⟩ := transform_wp (rem ++ [b]) ⟨t.length0 + 8, t.length1, t.h, _⟩ (hpush.words (by simp; omega))
    refine ⟨t', e, ?_, ?_, ?_, ?_⟩
    · rw [h0, hlen, List.length_append, List.length_singleton]
    · rw [h1, ht.len1]
    · rw [h2, List.length_append, List.length_singleton, show (m.length + 1) / 128 = m.length / 128 + 1 by omega, chain,
        hdrop, chain_append _ _ _ _ (by omega), List.take_of_length_le (by simp; omega), ← ht.h]
    · rw [List.drop_eq_nil_of_le (by rw [List.length_append, List.length_singleton]; omega)]
      exact WOk.nil _
  · rw [if_neg (fun h => hfull (hmod.1 h))]
    refine ⟨_, rfl, ?_, ht.len1, ?_, ?_⟩
    · rw [hlen, List.length_append, List.length_singleton]
    · rw [List.length_append, List.length_singleton, show (m.length + 1) / 128 = m.length / 128 by omega,
        chain_append _ _ _ _ (by omega)]
      exact ht.h
    · rw [List.length_append, List.length_singleton, show (m.length + 1) / 128 = m.length / 128 by omega, hdrop]
      exact hpush

/-! ### Finishing -/

theorem foldlM_wp {s : State} {t : Sha64} {m : List UInt8} (ht : After s t m) (l : List UInt8) (hm : m.length + l.length < 2 ^ 61) :
    Wp (l.foldlM (process false) t) (After s · (m ++ l)) := by
  induction l generalizing t m with
  | nil => exact ⟨t, rfl, by rwa [List.append_nil]⟩
  | cons b l ih =>
    rw [List.length_cons] at hm
    rw [List.foldlM_cons]
    refine Wp.bind (process_wp ht b (by omega)) fun t' ht' => ?_
    have := ih ht' (by rw [List.length_append, List.length_singleton]; omega)
    rwa [List.append_assoc] at this

theorem pad_wp {s : State} (z : Nat) : ∀ {n : Nat} {t : Sha64} {m : List UInt8}, After s t m → z = (239 - (m.length + 127) % 128) % 128 →
    z ≤ n → m.length + z < 2 ^ 61 → Wp (pad false n t) (After s · (m ++ List.replicate z 0)) := by
  induction z with
  | zero =>
    intro n t m ht hz hn hm
    have hmod : t.length0 % 1024 = 896 := by
      rw [← UInt64.toNat_inj, UInt64.toNat_mod, ht.len0]
      show 8 * m.length % 1024 = 896
      omega
    rw [pad.eq_def]
    cases n <;> simp only [if_pos hmod] <;> exact ⟨t, rfl, by simpa using ht⟩
  | succ z ih =>
    intro n t m ht hz hn hm
    obtain ⟨n, rfl⟩ : ∃ k, n = k + 1 := ⟨n - 1, by omega⟩
    have hmod : ¬ t.length0 % 1024 = 896 := by
      rw [← UInt64.toNat_inj, UInt64.toNat_mod, ht.len0]
      show ¬ 8 * m.length % 1024 = 896
      omega
    rw [pad, if_neg hmod]
    refine Wp.bind (process_wp ht 0 (by omega)) fun t' ht' => ?_
    have := ih (n := n) ht' (by rw [List.length_append, List.length_singleton]; omega) (by omega)
      (by rw [List.length_append, List.length_singleton]; omega)
    rwa [List.append_assoc, List.singleton_append, ← List.replicate_succ] at this

theorem byte_eq (x n : UInt64) (hn : n.toNat ≤ 56) :
    ((x >>> n) &&& 0xff).toUInt8 = UInt8.ofNat (x.toNat / 2 ^ n.toNat % 256) := by
  rw [← UInt8.toNat_inj, UInt64.toNat_toUInt8, UInt64.toNat_and, UInt64.toNat_shiftRight, UInt8.toNat_ofNat',
    Nat.mod_eq_of_lt (by omega : n.toNat < 64), Nat.shiftRight_eq_div_pow]
  show (_ &&& (2 ^ 8 - 1)) % 2 ^ 8 = _
  rw [Nat.and_two_pow_sub_one_eq_mod]

theorem toBE_eight (v : Nat) : toBE 8 v =
    [UInt8.ofNat (v / 2 ^ 56 % 256), UInt8.ofNat (v / 2 ^ 48 % 256), UInt8.ofNat (v / 2 ^ 40 % 256), UInt8.ofNat (v / 2 ^ 32 % 256),
      UInt8.ofNat (v / 2 ^ 24 % 256), UInt8.ofNat (v / 2 ^ 16 % 256), UInt8.ofNat (v / 2 ^ 8 % 256), UInt8.ofNat (v / 2 ^ 0 % 256)] := by
  simp only [toBE, List.nil_append, List.cons_append, Nat.div_div_eq_div_mul]
  norm_num

theorem toBE_sixteen (v : Nat) : toBE 16 v = toBE 8 (v / 2 ^ 64) ++ toBE 8 v := by
  simp only [toBE, List.nil_append, List.cons_append, Nat.div_div_eq_div_mul]
  norm_num

theorem digestByte_eq (h : Vector UInt64 8) (i : Nat) (hi : i < 64) :
    digestByte h i hi = UInt8.ofNat ((h[i / 8]'(by omega)).toNat / 2 ^ (8 * (7 - i % 8)) % 256) := by
  have : (8 * (7 - i % 8)).toUInt64.toNat = 8 * (7 - i % 8) := by
    show (8 * (7 - i % 8)) % 2 ^ 64 = _
    omega
  rw [digestByte, byte_eq _ _ (by omega), this]

theorem word_eq (h : Vector UInt64 8) (i : Nat) (hi : i < 8) :
    (List.ofFn fun j : Fin 8 => digestByte h (i * 8 + j.val) (by omega)) = toBE 8 (h[i]).toNat := by
  have e (j : Fin 8) : digestByte h (i * 8 + j.val) (by omega) = UInt8.ofNat ((h[i]).toNat / 2 ^ (8 * (7 - j.val)) % 256) := by
    rw [digestByte_eq]
    simp only [show (i * 8 + j.val) / 8 = i by omega, show (i * 8 + j.val) % 8 = j.val by omega]
  simp only [e, toBE_eight]
  rfl

theorem bytes_eq (h : Vector UInt64 8) :
    (st h).bytes = List.ofFn fun i : Fin 64 => digestByte h i.val i.isLt := by
  refine Eq.trans ?_ (List.ofFn_mul (m := 8) (n := 8) fun i => digestByte h i.val i.isLt).symm
  have e (i : Fin 8) : (List.ofFn fun j : Fin 8 => digestByte h (i.val * 8 + j.val) (by omega)) = toBE 8 (h[i.val]).toNat :=
    word_eq h i.val i.isLt
  simp only [e]
  rw [State.bytes]
  simp only [List.ofFn_succ, List.ofFn_zero, List.flatten_cons, List.flatten_nil, List.append_nil, List.append_assoc]
  rfl

seal pad in
theorem finish_wp {s : State} {t : Sha64} {m : List UInt8} (ht : After s t m) (hm : m.length + 17 ≤ 2 ^ 61) :
    Wp (finish false t) fun t' => st t'.h = chain s (Sha512.pad m) ((Sha512.pad m).length / 128) := by
  rw [finish]
  refine Wp.bind (process_wp ht 0x80 (by omega)) fun t1 h1 => ?_
  refine Wp.bind (pad_wp ((239 - m.length % 128) % 128) h1 (by rw [List.length_append, List.length_singleton]; omega) (by omega)
    (by rw [List.length_append, List.length_singleton]; omega)) fun t2 h2 => ?_
  rw [List.append_assoc, List.singleton_append] at h2
  generalize hq : m ++ 0x80 :: List.replicate ((239 - m.length % 128) % 128) (0 : UInt8) = q at h2
  have hl : q.length = m.length + 1 + (239 - m.length % 128) % 128 := by
    rw [← hq, List.length_append, List.length_cons, List.length_replicate]
    omega
  have hr : (q.drop (128 * (q.length / 128))).length = 112 := by rw [List.length_drop]; omega
  refine Wp.bind (Wp.of_eq (setAt_wp _ _ _ (by norm_num : 14 < 80)) rfl) fun w14 e14 => ?_
  refine Wp.bind (Wp.of_eq (setAt_wp _ _ _ (by norm_num : 15 < 80)) rfl) fun w15 e15 => ?_
  subst e14 e15
  have hpad : Sha512.pad m = q ++ toBE 16 (8 * m.length) := by rw [Sha512.pad, hq]
  have hlp : (Sha512.pad m).length = q.length + 16 := by rw [hpad, List.length_append, length_toBE]
  refine Wp.mono (transform_wp (q.drop (128 * (q.length / 128)) ++ toBE 16 (8 * m.length)) _ ?_) ?_
  · intro i h80 h16
    have hv := ht.len0
    have hlt : t.length0.toNat < 2 ^ 64 := t.length0.toNat_lt
    have h0 : 8 * m.length / 2 ^ 64 = 0 := Nat.div_eq_of_lt (by omega)
    apply BitVec.eq_of_toNat_eq
    rw [wordAt, BitVec.toNat_ofNat, UInt64.toNat_toBitVec]
    by_cases h15 : i = 15
    · subst i
      rw [Vector.getElem_set_self, List.drop_append, hr, List.drop_eq_nil_of_le (by omega), List.nil_append, toBE_sixteen,
        List.drop_append_of_le_length (by rw [length_toBE]), List.drop_eq_nil_of_le (by rw [length_toBE]), List.nil_append,
        List.take_of_length_le (by rw [length_toBE]), beNat_toBE, hv]
      norm_num
      omega
    · rw [Vector.getElem_set_ne _ _ (by omega)]
      by_cases h14 : i = 14
      · subst i
        rw [Vector.getElem_set_self, List.drop_append, hr, List.drop_eq_nil_of_le (by omega), List.nil_append, toBE_sixteen,
          List.drop_zero, List.take_append_of_le_length (by rw [length_toBE]),
          List.take_of_length_le (by rw [length_toBE]), beNat_toBE, h0, ht.len1]
        rfl
      · rw [Vector.getElem_set_ne _ _ (by omega), List.drop_append_of_le_length (by omega),
          List.take_append_of_le_length (by rw [List.length_drop]; omega), ← h2.w i h80 h16, List.length_take, List.length_drop,
          hr, min_eq_left (by omega)]
        have := (t2.w[i]).toNat_lt
        norm_num
  · rintro t' ⟨-, -, h⟩
    rw [h, hlp, show (q.length + 16) / 128 = q.length / 128 + 1 by omega, chain, hpad,
      chain_append _ _ _ _ (by omega), List.drop_append_of_le_length (by omega), List.take_of_length_le, ← h2.h]
    rw [List.length_append, hr, length_toBE]

theorem hash512_wp {t : Sha64} {m : List UInt8} (ht : After (Sha512.init 0) t m) (hm : m.length + 17 ≤ 2 ^ 61) :
    Wp (HASH512.hash t) fun d => d.1.toList = sha512 m ∧ After (Sha512.init 0) d.2 [] := by
  rw [HASH512.hash]
  refine Wp.bind (finish_wp ht hm) fun t' h => ⟨_, rfl, ?_, After.init st_512 _⟩
  rw [Vector.toList_ofFn, sha512, ← h, bytes_eq]

theorem hash384_wp {t : Sha64} {m : List UInt8} (ht : After (Sha512.init 8) t m) (hm : m.length + 17 ≤ 2 ^ 61) :
    Wp (HASH384.hash false t) fun d => d.1.toList = sha384 m ∧ After (Sha512.init 8) d.2 [] := by
  rw [HASH384.hash]
  refine Wp.bind (finish_wp ht hm) fun t' h => ⟨_, rfl, ?_, After.init st_384 _⟩
  rw [Vector.toList_ofFn, sha384, ← h, bytes_eq]
  generalize t'.h = v
  apply List.ext_getElem
  · rw [List.length_take, List.length_ofFn, List.length_ofFn]
    rfl
  · intro i h1 h2
    rw [List.getElem_take, List.getElem_ofFn, List.getElem_ofFn]

/-! ### Checked addition -/

theorem plus_mono {chk : Bool} {x y z : UInt64} (h : plus chk x y = some z) : plus false x y = some z := by
  rw [plus] at h
  split at h
  · cases h
  · exact h

theorem schedule_mono {chk : Bool} : ∀ (n j : Nat) (w : Vector UInt64 80) {w' : Vector UInt64 80},
    schedule chk n j w = some w' → schedule false n j w = some w'
  | 0, _, _, _, h => h
  | n + 1, j, w, w', h => by
    simp only [schedule, Option.bind_eq_bind, Option.bind_eq_some_iff] at h ⊢
    obtain ⟨a, ha, b, hb, c, hc, d, hd, e, he, f, hf, g, hg, i, hi, hh⟩ := h
    exact ⟨a, ha, b, hb, c, plus_mono hc, d, hd, e, plus_mono he, f, hf, g, plus_mono hg, i, hi, schedule_mono n _ _ hh⟩

theorem transform_mono {chk : Bool} {t t' : Sha64} (h : transform chk t = some t') : transform false t = some t' := by
  simp only [transform, Option.bind_eq_bind, Option.bind_eq_some_iff] at h ⊢
  obtain ⟨w, hw, hh⟩ := h
  exact ⟨w, schedule_mono _ _ _ hw, hh⟩

theorem process_mono {chk : Bool} {t t' : Sha64} {b : UInt8} (h : process chk t b = some t') :
    process false t b = some t' := by
  simp only [process, Option.bind_eq_bind, Option.bind_eq_some_iff] at h ⊢
  obtain ⟨x, hx, w, hw, y, hy, z, hz, hh⟩ := h
  refine ⟨x, hx, w, hw, y, hy, z, hz, ?_⟩
  by_cases hlt : t.length0.toNat + 8 ≥ 2 ^ 64
  · rw [if_pos hlt] at hh
    cases hh
  rw [if_neg hlt] at hh ⊢
  revert hh
  generalize (if t.length0 + 8 = 0 then (_ : Sha64) else _) = t1
  intro hh
  by_cases hm : t1.length0 % 1024 = 0
  · rw [if_pos hm] at hh ⊢
    exact transform_mono hh
  · rw [if_neg hm] at hh ⊢
    exact hh

theorem foldlM_mono {chk : Bool} (l : List UInt8) {t t' : Sha64} (h : l.foldlM (process chk) t = some t') :
    l.foldlM (process false) t = some t' := by
  induction l generalizing t with
  | nil => rwa [List.foldlM_nil] at h ⊢
  | cons b l ih =>
    simp only [List.foldlM_cons, Option.bind_eq_bind, Option.bind_eq_some_iff] at h ⊢
    obtain ⟨x, hx, hh⟩ := h
    exact ⟨x, process_mono hx, ih hh⟩

theorem pad_mono {chk : Bool} : ∀ (n : Nat) {t t' : Sha64}, pad chk n t = some t' → pad false n t = some t'
  | 0, _, _, h => h
  | n + 1, t, t', h => by
    rw [pad] at h ⊢
    split at h
    · rename_i hm
      rw [if_pos hm]
      exact h
    · rename_i hm
      rw [if_neg hm]
      simp only [Option.bind_eq_bind, Option.bind_eq_some_iff] at h ⊢
      obtain ⟨x, hx, hh⟩ := h
      exact ⟨x, process_mono hx, pad_mono n hh⟩

seal pad in
theorem finish_mono {chk : Bool} {t t' : Sha64} (h : finish chk t = some t') : finish false t = some t' := by
  simp only [finish, Option.bind_eq_bind, Option.bind_eq_some_iff] at h ⊢
  obtain ⟨x, hx, y, hy, w, hw, z, hz, hh⟩ := h
  exact ⟨x, process_mono hx, y, pad_mono _ hy, w, hw, z, hz, transform_mono hh⟩

theorem hash384_mono {chk : Bool} {t : Sha64} {d : Vector UInt8 48 × Sha64} (h : HASH384.hash chk t = some d) :
    HASH384.hash false t = some d := by
  simp only [HASH384.hash, Option.bind_eq_bind, Option.bind_eq_some_iff] at h ⊢
  obtain ⟨x, hx, hh⟩ := h
  exact ⟨x, finish_mono hx, hh⟩

end Amcl.Sha64
