import Verif.Proof.AesInv

namespace Amcl.AES
open Spec.AES

set_option maxRecDepth 8000

/-! ## Decryption of a block -/

/-- The words of the decryption key: those of the encryption key in reverse order of the rounds, transformed in all
rounds but the first and the last. -/
def Back (key : Vector UInt32 60) (nr : Nat) (w : Nat → Word) : Prop :=
  ∀ j c : Nat, j ≤ nr → c < 4 → ∃ x, key[4 * j + c]? = some x ∧
    byte x = if j = 0 ∨ j = nr then w (4 * (nr - j) + c) else invMixColumn (w (4 * (nr - j) + c))

theorem load_back (key : Vector UInt32 60) {w : Nat → Word} {nr : Nat} (hk : Back key nr w) (buff : Vector UInt8 16) :
    st (load key buff) = addRoundKey w nr (ofBlock (blk buff)) := by
  funext r c
  unfold addRoundKey
  obtain ⟨x, e, f⟩ := hk 0 c (by omega) c.isLt
  rw [if_pos (Or.inl rfl)] at f
  have h := congrFun f r
  rw [show 4 * (nr - 0) + c.val = 4 * nr + c.val by omega] at h
  rw [← h]
  unfold st load
  fin_cases c <;>
  · simp at e
    simp [byte_xor, byte_pack, ← e]
    fin_cases r <;> rfl

theorem invMix_ark (w : Nat → Word) (n : Nat) (s : State) (r c : Fin 4) :
    invMixColumns (addRoundKey w n s) r c = invMixColumn (fun k => s k c) r ^^^ invMixColumn (w (4 * n + c)) r :=
  congrFun (invMixColumn_add (fun k => s k c) (w (4 * n + c))) r

theorem decRounds_wp (key : Vector UInt32 60) {w : Nat → Word} {nr : Nat} (hk : Back key nr w) :
    ∀ n p, n < nr → Wp (decRounds key n (4 * (nr - n)) p) fun r => r.1 = 4 * nr ∧ st r.2 = invRounds w n (st p) := by
  intro n
  induction n with
  | zero => intro p _; exact Wp.ret ⟨rfl, rfl⟩
  | succ n ih =>
    intro p hn
    obtain ⟨x0, e0, f0⟩ := hk (nr - (n + 1)) 0 (by omega) (by omega)
    obtain ⟨x1, e1, f1⟩ := hk (nr - (n + 1)) 1 (by omega) (by omega)
    obtain ⟨x2, e2, f2⟩ := hk (nr - (n + 1)) 2 (by omega) (by omega)
    obtain ⟨x3, e3, f3⟩ := hk (nr - (n + 1)) 3 (by omega) (by omega)
    rw [if_neg (by omega), show nr - (nr - (n + 1)) = n + 1 by omega] at f0 f1 f2 f3
    rw [Nat.add_zero] at e0
    rw [decRounds]
    simp only [e0, e1, e2, e3, Option.bind_eq_bind, Option.bind_some]
    have hs : st #v[column RTABLE x0 p[0] p[3] p[2] p[1], column RTABLE x1 p[1] p[0] p[3] p[2],
        column RTABLE x2 p[2] p[1] p[0] p[3], column RTABLE x3 p[3] p[2] p[1] p[0]] =
        invMixColumns (addRoundKey w (n + 1) (invSubBytes (invShiftRows (st p)))) := by
      funext r c
      rw [invMix_ark]
      fin_cases c
      · exact (column_r _ _ _ _ _ rfl rfl rfl rfl r).trans (congrArg _ (congrFun f0 r))
      · exact (column_r _ _ _ _ _ rfl rfl rfl rfl r).trans (congrArg _ (congrFun f1 r))
      · exact (column_r _ _ _ _ _ rfl rfl rfl rfl r).trans (congrArg _ (congrFun f2 r))
      · exact (column_r _ _ _ _ _ rfl rfl rfl rfl r).trans (congrArg _ (congrFun f3 r))
    have := ih #v[column RTABLE x0 p[0] p[3] p[2] p[1], column RTABLE x1 p[1] p[0] p[3] p[2],
        column RTABLE x2 p[2] p[1] p[0] p[3], column RTABLE x3 p[3] p[2] p[1] p[0]] (by omega)
    rw [show 4 * (nr - n) = 4 * (nr - (n + 1)) + 4 by omega, hs] at this
    exact this

/-- `ecb_decrypt` is the inverse cipher of FIPS 197. -/
theorem ecb_decrypt_wp (a : AES) {w : Nat → Word} (hk : Back a.rkey a.nr w) (h1 : 1 ≤ a.nr)
    (buff : Vector UInt8 16) : Wp (ecb_decrypt a buff) fun c => blk c = invCipher a.nr w (blk buff) := by
  unfold ecb_decrypt
  have hd := decRounds_wp a.rkey hk (a.nr - 1) (load a.rkey buff) (by omega)
  rw [show 4 * (a.nr - (a.nr - 1)) = 4 by omega] at hd
  refine Wp.bind hd ?_
  rintro ⟨k, p⟩ ⟨hk', hp⟩
  dsimp only at hk' hp ⊢
  subst hk'
  obtain ⟨x0, e0, f0⟩ := hk a.nr 0 (by omega) (by omega)
  obtain ⟨x1, e1, f1⟩ := hk a.nr 1 (by omega) (by omega)
  obtain ⟨x2, e2, f2⟩ := hk a.nr 2 (by omega) (by omega)
  obtain ⟨x3, e3, f3⟩ := hk a.nr 3 (by omega) (by omega)
  rw [if_pos (Or.inr rfl), Nat.sub_self] at f0 f1 f2 f3
  rw [Nat.add_zero] at e0
  simp only [e0, e1, e2, e3, Option.bind_eq_bind, Option.bind_some]
  refine Wp.ret ?_
  rw [store_eq, invCipher, ← load_back a.rkey hk, ← hp]
  congr 1
  funext r c
  unfold addRoundKey invShiftRows invSubBytes
  fin_cases c
  · refine (lastColumn_eq _ _ _ _ _ _ r).trans ?_
    rw [f0, rbsub_eq]
    fin_cases r <;> rfl
  · refine (lastColumn_eq _ _ _ _ _ _ r).trans ?_
    rw [f1, rbsub_eq]
    fin_cases r <;> rfl
  · refine (lastColumn_eq _ _ _ _ _ _ r).trans ?_
    rw [f2, rbsub_eq]
    fin_cases r <;> rfl
  · refine (lastColumn_eq _ _ _ _ _ _ r).trans ?_
    rw [f3, rbsub_eq]
    fin_cases r <;> rfl

/-! ## The key schedule -/

/-- The words that the key schedule of the code computes for a key of `nk` words: the word `i` is the sum of the words
`i-nk` and `i-1`, the latter transformed only when `nk` divides `i`. -/
structure Sched (nk : Nat) (key : Nat → Byte) (W : Nat → Word) : Prop where
  first : ∀ i < nk, W i = fun r : Fin 4 => key (4 * i + r)
  multiple : ∀ t, 1 ≤ t → W (t * nk) = add (W (t * nk - nk)) (add (subWord (rotWord (W (t * nk - 1)))) (rcon t))
  other : ∀ i, nk ≤ i → i % nk ≠ 0 → W i = add (W (i - nk)) (W (i - 1))

theorem setAt_eq {α : Type} {n : Nat} (a : Vector α n) {i : Nat} (h : i < n) (v : α) :
    HASH256.setAt a i v = some (a.set i v) := by
  unfold HASH256.setAt
  rw [dif_pos h]

theorem Keys.extend {key : Vector UInt32 60} {W : Nat → Word} {n : Nat} (hk : Keys key n W) {x : UInt32} (hn : n < 60)
    (hx : byte x = W n) : Keys (key.set n x) (n + 1) W := by
  intro i h hi
  by_cases he : n = i
  · subst he
    rw [Vector.getElem_set_self]
    exact hx
  · rw [Vector.getElem_set_ne _ _ he]
    exact hk i h (by omega)

/-- The bytes of a key, as a sequence. -/
def keyBytes (key : List UInt8) (i : Nat) : Byte := (key.getD i 0).toBitVec

theorem getD_some {key : List UInt8} {i : Nat} (h : i < key.length) : key[i]? = some (key.getD i 0) := by
  rw [List.getElem?_eq_getElem h]
  simp [List.getD, h]

theorem loadKey_wp (key : List UInt8) {W : Nat → Word} {nk : Nat} (hW : ∀ i < nk, W i = fun r : Fin 4 => keyBytes key (4 * i + r))
    (hl : 4 * nk ≤ key.length) (h60 : nk ≤ 60) : ∀ n i w, i + n = nk → Keys w i W → Wp (loadKey key n i w) fun r => Keys r nk W := by
  intro n
  induction n with
  | zero => intro i w hi hk; exact Wp.ret (by rw [← hi]; exact hk)
  | succ n ih =>
    intro i w hi hk
    rw [loadKey]
    rw [getD_some (by omega), getD_some (by omega), getD_some (by omega), getD_some (by omega)]
    simp only [Option.bind_eq_bind, Option.bind_some]
    rw [setAt_eq _ (by omega)]
    refine ih (i + 1) _ (by omega) (hk.extend (by omega) ?_)
    rw [hW i (by omega)]
    funext r
    rw [byte_pack]
    fin_cases r <;> rfl

theorem expandRow_wp {key : Nat → Byte} {W : Nat → Word} {nk t n : Nat} (hW : Sched nk key W) (ht : 1 ≤ t) (hn : n ≤ 60) :
    ∀ c i w, 1 ≤ i → i + c = nk → i + t * nk ≤ n → Keys w (i + t * nk) W →
      Wp (expandRow nk n (t * nk) c i w) fun r => Keys r (min n (t * nk + nk)) W := by
  intro c
  induction c with
  | zero =>
    intro i w _ hi _ hk
    refine Wp.ret ?_
    intro x hx hx'
    exact hk x hx (by omega)
  | succ c ih =>
    intro i w h1 hi hin hk
    rw [expandRow]
    by_cases hb : n ≤ i + t * nk
    · rw [if_pos hb]
      refine Wp.ret ?_
      intro x hx hx'
      exact hk x hx (by omega)
    · have hnk : nk ≤ t * nk := Nat.le_mul_of_pos_left _ ht
      rw [if_neg hb, if_neg (by omega), if_neg (by omega)]
      obtain ⟨x, ex, fx⟩ := keys_get hk (by omega) (k := i + t * nk - nk) (by omega)
      obtain ⟨y, ey, fy⟩ := keys_get hk (by omega) (k := i + t * nk - 1) (by omega)
      rw [ex, ey]
      simp only [Option.bind_eq_bind, Option.bind_some]
      rw [setAt_eq _ (by omega)]
      have hstep := hk.extend (x := x ^^^ y) (by omega) (by
        rw [hW.other (i + t * nk) (by omega) (by rw [Nat.add_mul_mod_self_right, Nat.mod_eq_of_lt (by omega)]; omega)]
        funext r
        rw [byte_xor, fx, fy]
        rfl)
      have := ih (i + 1) _ (by omega) (by omega) (by omega)
        (by rw [show i + 1 + t * nk = i + t * nk + 1 by omega]; exact hstep)
      exact this

theorem rco_all : ∀ k : Fin 16, (RCO.get k).toBitVec = xpow 1 k := by decide +kernel

theorem rco_eq (k : Nat) (h : k < 16) : ∃ c, RCO[k]? = some c ∧ c.toBitVec = xpow 1 k := by
  exact ⟨RCO[k], Vector.getElem?_eq_getElem h, rco_all ⟨k, h⟩⟩

theorem subbyte_eq (a : UInt32) (r : Fin 4) : byte (subbyte a) r = sbox (byte a r) := by
  unfold subbyte
  rw [byte_pack, ← fbsub_eq, ← unpack_toBitVec]
  fin_cases r <;> rfl

theorem expand_wp {key : Nat → Byte} {W : Nat → Word} {nk n : Nat} (hW : Sched nk key W) (hn : n ≤ 60) (hnk : 1 ≤ nk)
    (h16 : n ≤ 16 * nk) : ∀ m t w, n - t * nk ≤ m → 1 ≤ t → Keys w (min n (t * nk)) W →
      Wp (expand nk n (t * nk) (t - 1) w) fun r => Keys r n W := by
  intro m
  induction m with
  | zero =>
    intro t w hm _ hk
    rw [expand, if_neg (by omega)]
    rw [Nat.min_eq_left (by omega)] at hk
    exact Wp.ret hk
  | succ m ih =>
    intro t w hm ht hk
    rw [expand]
    by_cases hj : t * nk < n
    · have hle : nk ≤ t * nk := Nat.le_mul_of_pos_left _ ht
      rw [Nat.min_eq_right (by omega)] at hk
      rw [if_pos hj, if_neg (by omega), if_neg (by omega)]
      obtain ⟨x, ex, fx⟩ := keys_get hk (by omega) (k := t * nk - nk) (by omega)
      obtain ⟨y, ey, fy⟩ := keys_get hk (by omega) (k := t * nk - 1) (by omega)
      obtain ⟨c, ec, fc⟩ := rco_eq (t - 1) (by
        have : t * nk < 16 * nk := by omega
        have := Nat.lt_of_mul_lt_mul_right this
        omega)
      rw [ex, ey, ec]
      simp only [Option.bind_eq_bind, Option.bind_some]
      rw [setAt_eq _ (by omega)]
      simp only [Option.bind_some]
      have hstep := hk.extend (x := x ^^^ subbyte (rotl24 y) ^^^ c.toUInt32) (by omega) (by
        rw [hW.multiple t ht]
        funext r
        rw [byte_xor, byte_xor, fx, subbyte_eq, byte_rotl24, fy, byte_low, fc]
        unfold add subWord rotWord rcon
        rw [show r - 3 = r + 1 by omega, BitVec.xor_assoc])
      refine Wp.bind (expandRow_wp hW ht hn (nk - 1) 1 _ (by omega) (by omega) (by omega)
        (by rw [show 1 + t * nk = t * nk + 1 by omega]; exact hstep)) ?_
      intro w' hw'
      have := ih (t + 1) w' (by rw [Nat.add_mul]; omega) (by omega) (by rw [Nat.add_mul, Nat.one_mul]; exact hw')
      rw [Nat.add_mul, Nat.one_mul, show t + 1 - 1 = t - 1 + 1 by omega] at this
      exact this
    · rw [if_neg hj]
      rw [Nat.min_eq_left (by omega)] at hk
      exact Wp.ret hk

/-! ## The decryption key -/

theorem four_wp (g : UInt32 → UInt32) (w r : Vector UInt32 60) {s o : Nat} (hs : s + 4 ≤ 60) (ho : o + 4 ≤ 60) :
    Wp (four g w s o r) fun r' => ∀ i (h : i < 60), r'[i] = if h' : o ≤ i ∧ i < o + 4 then g (w[s + (i - o)]'(by omega)) else r[i] := by
  unfold four
  rw [Vector.getElem?_eq_getElem (show s < 60 by omega), Vector.getElem?_eq_getElem (show s + 1 < 60 by omega),
    Vector.getElem?_eq_getElem (show s + 2 < 60 by omega), Vector.getElem?_eq_getElem (show s + 3 < 60 by omega)]
  simp only [Option.bind_eq_bind, Option.bind_some]
  rw [setAt_eq _ (by omega)]
  simp only [Option.bind_some]
  rw [setAt_eq _ (by omega)]
  simp only [Option.bind_some]
  rw [setAt_eq _ (by omega)]
  simp only [Option.bind_some]
  rw [setAt_eq _ (by omega)]
  refine ⟨_, rfl, ?_⟩
  intro i h
  simp only [Vector.getElem_set]
  by_cases h3 : o + 3 = i
  · subst h3; simp
  by_cases h2 : o + 2 = i
  · subst h2; simp
  by_cases h1 : o + 1 = i
  · subst h1; simp
  by_cases h0 : o = i
  · subst h0; simp
  · rw [if_neg h3, if_neg h2, if_neg h1, if_neg h0, dif_neg (by omega)]

theorem reverse_wp (n : Nat) (w : Vector UInt32 60) (hn : n ≤ 60) (h8 : 4 ≤ n) : ∀ m i r, n - i ≤ m → i % 4 = 0 → n % 4 = 0 → 4 ≤ i →
    Wp (reverse n w i r) fun r' => ∀ x (h : x < 60),
      r'[x] = if h' : 4 ≤ x ∧ x < n - i then invmixcol (w[n - 4 - 4 * (x / 4) + x % 4]'(by omega)) else r[x] := by
  intro m
  induction m with
  | zero =>
    intro i r hm _ _ _
    rw [reverse, if_neg (by omega), if_neg (by omega)]
    refine Wp.ret fun x h => ?_
    rw [dif_neg (by omega)]
  | succ m ih =>
    intro i r hm hi h4 hi4
    rw [reverse, if_neg (by omega)]
    by_cases hlt : i < n - 4
    · rw [if_pos hlt]
      refine Wp.bind (four_wp invmixcol w r (by omega) (by omega)) ?_
      intro r1 hr1
      refine (ih (i + 4) r1 (by omega) (by omega) h4 (by omega)).mono ?_
      intro r' hr' x h
      rw [hr' x h]
      by_cases hx : 4 ≤ x ∧ x < n - (i + 4)
      · rw [dif_pos hx, dif_pos (by omega)]
      · rw [dif_neg hx, hr1 x h]
        by_cases hx' : n - 4 - i ≤ x ∧ x < n - 4 - i + 4
        · rw [dif_pos hx', dif_pos (by omega)]
          congr 2
          omega
        · rw [dif_neg hx', dif_neg (by omega)]
    · rw [if_neg hlt]
      refine Wp.ret fun x h => ?_
      rw [dif_neg (by omega)]

theorem bmul_eq (k : Fin 4) (b : UInt8) : (bmul INCO[k] b).toBitVec = mul INCO[k].toBitVec b.toBitVec := by
  have : ∀ x : Fin 256, ∀ k : Fin 4, (bmul INCO[k] (UInt8.ofFin x)).toBitVec = mul INCO[k].toBitVec (UInt8.ofFin x).toBitVec := by
    decide +kernel
  exact this b.toFin k

theorem product_eq (m x : UInt32) (i0 i1 i2 i3 : Fin 4) (h0 : (unpack m)[0] = INCO[i0]) (h1 : (unpack m)[1] = INCO[i1])
    (h2 : (unpack m)[2] = INCO[i2]) (h3 : (unpack m)[3] = INCO[i3]) :
    (product m x).toBitVec = mul INCO[i0].toBitVec (byte x 0) ^^^ mul INCO[i1].toBitVec (byte x 1) ^^^
      mul INCO[i2].toBitVec (byte x 2) ^^^ mul INCO[i3].toBitVec (byte x 3) := by
  unfold product
  simp only [h0, h1, h2, h3, UInt8.toBitVec_xor, bmul_eq]
  rw [← unpack_toBitVec, ← unpack_toBitVec, ← unpack_toBitVec, ← unpack_toBitVec]
  rfl

theorem invmixcol_eq (x : UInt32) : byte (invmixcol x) = invMixColumn (byte x) := by
  funext r
  unfold invmixcol
  rw [byte_pack]
  unfold invMixColumn
  fin_cases r
  · exact product_eq _ x 3 0 1 2 (by decide +kernel) (by decide +kernel) (by decide +kernel) (by decide +kernel)
  · exact product_eq _ x 2 3 0 1 (by decide +kernel) (by decide +kernel) (by decide +kernel) (by decide +kernel)
  · exact product_eq _ x 1 2 3 0 (by decide +kernel) (by decide +kernel) (by decide +kernel) (by decide +kernel)
  · exact product_eq _ x 0 1 2 3 (by decide +kernel) (by decide +kernel) (by decide +kernel) (by decide +kernel)

/-! ## `init` -/

/-- What `init` leaves behind: the keys, the register and the mode. -/
structure Ready (a : AES) (l m : Nat) (f : Vector UInt8 16) (W : Nat → Word) : Prop where
  nk : a.nk = l
  nr : a.nr = l + 6
  mode : a.mode = m
  f : a.f = f
  enc : Keys a.fkey (4 * (l + 6 + 1)) W
  dec : Back a.rkey (l + 6) W

/-- The register after `reset`. -/
def start (m : Nat) (iv : Option (Vector UInt8 16)) : Vector UInt8 16 :=
  if m = ECB then Vector.replicate 16 0 else iv.getD (Vector.replicate 16 0)

theorem reset_f (a : AES) (m : Nat) (iv : Option (Vector UInt8 16)) : (reset a m iv).f = start m iv := by
  unfold reset start
  by_cases h : m = ECB
  · simp [h]
  · simp only [h, ne_eq, not_false_eq_true, if_true, if_false]
    cases iv <;> rfl

theorem init_wp (a : AES) (m nkey : Nat) (key : List UInt8) (iv : Option (Vector UInt8 16)) {W : Nat → Word}
    (hnk : nkey / 4 = 4 ∨ nkey / 4 = 6 ∨ nkey / 4 = 8) (hl : 4 * (nkey / 4) ≤ key.length)
    (hW : Sched (nkey / 4) (keyBytes key) W) :
    Wp (init a m nkey key iv) fun r => r.2 = true ∧ Ready r.1 (nkey / 4) m (start m iv) W := by
  unfold init
  generalize nkey / 4 = nk at *
  dsimp only
  rw [if_neg (by omega)]
  refine Wp.bind (loadKey_wp key hW.first hl (by omega) nk 0 _ (by omega) (fun _ _ h => by omega)) ?_
  intro w hw
  have he := expand_wp hW (n := 4 * (6 + nk + 1)) (by omega) (by omega) (by omega) 60 1 w (by omega) (by omega)
    (by rw [Nat.one_mul, Nat.min_eq_right (by omega)]; exact hw)
  rw [Nat.one_mul, Nat.sub_self] at he
  refine Wp.bind he ?_
  intro w hw
  refine Wp.bind (four_wp id w _ (by omega) (by omega)) ?_
  intro r1 hr1
  refine Wp.bind (reverse_wp _ w (by omega) (by omega) 60 4 r1 (by omega) (by omega) (by omega) (by omega)) ?_
  intro r2 hr2
  refine Wp.bind (four_wp id w r2 (by omega) (by omega)) ?_
  intro r3 hr3
  refine Wp.ret ⟨rfl, rfl, Nat.add_comm _ _, rfl, reset_f a m iv, ?_, ?_⟩
  · rw [Nat.add_comm nk 6]; exact hw
  · intro j c hj hc
    refine ⟨_, Vector.getElem?_eq_getElem (by omega), ?_⟩
    dsimp only
    rw [hr3 _ (by omega)]
    by_cases h0 : j = 0
    · rw [dif_pos (by omega), if_pos (Or.inl h0)]
      refine (hw _ (by omega) (by omega)).trans ?_
      congr 1
      omega
    · rw [dif_neg (by omega), hr2 _ (by omega)]
      by_cases hn : j = nk + 6
      · rw [dif_neg (by omega), hr1 _ (by omega), dif_pos (by omega), if_pos (Or.inr hn)]
        refine (hw _ (by omega) (by omega)).trans ?_
        congr 1
        omega
      · rw [dif_pos (by omega), if_neg (by omega), invmixcol_eq]
        congr 1
        refine (hw _ (by omega) (by omega)).trans ?_
        congr 1
        omega

/-- Without enough bytes of key, `init` panics. -/
theorem loadKey_short (key : List UInt8) {nk : Nat} (hl : key.length < 4 * nk) : ∀ n i w, i + n = nk → 4 * i ≤ key.length →
    loadKey key n i w = none := by
  intro n
  induction n with
  | zero => intro i w h1 h2; omega
  | succ n ih =>
    intro i w h1 h2
    rw [loadKey]
    by_cases h : 4 * (i + 1) ≤ key.length
    · rw [getD_some (by omega), getD_some (by omega), getD_some (by omega), getD_some (by omega)]
      simp only [Option.bind_eq_bind, Option.bind_some]
      cases HASH256.setAt w i (pack #v[key.getD (4 * i) 0, key.getD (4 * i + 1) 0, key.getD (4 * i + 2) 0, key.getD (4 * i + 3) 0]) with
      | none => rfl
      | some v => exact ih (i + 1) v (by omega) h
    · have h3 : key[4 * i + 3]? = none := List.getElem?_eq_none (by omega)
      rw [h3]
      cases key[4 * i]? <;> cases key[4 * i + 1]? <;> cases key[4 * i + 2]? <;> rfl

end Amcl.AES
