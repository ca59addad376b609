import Verif.Props.Agree
import Verif.Props.Protocol
import Verif.Proof.PairNeg
/-!
# Property C103: the sign bit of keys and signatures on the wire

Bit 5 of the first byte of a compressed string chooses between a point and its opposite. Changing it in both strings leaves
all verdicts as they are, changing it in one of them turns acceptance into rejection.
-/

set_option exponentiation.threshold 6000

namespace Props

open Amcl Spec

seal Spec.finalExp Spec.toBE Spec.signBit Spec.enc1

/-- The string with the sign bit changed. -/
def flipSign : List UInt8 → List UInt8
  | [] => []
  | b :: l => (b ^^^ 32) :: l

theorem length_flipSign (b : List UInt8) : (flipSign b).length = b.length := by cases b <;> rfl

theorem flipSign_flipSign (b : List UInt8) : flipSign (flipSign b) = b := by
  cases b with
  | nil => rfl
  | cons b l => rw [flipSign, flipSign, UInt8.xor_assoc, UInt8.xor_self, UInt8.xor_zero]

theorem byte_flip (b : UInt8) : b.toNat = b.toNat / 64 * 64 + b.toNat / 32 % 2 * 32 + b.toNat % 32 ∧
    (b ^^^ 32).toNat = b.toNat / 64 * 64 + (1 - b.toNat / 32 % 2) * 32 + b.toNat % 32 := by
  have h : ∀ i : Fin 256, (UInt8.ofNat i ^^^ 32).toNat = i.1 / 64 * 64 + (1 - i.1 / 32 % 2) * 32 + i.1 % 32 := by
    decide +kernel
  refine ⟨by omega, ?_⟩
  have h1 := h ⟨b.toNat, b.toNat_lt⟩
  rwa [UInt8.ofNat_toNat] at h1

theorem beNat_flip {b : List UInt8} (hb : b.length = 48) {s X : Nat} (hs : s < 2) (hX : X < 2 ^ 381)
    (h : beNat b = 2 ^ 383 + s * 2 ^ 381 + X) : beNat (flipSign b) = 2 ^ 383 + (1 - s) * 2 ^ 381 + X := by
  cases b with
  | nil => cases hb
  | cons b l =>
    have hl : l.length = 47 := by simpa using hb
    have h1 := beNat_lt l
    rw [beNat_cons, hl] at h
    rw [flipSign, beNat_cons, hl]
    rw [hl] at h1
    obtain ⟨e1, e2⟩ := byte_flip b
    have hlt := b.toNat_lt
    rw [e2]
    generalize b.toNat = n at *
    generalize beNat l = m at *
    have e3 : (256 : Nat) ^ 47 = 2 ^ 376 := by norm_num
    rw [e3] at *
    have e4 : n / 64 = 2 := by omega
    have e5 : n / 32 % 2 = s := by omega
    rw [e4, e5]
    omega

/-- The string stands for a finite point: bit 7 of its first byte is set and bit 6 is clear. -/
def Finite (b : List UInt8) : Prop := 2 ^ 383 ≤ beNat (b.take 48) ∧ beNat (b.take 48) < 2 ^ 383 + 2 ^ 382

theorem Finite.split {b : List UInt8} (h : Finite b) : ∃ s X, s < 2 ∧ X < 2 ^ 381 ∧
    beNat (b.take 48) = 2 ^ 383 + s * 2 ^ 381 + X := by
  obtain ⟨h1, h2⟩ := h
  refine ⟨(beNat (b.take 48) - 2 ^ 383) / 2 ^ 381, (beNat (b.take 48) - 2 ^ 383) % 2 ^ 381, by omega,
    Nat.mod_lt _ (by norm_num), by omega⟩

theorem if_opp {A : Type} {P Q : A} {s t : Nat} (hs : s < 2) (ht : t < 2) :
    (if t = 1 - s then P else Q) = if t = s then Q else P := by
  split <;> split <;> first | rfl | omega

/-- **C103**, keys: changing the sign bit of a compressed finite key changes no error, and turns an accepted string into
one of the opposite point. -/
theorem C103_key (b : List UInt8) (hb : b.length = 48) (hf : Finite b) :
    (∃ e, PublicKey.from_bytes b = some (.error e) ∧ PublicKey.from_bytes (flipSign b) = some (.error e)) ∨
    ∃ pk pk' K, PublicKey.from_bytes b = some (.ok pk) ∧ PublicKey.from_bytes (flipSign b) = some (.ok pk') ∧ K ≠ 0 ∧
      pk.Aff K ∧ pk'.Aff (-K) := by
  obtain ⟨s, X, hs, hX, e⟩ := hf.split
  rw [List.take_of_length_le hb.le] at e
  have e' := beNat_flip hb hs hX e
  have h := (C15_key_acceptance b).2.2.2.2 X s hb hX hs e
  have h' := (C15_key_acceptance (flipSign b)).2.2.2.2 X (1 - s) (by rw [length_flipSign, hb]) hX (by omega) e'
  by_cases hq : IsSquare ((X : Fp) ^ 3 + 4)
  · obtain ⟨pk, y, hy, ed, hsq, hr⟩ := h.2 hq
    obtain ⟨pk', y', hy', ed', hsq', hr'⟩ := h'.2 hq
    obtain ⟨K, hK⟩ := (C06_keys_affine pk).2.1 _ ed
    obtain ⟨K', hK'⟩ := (C06_keys_affine pk').2.1 _ ed'
    have hyy : y' = y := by
      have h1 : y' ^ 2 = y ^ 2 := by rw [hy, hy']
      rcases sq_eq_sq_iff_eq_or_eq_neg.1 h1 with h1 | h1
      · exact h1
      · exact absurd hsq (not_isSquare_neg (Pt.y_ne hy) (h1 ▸ hsq'))
    subst hyy
    rw [if_opp hs (signBit_lt _)] at hr'
    refine .inr ⟨pk, pk', K, ed, ed', ?_, hK, ?_⟩
    · cases hK.1.inj hr
      split
      · exact Pt.mk_ne _
      · exact neg_ne_zero.2 (Pt.mk_ne _)
    · have : K' = -K := by
        rw [hK.1.inj hr, hK'.1.inj hr']
        split
        · rfl
        · rw [neg_neg]
      rw [← this]; exact hK'
  · exact .inl ⟨_, h.1 hq, h'.1 hq⟩

/-- **C103**, signatures: the same for compressed signatures. -/
theorem C103_signature (b : List UInt8) (hb : b.length = 96) (hf : Finite b) :
    (∃ e, Signature.from_bytes b = some (.error e) ∧ Signature.from_bytes (flipSign b) = some (.error e)) ∨
    ∃ s s' S, Signature.from_bytes b = some (.ok s) ∧ Signature.from_bytes (flipSign b) = some (.ok s') ∧ S ≠ 0 ∧
      s.Aff S ∧ s'.Aff (-S) := by
  obtain ⟨s, X, hs, hX, e⟩ := hf.split
  have e1 : (flipSign b).take 48 = flipSign (b.take 48) ∧ (flipSign b).drop 48 = b.drop 48 := by
    cases b with
    | nil => cases hb
    | cons x l => exact ⟨rfl, rfl⟩
  have e' := beNat_flip (b := b.take 48) (by rw [List.length_take, hb]; rfl) hs hX e
  rw [← e1.1] at e'
  have h := ((C16_signature_acceptance b).2 _ _ hb rfl rfl).2.2.2 X s _ hX hs e rfl
  have h' := ((C16_signature_acceptance (flipSign b)).2 _ _ (by rw [length_flipSign, hb]) rfl rfl).2.2.2 X (1 - s) _ hX
    (by omega) e' rfl
  rw [e1.2] at h'
  generalize hx : (⟨(beNat (b.drop 48) : Fp), (X : Fp)⟩ : Fp2) = x at *
  by_cases hq : IsSquare (x ^ 3 + b2) ∧ ((x ^ 3 + b2).im = 0 → IsSquare (x ^ 3 + b2).re)
  · obtain ⟨sg, y, hy, ed, hsq, hr⟩ := h.2 hq
    obtain ⟨sg', y', hy', ed', hsq', hr'⟩ := h'.2 hq
    obtain ⟨K, hK⟩ := (C06_signatures_affine sg).2.2 _ ed
    obtain ⟨K', hK'⟩ := (C06_signatures_affine sg').2.2 _ ed'
    have hre : y.re ≠ 0 := by
      rw [← hy] at hq
      exact (solvable_sq (Pt.y_ne hy)).1 hq
    have hyy : y' = y := by
      have h1 : y' ^ 2 = y ^ 2 := by rw [hy, hy']
      rcases sq_eq_sq_iff_eq_or_eq_neg.1 h1 with h1 | h1
      · exact h1
      · rw [h1, QuadraticAlgebra.re_neg] at hsq'
        exact absurd hsq (not_isSquare_neg hre hsq')
    subst hyy
    rw [if_opp hs (signBit_lt _)] at hr'
    refine .inr ⟨sg, sg', K, ed, ed', ?_, hK, ?_⟩
    · cases hK.1.inj hr
      split
      · exact Pt.mk_ne _
      · exact neg_ne_zero.2 (Pt.mk_ne _)
    · have : K' = -K := by
        rw [hK.1.inj hr, hK'.1.inj hr']
        split
        · rfl
        · rw [neg_neg]
      rw [← this]; exact hK'
  · exact .inl ⟨_, h.1 hq, h'.1 hq⟩

/-! ### Verdicts -/

theorem Coords.val_neg {P P' : ECP} {K : G1} {x y x' y' : Fp} (hP : P.Rep K) (hP' : P'.Rep (-K)) (hc : Coords P x y)
    (hc' : Coords P' x' y') {g : G2} (hg : r • g = 0) : ateVal x' y' g = (ateVal x y g)⁻¹ := by
  by_cases h0 : g = 0
  · subst h0
    rcases Pt.cases K with rfl | ⟨a, b, h, rfl⟩
    · rw [neg_zero] at hP'
      rw [hc'.val_eq hP' hP hc]
      obtain ⟨K1, h1, ⟨-, rfl, rfl⟩ | ⟨h, e⟩⟩ := hc
      · cases h1.inj hP
        rw [ateVal, hP.inf_coords.1, signedMiller_inf_zero, inv_zero, zero_pow (by decide +kernel), inv_zero]
      · rw [h1.inj hP] at e
        exact absurd e.symm (Pt.mk_ne _)
    · have hm : ∀ {P : ECP} {x y a b : Fp} {h}, P.Rep (Pt.mk a b h) → Coords P x y → x = a := by
        rintro P x y a b h hr ⟨K, h1, ⟨rfl, -⟩ | ⟨h2, rfl⟩⟩
        · exact absurd (h1.inj hr).symm (Pt.mk_ne _)
        · exact (Pt.mk_inj.1 (h1.inj hr)).1
      rw [Pt.neg_mk] at hP'
      rw [hm hP hc, hm hP' hc']
      by_cases ha : a = 0
      · subst ha
        rw [ateVal, ateVal, signedMiller_inf_zero, signedMiller_inf_zero, inv_zero, zero_pow (by decide +kernel), inv_zero]
      · rw [ateVal, ateVal, signedMiller_inf ha, signedMiller_inf ha, inv_one]
  · rw [hc'.val_pairing hP' h0, hc.val_pairing hP h0, pairing_neg_right hg]

theorem val_gen_neg (S : G2) : ateVal g1x g1y (-S) = (ateVal g1x g1y S)⁻¹ := by
  rw [ateVal_gen, ateVal_gen, pairing_neg_left]

/-- **C103**, opposite points: the opposite signature with the opposite key has the verdict of the signature and the key -
for points of all orders, infinity included. -/
theorem C103_opposite (s s' : Signature) (S : G2) (pk pk' : PublicKey) (K : G1) (hs : s.Aff S) (hs' : s'.Aff (-S))
    (hk : pk.Aff K) (hk' : pk'.Aff (-K)) :
    (∀ (H : Keccak) (msg : List UInt8) (d : UInt64), s'.verify H msg d pk' = s.verify H msg d pk ∧ s.verify H msg d pk ≠ none) ∧
    ∀ re im : List UInt8, 48 ≤ re.length → 48 ≤ im.length →
      s'.verify_hashed re im pk' = s.verify_hashed re im pk ∧ s.verify_hashed re im pk ≠ none := by
  constructor
  · intro H msg d
    obtain ⟨x, y, g, b, hc, hg, e, hb⟩ := verify_val H s S hs msg d pk K hk
    obtain ⟨x', y', g', b', hc', hg', e', hb'⟩ := verify_val H s' _ hs' msg d pk' _ hk'
    cases hg.unique hg'
    have h := verdict_eq e e' hb hb' (by
      rw [Coords.val_neg hk.1 hk'.1 hc hc' (mapsTo_order hg), val_gen_neg, inv_inj])
    exact ⟨h.1.symm, h.2⟩
  · intro re im hr hi
    obtain ⟨x, y, g, b, hc, hg, e, hb⟩ := verify_hashed_val s S hs re im hr hi pk K hk
    obtain ⟨x', y', g', b', hc', hg', e', hb'⟩ := verify_hashed_val s' _ hs' re im hr hi pk' _ hk'
    cases hg.unique hg'
    have h := verdict_eq e e' hb hb' (by
      rw [Coords.val_neg hk.1 hk'.1 hc hc' (mapsTo_order hg), val_gen_neg, inv_inj])
    exact ⟨h.1.symm, h.2⟩

/-- **C103**, opposite points, aggregates: the opposite aggregate signature with the opposites of all keys has the same
verdict. -/
theorem C103_opposite_multiple (H : Keccak) (d : UInt64) (s s' : AggregateSignature) (S : G2) (hs : s.Rep S)
    (hs' : s'.Rep (-S)) (l l' : List Pair) (hl : ∀ j ∈ l, j.Ok) (hl' : List.Forall₂ (fun j j' : Pair => j'.1 = j.1 ∧
      ∃ K, j.2.Rep K ∧ j'.2.Rep (-K)) l l') :
    verifyPairs H s' d l' = verifyPairs H s d l ∧ verifyPairs H s d l ≠ none := by
  by_cases h0 : l = []
  · subst h0
    cases hl'
    have e : ∀ t : AggregateSignature, ∀ T, t.Rep T → verifyPairs H t d [] = some false := fun t T h =>
      C12_bad_input H t T h _ d _ (.inl rfl)
    rw [e s S hs, e s' _ hs']
    exact ⟨rfl, by simp⟩
  · obtain ⟨v, hv⟩ := exists_vals H d
    have hok : ∀ j ∈ l', Pair.Ok j := by
      clear h0
      induction hl' with
      | nil => intro j hj; cases hj
      | @cons a b l l' h _ ih =>
        intro j hj
        rcases List.mem_cons.1 hj with rfl | hj
        · obtain ⟨e, K, -, hK⟩ := h
          exact ⟨by rw [e]; exact (hl a (by simp)).1, _, hK⟩
        · exact ih (fun j hj => hl j (by simp [hj])) j hj
    have hne : l' ≠ [] := by
      rintro rfl
      cases hl'
      exact h0 rfl
    obtain ⟨b, e, hb⟩ := pairs_val H s S hs d l h0 hl v fun j hj => hv j (hl j hj)
    obtain ⟨b', e', hb'⟩ := pairs_val H s' _ hs' d l' hne hok v fun j hj => hv j (hok j hj)
    have hp : (l'.map v).prod = ((l.map v).prod)⁻¹ := by
      clear e e' hb hb' h0 hne
      induction hl' with
      | nil => simp
      | @cons a b l l' h _ ih =>
        rw [List.map_cons, List.map_cons, List.prod_cons, List.prod_cons, mul_inv,
          ih (fun j hj => hl j (by simp [hj])) (fun j hj => hok j (by simp [hj]))]
        congr 1
        obtain ⟨x, y, g, hc, hg, e1⟩ := hv a (hl a (by simp))
        obtain ⟨x', y', g', hc', hg', e2⟩ := hv b (hok b (by simp))
        obtain ⟨e3, K, hK, hK'⟩ := h
        rw [e3] at hg'
        cases hg.unique hg'
        rw [e1, e2, Coords.val_neg hK hK' hc hc' (mapsTo_order hg)]
    have h := verdict_eq e e' hb hb' (by rw [hp, val_gen_neg, inv_inj])
    exact ⟨h.1.symm, h.2⟩

/-- **C103**, on the wire: changing the sign bit in an accepted finite key and an accepted finite signature leaves the
verdict of every message as it is. -/
theorem C103_both (bk bs : List UInt8) (hk : bk.length = 48) (hs : bs.length = 96) (fk : Finite bk) (fs : Finite bs)
    (pk : PublicKey) (s : Signature) (ek : PublicKey.from_bytes bk = some (.ok pk))
    (es : Signature.from_bytes bs = some (.ok s)) : ∃ pk' s', PublicKey.from_bytes (flipSign bk) = some (.ok pk') ∧
      Signature.from_bytes (flipSign bs) = some (.ok s') ∧ ∀ (H : Keccak) (msg : List UInt8) (d : UInt64),
        s'.verify H msg d pk' = s.verify H msg d pk ∧ s.verify H msg d pk ≠ none := by
  rcases C103_key bk hk fk with ⟨_, e, -⟩ | ⟨pk1, pk', K, e, ek', -, hK, hK'⟩
  · rw [ek] at e; cases e
  rcases C103_signature bs hs fs with ⟨_, e', -⟩ | ⟨s1, s', S, e', es', -, hS, hS'⟩
  · rw [es] at e'; cases e'
  rw [ek] at e
  rw [es] at e'
  cases e
  cases e'
  exact ⟨pk', s', ek', es', (C103_opposite s s' S pk pk' K hS hS' hK hK').1⟩

/-- **C103**, one of them: for a key `k • gen1` with `r ∤ k` and a message whose point is not infinity, a signature of any
order that is accepted is rejected after changing its sign bit, and also after changing the sign bit of the key. -/
theorem C103_one (H : Keccak) (msg : List UInt8) (d : UInt64) (hm : ¬ MapsTo (hashX (fun m => (H m).toList) msg d.toNat) 0)
    (s s' : Signature) (S : G2) (pk pk' : PublicKey) (k : Nat) (hs : s.Aff S) (hs' : s'.Aff (-S)) (hk : pk.Aff (k • gen1))
    (hk' : pk'.Aff (-(k • gen1))) (h0 : ¬ r ∣ k) (h : s.verify H msg d pk = some true) :
    s'.verify H msg d pk = some false ∧ s.verify H msg d pk' = some false := by
  have e : -(k • gen1) = ((r - 1) * k) • gen1 := by
    apply neg_eq_of_add_eq_zero_left
    have h7 : (r - 1) * k + k = k * r := by
      rw [Nat.sub_mul, one_mul, Nat.sub_add_cancel (Nat.le_mul_of_pos_left k (by norm_num [r])), mul_comm]
    rw [← add_nsmul, h7, mul_nsmul', r_gen1, smul_zero]
  obtain ⟨κ, -, hκ⟩ := C99_one_key H msg d S hm
  have h1 := hκ s k pk hs hk
  have h2 := hκ s ((r - 1) * k) pk' hs (e ▸ hk')
  rw [h] at h1
  have h3 : k % r = κ := of_decide_eq_true (Option.some.inj h1).symm
  have h4 : s.verify H msg d pk' = some false := by
    rw [h2, decide_eq_false]
    rw [← h3]
    intro h5
    apply h0
    have h6 : (r - 1) * k + k ≡ k + k [MOD r] := Nat.ModEq.add_right k h5
    have h7 : (r - 1) * k + k = r * k := by
      rw [Nat.sub_mul, one_mul, Nat.sub_add_cancel (Nat.le_mul_of_pos_left k (by norm_num [r]))]
    rw [h7] at h6
    have h8 : r ∣ k + k := (Nat.modEq_zero_iff_dvd.1 (h6.symm.trans (Nat.modEq_zero_iff_dvd.2 (dvd_mul_right r k))))
    rw [← two_mul] at h8
    exact (Nat.Coprime.dvd_of_dvd_mul_left (by decide +kernel) h8)
  refine ⟨?_, h4⟩
  rw [← h4]
  have h9 := ((C103_opposite s s' S pk' pk (-(k • gen1)) hs hs' hk' (by rw [neg_neg]; exact hk)).1 H msg d).1
  exact h9

/-- The strings of the two generators are finite and decode, and so do those with the other sign. -/
example : Finite (enc1 g1x 0) ∧ Finite (enc2 g2xa g2xb 0) ∧
    (∃ pk, PublicKey.from_bytes (enc1 g1x 0) = some (.ok pk)) ∧ ∃ s, Signature.from_bytes (enc2 g2xa g2xb 0) = some (.ok s) := by
  have hX : g1x < 2 ^ 381 := by norm_num [g1x]
  have hY : g2xb < 2 ^ 381 := by norm_num [g2xb]
  refine ⟨?_, ?_, ?_, ?_⟩
  · rw [Finite, List.take_of_length_le (length_enc1 _ _).le, beNat_enc1 hX (by norm_num)]
    omega
  · rw [Finite, enc2, List.take_append_of_le_length (by rw [length_enc1]), List.take_of_length_le (length_enc1 _ _).le,
      beNat_enc1 hY (by norm_num)]
    omega
  · obtain ⟨_, e, pk, _, _, rfl, -⟩ := pk_from_enc1 (s := 0) hX (by norm_num) g1_on
    exact ⟨pk, e⟩
  · obtain ⟨_, e, -, h⟩ := sig_from_enc2 (X := g2xa) (s := 0) (by norm_num [g2xa]) hY (by norm_num) rfl g2_on
    obtain ⟨sg, _, _, rfl, -⟩ := h (by
      show (g2ya : Fp) ≠ 0
      rw [Ne, ZMod.natCast_eq_zero_iff]
      decide +kernel)
    exact ⟨sg, e⟩

/-- An accepted signature as in `C103_one`, of the secret key 7, and its opposite. -/
example : ∃ (H : Keccak) (msg : List UInt8) (d : UInt64) (s s' : Signature) (S : G2) (pk pk' : PublicKey),
    ¬ MapsTo (hashX (fun m => (H m).toList) msg d.toNat) 0 ∧ s.Aff S ∧ s'.Aff (-S) ∧ pk.Aff (7 • gen1) ∧
      pk'.Aff (-(7 • gen1)) ∧ ¬ r ∣ 7 ∧ s.verify H msg d pk = some true := by
  obtain ⟨sk, hn⟩ := SecretKey.exists_rep (n := 7) (by norm_num)
  have h7 : ¬ r ∣ 7 := by norm_num [r]
  obtain ⟨s, pk, es, ek, h⟩ := C05_sign_verify (fun _ => Vector.replicate 32 0) [1, 2, 3] 7 sk 7 hn fun _ => h7
  obtain ⟨S, hS⟩ := (C06_signatures_affine s).1 _ _ _ _ _ hn es
  obtain ⟨P, hP⟩ := exists_aff2 (-S)
  obtain ⟨R, hR⟩ := exists_aff1 (-(7 • gen1))
  exact ⟨_, _, _, s, ⟨P⟩, S, pk, ⟨R⟩, fun h0 => neg_ne_zero.2 gen2_ne (zero_hash_point.unique h0), hS, hP,
    (C06_keys_affine pk).1 _ _ hn ek, hR, h7, h⟩

end Props
