import Verif.Props.Multi
import Verif.Props.Codec2
import Verif.Proof.SigOutside
/-!
# Property C99: signatures outside the subgroup

The decoders accept every point of the twist (C34). What do the verification functions do with the points whose order
does not divide `r`?
-/

set_option exponentiation.threshold 6000

namespace Props

open Amcl Spec

seal Spec.finalExp Spec.toBE Spec.signBit Spec.enc1

/-- **C99**, the pairing at all points: for every point `Q` of the twist, of any order, and every point `g`, both in
affine form, `ate_pairing` computes the value defined by the linear recursion, and this is an `r`-th root of unity.
The exceptions are those of C32. -/
theorem C99_pairing_any_point (P : ECP2) (Q : G2) (R : ECP) (g : G1) (hP : P.Aff Q) (hR : R.Aff g)
    (hx : Q = 0 → g ≠ 0 ∧ XNe g) : ∃ z, utils.ate_pairing P R = some z ∧ z.Can (pairing Q g) ∧ pairing Q g ^ r = 1 := by
  obtain ⟨z, e, hz⟩ := pairing_all_wp hP hR hx
  exact ⟨z, e, hz, pairing_pow_r_all Q g⟩

/-- **C99**, the shadow: for every point of the twist there is exactly one point of order dividing `r` with the same
pairing with the generator. -/
theorem C99_shadow (S : G2) : ∃! S' : G2, r • S' = 0 ∧ pairing S' gen1 = pairing S gen1 := by
  obtain ⟨S', h, e⟩ := exists_shadow S
  exact ⟨S', ⟨h, e⟩, fun T hT => (pairing_inj hT.1 h).1 (hT.2.trans e.symm)⟩

theorem ateVal_gen (S : G2) : ateVal g1x g1y S = pairing S gen1 := by
  by_cases h0 : S = 0
  · rw [h0, pairing_zero_left, ateVal, signedMiller_inf (Pt.x_ne_of_order (h := g1_on) r_gen1)]
  · rw [ateVal, signedMiller_all g1_on h0]
    rfl

theorem check_same {sig sig' hp : ECP2} {pk : ECP} {S S' H : G2} {K : G1} (hs : sig.Aff S) (hs' : sig'.Aff S')
    (hh : hp.Rep H) (hk : pk.Aff K) (h : pairing S gen1 = pairing S' gen1) :
    Signature.check sig hp pk = Signature.check sig' hp pk ∧ Signature.check sig hp pk ≠ none := by
  have hc : ∃ x y, FP.Ok pk.x 1 (2 ^ 20) x ∧ FP.Ok pk.y 1 (2 ^ 20) y := by
    rcases Pt.cases K with rfl | ⟨x, y, h, rfl⟩
    · exact ⟨_, _, hk.1.x.mono (by norm_num), hk.1.y.mono (by norm_num)⟩
    · exact ⟨x, y, hk.coords⟩
  obtain ⟨x, y, hx, hy⟩ := hc
  obtain ⟨b, e, hb⟩ := check_general_wp hs hh hx hy
  obtain ⟨b', e', hb'⟩ := check_general_wp hs' hh hx hy
  have h1 : ateVal g1x g1y S = ateVal g1x g1y S' := by rw [ateVal_gen, ateVal_gen, h]
  rw [ateVal, ateVal] at h1
  rw [h1, ← hb'] at hb
  rw [e, e', Bool.eq_iff_iff.2 hb]
  exact ⟨rfl, by simp⟩

/-- **C99**, equivalent signatures: two signatures with the same pairing with the generator - a signature and its
shadow for one - get the same verdict for every message, domain and key, the keys outside the subgroup included. -/
theorem C99_same_verdict (H : Keccak) (msg : List UInt8) (d : UInt64) (s s' : Signature) (S S' : G2) (pk : PublicKey)
    (K : G1) (hs : s.Aff S) (hs' : s'.Aff S') (hk : pk.Aff K) (h : pairing S gen1 = pairing S' gen1) :
    s.verify H msg d pk = s'.verify H msg d pk ∧ s.verify H msg d pk ≠ none := by
  obtain ⟨P, g, e, hP, -⟩ := C26_hash_on_g2 H msg d
  rw [Signature.verify, Signature.verify, e]
  exact check_same hs hs' hP hk h

/-- **C99**, equivalent signatures, pre-hashed form. -/
theorem C99_same_verdict_hashed (re im : List UInt8) (hr : 48 ≤ re.length) (hi : 48 ≤ im.length) (s s' : Signature)
    (S S' : G2) (pk : PublicKey) (K : G1) (hs : s.Aff S) (hs' : s'.Aff S') (hk : pk.Aff K)
    (h : pairing S gen1 = pairing S' gen1) :
    s.verify_hashed re im pk = s'.verify_hashed re im pk ∧ s.verify_hashed re im pk ≠ none := by
  obtain ⟨P, g, e, hP, -⟩ := C26_map_to_g2 re im hr hi
  rw [Signature.verify_hashed, Signature.verify_hashed, e]
  exact check_same hs hs' hP hk h

/-- **C99**, equivalent signatures, aggregates: both verification functions, with aggregates in any representation. -/
theorem C99_same_verdict_aggregate (H : Keccak) (msg : List UInt8) (d : UInt64) (s s' : AggregateSignature) (S S' : G2)
    (hs : s.Rep S) (hs' : s'.Rep S') (h : pairing S gen1 = pairing S' gen1) :
    (∀ (avk : AggregatePublicKey) (K : G1), avk.Rep K →
      s.verify H msg d avk = s'.verify H msg d avk ∧ s.verify H msg d avk ≠ none) ∧
    (∀ avks : List AggregatePublicKey, (∀ k ∈ avks, ∃ K, k.Rep K) →
      s.verify_multiple H msg d avks = s'.verify_multiple H msg d avks ∧ s.verify_multiple H msg d avks ≠ none) := by
  constructor
  · intro avk K hk
    obtain ⟨P, g, e, hP, -⟩ := C26_hash_on_g2 H msg d
    obtain ⟨t, es, ht⟩ := ECP2.affine_aff hs
    obtain ⟨t', es', ht'⟩ := ECP2.affine_aff hs'
    obtain ⟨k', ek, hk'⟩ := ECP.affine_aff hk
    rw [AggregateSignature.verify, AggregateSignature.verify, es, es', ek, e]
    exact check_same ht ht' hP hk' h
  · intro avks hk
    by_cases hl : avks = [] ∨ msg.length ≠ 32 * avks.length
    · rw [C12_bad_input H s S hs msg d avks hl, C12_bad_input H s' S' hs' msg d avks hl]
      exact ⟨rfl, by simp⟩
    · rw [not_or, not_not] at hl
      have hx : ∀ i, ∃ c : Fp × Fp, ∀ hi : i < avks.length, Coords avks[i].point c.1 c.2 := by
        intro i
        by_cases hi : i < avks.length
        · obtain ⟨K, hK⟩ := hk avks[i] (List.getElem_mem hi)
          obtain ⟨c, hc⟩ := Coords.exists_of hK
          exact ⟨c, fun _ => hc⟩
        · exact ⟨(0, 0), fun h => absurd h hi⟩
      choose c hc using hx
      have hg : ∀ i, ∃ g, MapsTo (hashX (fun m => (H m).toList) ((msg.drop (32 * i)).take 32) d.toNat) g := fun i => by
        obtain ⟨-, g, -, -, hm, -⟩ := C26_hash_on_g2 H ((msg.drop (32 * i)).take 32) d
        exact ⟨g, hm⟩
      choose g hg using hg
      obtain ⟨b, e, hb⟩ := C12_product H s S hs msg d avks hl.1 hl.2 (fun i => (c i).1) (fun i => (c i).2) hc g
        fun i _ => hg i
      obtain ⟨b', e', hb'⟩ := C12_product H s' S' hs' msg d avks hl.1 hl.2 (fun i => (c i).1) (fun i => (c i).2) hc g
        fun i _ => hg i
      rw [ateVal_gen] at hb hb'
      rw [h, ← hb'] at hb
      rw [e, e', Bool.eq_iff_iff.2 hb]
      exact ⟨rfl, by simp⟩

/-- A finite point of the subgroup generates it. -/
theorem generates {g S : G2} (hg : r • g = 0) (h0 : g ≠ 0) (hS : r • S = 0) : ∃ k, k < r ∧ S = k • g := by
  have hp := Fact.mk Primes.prime_r
  obtain ⟨c, rfl⟩ := torsion_gen2 hg
  obtain ⟨a, rfl⟩ := torsion_gen2 hS
  have hc : ¬ r ∣ c := fun h => h0 (by
    obtain ⟨m, rfl⟩ := h
    rw [mul_comm, mul_smul, r_gen2, smul_zero])
  have hu : (c : ZMod r) ≠ 0 := by rwa [Ne, ZMod.natCast_eq_zero_iff]
  refine ⟨((a : ZMod r) * (c : ZMod r)⁻¹).val, ZMod.val_lt _, ?_⟩
  rw [← mul_smul, nsmul_eq_nsmul_iff_modEq, addOrderOf_gen2, ← ZMod.natCast_eq_natCast_iff]
  rw [Nat.cast_mul, ZMod.natCast_zmod_val, mul_assoc, inv_mul_cancel₀ hu, mul_one]

/-- **C99**, one key: for every signature, of any order, and every message whose point is finite there is exactly one
`k < r` such that the keys `k' • gen1` that accept the signature are those with `k' ≡ k` modulo `r`. All other keys of
the subgroup reject it. -/
theorem C99_one_key (H : Keccak) (msg : List UInt8) (d : UInt64) (S : G2)
    (hm : ¬ MapsTo (hashX (fun m => (H m).toList) msg d.toNat) 0) :
    ∃ k, k < r ∧ ∀ (s : Signature) (k' : Nat) (pk : PublicKey), s.Aff S → pk.Aff (k' • gen1) →
      s.verify H msg d pk = some (decide (k' % r = k)) := by
  have hp := Fact.mk Primes.prime_r
  obtain ⟨-, g, -, -, hg, ho⟩ := C26_hash_on_g2 H msg d
  have h0 : g ≠ 0 := fun e => hm (e ▸ hg)
  obtain ⟨S', hS', e⟩ := exists_shadow S
  obtain ⟨k, hk, hk'⟩ := generates ho h0 hS'
  refine ⟨k, hk, fun s k' pk hs hpk => ?_⟩
  obtain ⟨P, hP⟩ := exists_aff2 S'
  have h1 := (C99_same_verdict H msg d s ⟨P⟩ S S' pk _ hs hP hpk e.symm).1
  obtain ⟨g', hg', h⟩ := C06_exactly_one H msg d ⟨P⟩ S' pk k' hP hS' hpk fun h => absurd h hm
  cases hg.unique hg'
  have hiff : S' = k' • g ↔ k' % r = k := by
    rw [hk', nsmul_eq_nsmul_iff_modEq, addOrderOf_eq_prime ho h0, Nat.ModEq, Nat.mod_eq_of_lt hk, eq_comm]
  rw [h1]
  rcases h with ⟨h, h2⟩ | ⟨h, h2⟩
  · rw [h, decide_eq_true (hiff.1 h2)]
  · rw [h, decide_eq_false fun h3 => h2 (hiff.2 h3)]

/-- **C99**, two signatures: if the order of the signature does not divide `r`, the key that accepts it for a message
with finite point also accepts the signature `k • g` in the subgroup, a different point. So C06 needs its hypothesis:
with signatures outside the subgroup a key does not accept only one signature. -/
theorem C99_two_signatures (H : Keccak) (msg : List UInt8) (d : UInt64) (S g : G2) (hS : r • S ≠ 0)
    (hg : MapsTo (hashX (fun m => (H m).toList) msg d.toNat) g) (h0 : g ≠ 0) :
    ∃ k, k < r ∧ (k = 0 ↔ pairing S gen1 = 1) ∧ k • g ≠ S ∧
      ∀ (s s' : Signature) (pk : PublicKey), s.Aff S → s'.Aff (k • g) → pk.Aff (k • gen1) →
        s.verify H msg d pk = some true ∧ s'.verify H msg d pk = some true := by
  have ho := mapsTo_order hg
  obtain ⟨S', hS', e⟩ := exists_shadow S
  obtain ⟨k, hk, rfl⟩ := generates ho h0 hS'
  refine ⟨k, hk, ?_, fun h => hS (h ▸ hS'), fun s s' pk hs hs' hpk => ?_⟩
  · rw [← e, ← pairing_zero_left gen1, pairing_inj hS' (smul_zero _)]
    constructor
    · rintro rfl
      exact zero_smul _ _
    · intro h
      have hp := Fact.mk Primes.prime_r
      have := addOrderOf_dvd_of_nsmul_eq_zero h
      rw [addOrderOf_eq_prime ho h0] at this
      exact Nat.eq_zero_of_dvd_of_lt this hk
  · have h1 := (C99_same_verdict H msg d s s' S _ pk _ hs hs' hpk e.symm).1
    obtain ⟨g', hg', h⟩ := C06_exactly_one H msg d s' _ pk k hs' hS' hpk fun h => absurd (h.unique hg) (Ne.symm h0)
    cases hg.unique hg'
    rcases h with ⟨h, -⟩ | ⟨-, h⟩
    · exact ⟨h1.trans h, h⟩
    · exact absurd rfl h

/-- **C99**, many signatures: for every message with finite point there is a key that accepts at least `h2` different
signature points, where `h2` is the cofactor of the twist, a number of 507 bits. -/
theorem C99_many_signatures (H : Keccak) (msg : List UInt8) (d : UInt64)
    (hm : ¬ MapsTo (hashX (fun m => (H m).toList) msg d.toNat) 0) :
    ∃ k, k < r ∧ ∃ A : Finset G2, h2 ≤ A.card ∧ ∀ S ∈ A, ∀ (s : Signature) (pk : PublicKey), s.Aff S → pk.Aff (k • gen1) →
      s.verify H msg d pk = some true := by
  obtain ⟨S', hS', A, hA, h⟩ := exists_many
  obtain ⟨k, hk, h1⟩ := C99_one_key H msg d S' hm
  refine ⟨k, hk, A, hA, fun S hSA s pk hs hpk => ?_⟩
  obtain ⟨P, hP⟩ := exists_aff2 S'
  rw [(C99_same_verdict H msg d s ⟨P⟩ S S' pk _ hs hP hpk (h S hSA)).1, h1 ⟨P⟩ k pk hP hpk, Nat.mod_eq_of_lt hk]
  simp

/-- The string of the point over the abscissa 2 decodes to a signature outside the subgroup that pairs with the
generator to a value other than 1: the key that accepts it, for any message with finite point, is finite. -/
theorem two_outside : ∃ (s : Signature) (S : G2), Signature.from_bytes (enc2 2 0 0) = some (.ok s) ∧ s.Aff S ∧ r • S ≠ 0 ∧
    pairing S gen1 ≠ 1 := by
  obtain ⟨x, e, -, h2⟩ := sig_from_enc2 (X := 2) (Y := 0) (s := 0) (by norm_num) (by norm_num) (by norm_num) rfl two_on
  obtain ⟨sg, y0, h0, rfl, -, hy0, -, -, -, hP⟩ := h2 (by
    show (two_ya : Fp) ≠ 0
    rw [Ne, ZMod.natCast_eq_zero_iff]
    norm_num [two_ya, p])
  obtain ⟨S, hS⟩ := (C06_signatures_affine sg).2.2 _ e
  have hne := two_order
  have hor : S = Pt.mk _ _ two_on ∨ S = -Pt.mk _ _ two_on := by
    rw [hS.1.inj (hP.mono (by norm_num))]
    split <;> rcases hy0 with rfl | rfl
    · exact .inl rfl
    · exact .inr (Pt.neg_mk _).symm
    · exact .inr rfl
    · left
      rw [Pt.neg_mk]
      simp
  refine ⟨sg, S, e, hS, ?_, ?_⟩
  · rcases hor with rfl | rfl
    · exact hne
    · rwa [smul_neg, neg_ne_zero]
  · rcases hor with rfl | rfl
    · exact pairing_two.1
    · exact pairing_two.2

/-- With a hash that is constantly 0, for the message `[1, 2, 3]`: the signature decoded from the string of the point
over the abscissa 2 and another signature are both accepted for the same finite key. -/
example : ∃ (s s' : Signature) (S S' : G2) (pk : PublicKey) (k : Nat), Signature.from_bytes (enc2 2 0 0) = some (.ok s) ∧
    s.Aff S ∧ s'.Aff S' ∧ S ≠ S' ∧ pk.Aff (k • gen1) ∧ ¬ r ∣ k ∧
    s.verify (fun _ => Vector.replicate 32 0) [1, 2, 3] 7 pk = some true ∧
    s'.verify (fun _ => Vector.replicate 32 0) [1, 2, 3] 7 pk = some true := by
  obtain ⟨s, S, e, hs, hS, h1⟩ := two_outside
  obtain ⟨-, g, -, -, hg, -⟩ := C26_hash_on_g2 (fun _ => Vector.replicate 32 0) [1, 2, 3] 7
  have h0 : g ≠ 0 := by
    have e0 : beNat (Vector.replicate 32 (0 : UInt8)).toList = 0 := by decide
    have hg' := hg
    rw [hashX, e0, Nat.cast_zero] at hg'
    rw [hg'.unique zero_mapsTo, Ne, ← Eval.smul_zero_iff b2_is (two_is two_on) (f := 763) (by norm_num [h2])]
    decide +kernel
  obtain ⟨k, hk, hk0, hne, h⟩ := C99_two_signatures _ _ _ S g hS hg h0
  obtain ⟨P, hP⟩ := exists_aff2 (k • g)
  obtain ⟨R, hR⟩ := exists_aff1 (k • gen1)
  obtain ⟨h2, h3⟩ := h s ⟨P⟩ ⟨R⟩ hs hP hR
  exact ⟨s, ⟨P⟩, S, _, ⟨R⟩, k, e, hs, hP, hne.symm, hR, fun hd => h1 (hk0.1 (Nat.eq_zero_of_dvd_of_lt hd hk)), h2, h3⟩

end Props
