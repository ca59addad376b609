import Verif.Props.Multi
import Verif.Props.Equality
/-!
# Properties C38, C39, C40: protocol level consequences

* C38: a key and a signature sent in compressed form.
* C39: the rogue key attack on aggregates.
* C40: aggregate keys that are the point at infinity.
-/

set_option exponentiation.threshold 6000

namespace Props

open Amcl Spec

seal Spec.finalExp Spec.toBE Spec.signBit Spec.enc1

/-! ### C38 -/

theorem neg_smul_gen1 (n : Nat) : ∃ m : Nat, -(n • gen1) = m • gen1 ∧ ∀ g : G2, r • g = 0 → (m : Nat) • g = -(n • g) := by
  have hr : 0 < r := by norm_num [r]
  have h1 : n ≤ n * r := Nat.le_mul_of_pos_right _ hr
  refine ⟨n * r - n, ?_, fun g hg => ?_⟩
  · rw [eq_comm, ← add_eq_zero_iff_eq_neg, ← add_smul, Nat.sub_add_cancel h1, mul_smul, r_gen1, smul_zero]
  · rw [← add_eq_zero_iff_eq_neg, ← add_smul, Nat.sub_add_cancel h1, mul_smul, hg, smul_zero]

/-- A point of odd order that is not infinity is not its own opposite. -/
theorem ne_neg_of_order {g : G2} (hg : r • g = 0) (h0 : g ≠ 0) : g ≠ -g := by
  intro h
  have h2 : 2 • g = 0 := by rw [two_smul]; nth_rw 2 [h]; exact add_neg_cancel g
  exact smul_ne hg h0 (by norm_num) (by norm_num [r]) h2

/-- Verification after the signs of the signature and of the key were changed. -/
theorem verify_signs (H : Keccak) (msg : List UInt8) (d : UInt64) (s : Signature) (pk : PublicKey) (n : Nat) (h0 : ¬ r ∣ n)
    (g S : G2) (K : G1) (hg : MapsTo (hashX (fun m => (H m).toList) msg d.toNat) g) (hg0 : g ≠ 0) (hs : s.Aff S) (hk : pk.Aff K)
    (a b : Bool) (ha : S = if a then n • g else -(n • g)) (hb : K = if b then n • gen1 else -(n • gen1)) :
    s.verify H msg d pk = some (a == b) := by
  have ho := mapsTo_order hg
  have hno : r • n • g = 0 := by rw [smul_comm, ho, smul_zero]
  have hne : n • g ≠ -(n • g) := ne_neg_of_order hno fun h => by
    have := smul_inj_torsion (g := g) (g' := 0) ho (smul_zero _) h0 (by rw [h, smul_zero])
    exact hg0 this
  have hS : r • S = 0 := by
    subst ha
    cases a
    · simp [hno]
    · simp [hno]
  obtain ⟨m, em, hm⟩ := neg_smul_gen1 n
  have hm0 : ¬ r ∣ m := fun h => h0 (smul_gen1_zero.1 (by rw [← neg_eq_zero, em]; exact smul_gen1_zero.2 h))
  have hmg := hm g ho
  cases b with
  | true =>
    rw [if_pos rfl] at hb
    subst hb
    obtain ⟨g', hg', h⟩ := C06_exactly_one H msg d s S pk n hs hS hk fun _ => h0
    cases hg.unique hg'
    cases a with
    | true => rcases h with ⟨h, -⟩ | ⟨-, h⟩ <;> simp_all
    | false =>
      rw [if_neg (by simp)] at ha
      rcases h with ⟨-, h⟩ | ⟨h, -⟩
      · exact absurd (h.symm.trans ha) hne
      · exact h
  | false =>
    rw [if_neg (by simp), em] at hb
    subst hb
    obtain ⟨g', hg', h⟩ := C06_exactly_one H msg d s S pk m hs hS hk fun _ => hm0
    cases hg.unique hg'
    rw [hmg] at h
    cases a with
    | true =>
      rw [if_pos rfl] at ha
      rcases h with ⟨-, h⟩ | ⟨h, -⟩
      · exact absurd (ha.symm.trans h) hne
      · exact h
    | false => rcases h with ⟨h, -⟩ | ⟨-, h⟩ <;> simp_all

/-- **C38.** Sign, derive the key, encode both in compressed form, decode both and verify. The key always
decodes; the signature decodes unless the real part of its ordinate is 0. The result is true exactly if the
round trips kept both signs or changed both. The ambiguous sign bit of C17 and C18 decides which. -/
theorem C38_over_the_wire (H : Keccak) (msg : List UInt8) (d : UInt64) (sk : SecretKey) (n : Nat) (hn : sk.Rep n)
    (h0 : ¬ r ∣ n) (g : G2) (hg : MapsTo (hashX (fun m => (H m).toList) msg d.toNat) g) (hg0 : g ≠ 0) :
    ∃ s pk bs bk pk' kk, Signature.new H msg d sk = some s ∧ PublicKey.from_secret_key sk = some pk ∧
      s.as_bytes = some bs ∧ pk.as_bytes = some bk ∧
      PublicKey.from_bytes bk = some (.ok pk') ∧ pk.eq pk' = some kk ∧
      ((∃ x y h, n • g = Pt.mk x y h ∧ y.re = 0) ∧ Signature.from_bytes bs = some (.error .BadPoint) ∨
       ∃ s' ks, Signature.from_bytes bs = some (.ok s') ∧ s.eq s' = some ks ∧
        s'.verify H msg d pk' = some (ks == kk)) := by
  obtain ⟨g', s, hg', es, hs⟩ := C04_sign H msg d sk n hn
  cases hg.unique hg'
  obtain ⟨pk, ek, hk, -⟩ := PublicKey.from_secret_key_wp hn
  have hk : pk.Rep (n • gen1) := ((C06_keys_affine pk).1 sk n hn ek).1
  rcases Pt.cases (n • gen1) with e | ⟨u, v, hc, eK⟩
  · exact absurd (smul_gen1_zero.1 e) h0
  rcases Pt.cases (n • g) with e | ⟨x, y, hc2, eS⟩
  · exact absurd (smul_inj_torsion (g := g) (g' := 0) (mapsTo_order hg) (smul_zero _) h0 (by rw [e, smul_zero])) hg0
  obtain ⟨bk, pk', v', hv', e1, e2, h1, h2⟩ := C17_key_round_trip pk u v hc (by rwa [← eK])
  obtain ⟨bs, X, Y, sb, e3, -, -, -, -, -, h3, h4⟩ := C18_signature_round_trip s x y hc2 (by rwa [← eS])
  have hkk : ∃ kk, pk.eq pk' = some kk ∧ Pt.mk u v' hv' = if kk then n • gen1 else -(n • gen1) := by
    rcases h2 with ⟨h, rfl, -⟩ | ⟨h, rfl, -⟩
    · exact ⟨true, h, by rw [if_pos rfl, eK]⟩
    · exact ⟨false, h, by rw [if_neg (by simp), eK, Pt.neg_mk]⟩
  obtain ⟨kk, ekk, hkk⟩ := hkk
  refine ⟨s, pk, bs, bk, pk', kk, es, ek, e3, e1, e2, ekk, ?_⟩
  by_cases hy : y.re = 0
  · exact .inl ⟨⟨x, y, hc2, eS, hy⟩, h3 hy⟩
  · obtain ⟨s', y', hy', e4, h5, h6, -, -⟩ := h4 hy
    have hss : ∃ ks, s.eq s' = some ks ∧ Pt.mk x y' hy' = if ks then n • g else -(n • g) := by
      rcases h6 with ⟨h, rfl⟩ | ⟨h, rfl⟩
      · exact ⟨true, h, by rw [if_pos rfl, eS]⟩
      · exact ⟨false, h, by rw [if_neg (by simp), eS, Pt.neg_mk]⟩
    obtain ⟨ks, eks, hks⟩ := hss
    obtain ⟨S', hS'⟩ := (C06_signatures_affine s').2.2 bs e4
    obtain ⟨K', hK'⟩ := (C06_keys_affine pk').2.1 bk e2
    cases hS'.1.inj h5
    cases hK'.1.inj h1
    exact .inr ⟨s', ks, e4, eks, verify_signs H msg d s' pk' n h0 g _ _ hg hg0 hS' hK' ks kk hks hkk⟩

/-- **C38**, away from the ambiguous ordinates everything is accepted: if the sign bits tell the ordinate of
the key, and the imaginary part of the ordinate of the signature, from their opposites, then the decoded
signature verifies for the decoded key. -/
theorem C38_regular (H : Keccak) (msg : List UInt8) (d : UInt64) (sk : SecretKey) (n : Nat) (hn : sk.Rep n)
    (u v : Fp) (hc : v ^ 2 = u ^ 3 + b1) (eK : n • gen1 = Pt.mk u v hc)
    (g : G2) (hg : MapsTo (hashX (fun m => (H m).toList) msg d.toNat) g)
    (x y : Fp2) (hc2 : y ^ 2 = x ^ 3 + b2) (eS : n • g = Pt.mk x y hc2)
    (hv : signBit v.val ≠ signBit (-v).val) (hre : y.re ≠ 0) (him : y.im ≠ 0)
    (hy : signBit y.im.val ≠ signBit (-y.im).val) :
    ∃ s pk bs bk pk' s', Signature.new H msg d sk = some s ∧ PublicKey.from_secret_key sk = some pk ∧
      s.as_bytes = some bs ∧ pk.as_bytes = some bk ∧ PublicKey.from_bytes bk = some (.ok pk') ∧
      Signature.from_bytes bs = some (.ok s') ∧ s'.verify H msg d pk' = some true := by
  have h0 : ¬ r ∣ n := fun h => Pt.mk_ne hc (eK.symm.trans (smul_gen1_zero.2 h))
  have hg0 : g ≠ 0 := by
    rintro rfl
    exact Pt.mk_ne hc2 (eS.symm.trans (smul_zero _))
  obtain ⟨g', s, hg', es, hs⟩ := C04_sign H msg d sk n hn
  cases hg.unique hg'
  obtain ⟨pk, ek, hk, -⟩ := PublicKey.from_secret_key_wp hn
  have hk : pk.Rep (n • gen1) := ((C06_keys_affine pk).1 sk n hn ek).1
  obtain ⟨bk, pk', v', hv', e1, e2, h1, h2⟩ := C17_key_round_trip pk u v hc (by rwa [← eK])
  obtain ⟨bs, X, Y, sb, e3, -, -, -, -, -, -, h4⟩ := C18_signature_round_trip s x y hc2 (by rwa [← eS])
  obtain ⟨s', y', hy', e4, h5, -, h6, -⟩ := h4 hre
  have : v' = v := by
    rcases h2 with ⟨-, h, -⟩ | ⟨-, -, h⟩
    · exact h
    · exact absurd (.inr hv) h
  subst this
  have : y' = y := (h6 him).2 (.inr hy)
  subst this
  obtain ⟨S', hS'⟩ := (C06_signatures_affine s').2.2 bs e4
  obtain ⟨K', hK'⟩ := (C06_keys_affine pk').2.1 bk e2
  cases hS'.1.inj h5
  cases hK'.1.inj h1
  exact ⟨s, pk, bs, bk, pk', s', es, ek, e3, e1, e2, e4,
    verify_signs H msg d s' pk' n h0 g _ _ hg hg0 hS' hK' true true (by rw [if_pos rfl, eS]) (by rw [if_pos rfl, eK])⟩

/-! ### C39 -/

/-- **C39.** For every key of a victim and every secret key of an attacker, not a multiple of `r`, there are
96 bytes that decode to a key such that the aggregate of the two keys accepts, for every message, the
signature of the attacker alone. The decoders and `from_public_keys` ask for no proof of possession. -/
theorem C39_rogue_key (pk : PublicKey) (K : G1) (hk : pk.Rep K) (sk : SecretKey) (n : Nat) (hn : sk.Rep n) (h0 : ¬ r ∣ n) :
    ∃ bytes rogue avk, bytes.length = 96 ∧ PublicKey.from_uncompressed_bytes bytes = some (.ok rogue) ∧
      AggregatePublicKey.from_public_keys [pk, rogue] = some avk ∧
      ∀ (H : Keccak) (msg : List UInt8) (d : UInt64), ∃ s a0 a, Signature.new H msg d sk = some s ∧
        AggregateSignature.new = some a0 ∧ a0.add s = some a ∧ a.verify H msg d avk = some true := by
  obtain ⟨P, hP⟩ := exists_aff1 (n • gen1 - K)
  obtain ⟨bytes, -, rogue, eb, -, er, hr, -⟩ := C20_uncompressed_round_trip ⟨P⟩ _ hP.1
  obtain ⟨avk, ea, ha⟩ := C07_from_public_keys_is_sum [pk, rogue] [K, n • gen1 - K] (.cons hk (.cons hr .nil))
  have hl : bytes.length = 96 := by
    by_contra h
    rw [PublicKey.from_uncompressed_bytes, if_pos h] at er
    cases er
  refine ⟨bytes, rogue, avk, hl, er, ea, fun H msg d => ?_⟩
  have e : [K, n • gen1 - K].sum = n • gen1 := by simp
  rw [e] at ha
  obtain ⟨g, s, hg, es, hs⟩ := C04_sign H msg d sk n hn
  obtain ⟨a0, a, e2, e3, hsum⟩ := C08_aggregate_signature_is_sum [.add s] [n • g] (.cons hs .nil)
  refine ⟨s, a0, a, es, e2, by simpa [SigOp.run] using e3, ?_⟩
  rw [List.sum_singleton] at hsum
  obtain ⟨g', hg', h | h⟩ := C11_exactly_one H msg d a _ avk _ hsum (by rw [smul_comm, mapsTo_order hg, smul_zero]) ha fun _ => h0
  · exact h.1
  · cases hg.unique hg'
    exact absurd rfl h.2

/-- A victim with the secret key 7 and an attacker with the secret key 5. -/
example : ∃ sk sk' pk, SecretKey.Rep sk 7 ∧ PublicKey.from_secret_key sk = some pk ∧ SecretKey.Rep sk' 5 ∧
    pk.Rep (7 • gen1) ∧ ¬ r ∣ 5 := by
  obtain ⟨sk, h⟩ := SecretKey.exists_rep (n := 7) (by norm_num)
  obtain ⟨sk', h'⟩ := SecretKey.exists_rep (n := 5) (by norm_num)
  obtain ⟨pk, e, -⟩ := PublicKey.from_secret_key_wp h
  exact ⟨sk, sk', pk, h, e, h', ((C06_keys_affine pk).1 _ _ h e).1, by norm_num [r]⟩

/-! ### C40 -/

/-- The common tail of the verification functions for an infinite key. -/
theorem check_infinite {sig hp : ECP2} {pk : ECP} {S g : G2} (hs : sig.Aff S) (hS : r • S = 0) (hh : hp.Rep g)
    (hH : r • g = 0) (hk : pk.Rep 0) : Signature.check sig hp pk = some (decide (S = 0 ∧ g ≠ 0)) := by
  by_cases hg : g = 0
  · obtain ⟨b, e, hb⟩ := check_general_wp hs hh (hk.x.mono (by norm_num) : FP.Ok pk.x 1 (2 ^ 20) _)
      (hk.y.mono (by norm_num) : FP.Ok pk.y 1 (2 ^ 20) _)
    have h2 : (signedMiller g1x g1y S)⁻¹ ^ finalExp = pairing S gen1 := by
      have := ateVal_pairing r_gen1 hS (show gen1 = Pt.mk (g1x : Fp) (g1y : Fp) g1_on from rfl)
      rwa [ateVal] at this
    rw [hk.inf_coords.1, hg, signedMiller_inf_zero, inv_zero, zero_pow (by decide +kernel), h2] at hb
    rw [e, decide_eq_false (by simp [hg])]
    cases b with
    | false => rfl
    | true => exact absurd (hb.1 rfl) (pairing_ne _ _)
  · rcases check_exact (k := 0) hs hS hh hH ⟨hk, fun h => absurd rfl h⟩ (fun h => absurd h hg)
      (by rw [KeyScalar, zero_smul, smul_zero]) with ⟨e, h⟩ | ⟨e, h⟩ <;> rw [zero_smul] at h
    · rw [e, decide_eq_true ⟨h, hg⟩]
    · rw [e, decide_eq_false fun h' => h h'.1]

/-- **C40.** A key that is the point at infinity - the decoders accept it, and the secret key 0 has it -
accepts the infinity signature for every message with a finite message point, and no other signature of order
dividing `r`. -/
theorem C40_infinite_key (H : Keccak) (msg : List UInt8) (d : UInt64) (s : Signature) (S g : G2) (pk : PublicKey)
    (hs : s.Aff S) (hS : r • S = 0) (hk : pk.Rep 0) (hg : MapsTo (hashX (fun m => (H m).toList) msg d.toNat) g) :
    s.verify H msg d pk = some (decide (S = 0 ∧ g ≠ 0)) := by
  obtain ⟨P, g', e, hP, hm, ho⟩ := C26_hash_on_g2 H msg d
  cases hg.unique hm
  rw [Signature.verify, e]
  exact check_infinite hs hS hP ho hk

/-- **C40**, aggregates, in any representation of infinity: keys that cancel, or no keys at all. -/
theorem C40_infinite_aggregate (H : Keccak) (msg : List UInt8) (d : UInt64) (s : AggregateSignature) (S g : G2)
    (avk : AggregatePublicKey) (hs : s.Rep S) (hS : r • S = 0) (hk : avk.Rep 0)
    (hg : MapsTo (hashX (fun m => (H m).toList) msg d.toNat) g) :
    s.verify H msg d avk = some (decide (S = 0 ∧ g ≠ 0)) := by
  obtain ⟨P, g', e, hP, hm, ho⟩ := C26_hash_on_g2 H msg d
  cases hg.unique hm
  obtain ⟨s', es, hs'⟩ := ECP2.affine_aff hs
  obtain ⟨k', ek, hk'⟩ := ECP.affine_aff hk
  rw [AggregateSignature.verify, es, ek, e]
  exact check_infinite hs' hS hP ho hk'.1

/-- **C40**, the empty aggregate: a new aggregate signature is accepted for a new aggregate key, for every
message with a finite message point. -/
theorem C40_empty_aggregate (H : Keccak) (msg : List UInt8) (d : UInt64) (g : G2)
    (hg : MapsTo (hashX (fun m => (H m).toList) msg d.toNat) g) :
    ∃ a k, AggregateSignature.new = some a ∧ AggregatePublicKey.new = some k ∧ a.verify H msg d k = some (decide (g ≠ 0)) := by
  obtain ⟨a, a', e1, e2, ha⟩ := C08_aggregate_signature_is_sum [] [] .nil
  obtain ⟨k, k', e3, e4, hk⟩ := C07_aggregate_key_is_sum [] [] .nil
  cases e2
  cases e4
  have := C40_infinite_aggregate H msg d a _ g k ha (by simp) hk hg
  exact ⟨a, k, e1, e3, by simpa using this⟩

/-- **C40**, on the wire: the 48 and 96 bytes `c0 00 … 00` are a key and a signature that is accepted for
every message with a finite message point. -/
theorem C40_on_the_wire (H : Keccak) (msg : List UInt8) (d : UInt64) (g : G2)
    (hg : MapsTo (hashX (fun m => (H m).toList) msg d.toNat) g) :
    ∃ pk s, PublicKey.from_bytes (0xc0 :: List.replicate 47 0) = some (.ok pk) ∧
      Signature.from_bytes (0xc0 :: List.replicate 95 0) = some (.ok s) ∧ s.verify H msg d pk = some (decide (g ≠ 0)) := by
  obtain ⟨P, hP⟩ := exists_aff1 0
  obtain ⟨S, hS⟩ := exists_aff2 0
  obtain ⟨⟨b, pk, e1, e2, e3⟩, b', s, e4, e5, e6⟩ := C17_infinity_round_trip ⟨P⟩ ⟨S⟩ hP.1 hS.1
  rw [C24_encoding_of_point.1 ⟨P⟩ hP.1] at e1
  rw [C24_encoding_of_point.2.2.1 ⟨S⟩ hS.1] at e4
  cases e1
  cases e4
  obtain ⟨K, hK⟩ := (C06_keys_affine pk).2.1 _ e2
  obtain ⟨T, hT⟩ := (C06_signatures_affine s).2.2 _ e5
  have hK0 : K = 0 := by
    have h := C23_equality.1 ⟨P⟩ pk 0 K hP.1 hK.1
    rw [e3, Option.some_inj, eq_comm, decide_eq_true_iff] at h
    exact h.symm
  have hT0 : T = 0 := by
    have h := C23_equality.2.2.1 ⟨S⟩ s 0 T hS.1 hT.1
    rw [e6, Option.some_inj, eq_comm, decide_eq_true_iff] at h
    exact h.symm
  subst hK0 hT0
  refine ⟨pk, s, e2, e5, ?_⟩
  rw [C40_infinite_key H msg d s 0 g pk hT (smul_zero _) hK.1 hg]
  simp

theorem zero_hash : hashX (fun m => ((fun _ => Vector.replicate 32 0 : Keccak) m).toList) [1, 2, 3] 7 = ⟨0, 0⟩ := by
  have e0 : beNat (Vector.replicate 32 (0 : UInt8)).toList = 0 := by decide
  rw [hashX, e0, Nat.cast_zero]

/-- With a hash that is constantly 0 the message point is `-gen2`, which is finite. -/
theorem zero_hash_point : MapsTo (hashX (fun m => ((fun _ => Vector.replicate 32 0 : Keccak) m).toList) [1, 2, 3] (7 : UInt64).toNat)
    (-gen2) := by
  have := zero_mapsTo
  rw [h2_smul_two] at this
  rw [show (7 : UInt64).toNat = 7 from rfl, zero_hash]
  exact this

/-- The message point of C38 and C40 can be finite; then the empty aggregate is accepted. -/
example : ∃ a k, AggregateSignature.new = some a ∧ AggregatePublicKey.new = some k ∧
    a.verify (fun _ => Vector.replicate 32 0) [1, 2, 3] 7 k = some true := by
  obtain ⟨a, k, e1, e2, h⟩ := C40_empty_aggregate _ _ _ _ zero_hash_point
  rw [decide_eq_true (neg_ne_zero.2 gen2_ne)] at h
  exact ⟨a, k, e1, e2, h⟩

/-- The hypotheses of `C38_regular` hold for the secret key 1 and this hash. -/
example (sk : SecretKey) (h : sk.Rep 1) :
    ∃ s pk bs bk pk' s', Signature.new (fun _ => Vector.replicate 32 0) [1, 2, 3] 7 sk = some s ∧
      PublicKey.from_secret_key sk = some pk ∧
      s.as_bytes = some bs ∧ pk.as_bytes = some bk ∧ PublicKey.from_bytes bk = some (.ok pk') ∧
      Signature.from_bytes bs = some (.ok s') ∧ s'.verify (fun _ => Vector.replicate 32 0) [1, 2, 3] 7 pk' = some true := by
  refine C38_regular _ _ _ sk 1 h g1x g1y g1_on (one_smul _ _) (-gen2) zero_hash_point _ (-⟨(g2ya : Fp), (g2yb : Fp)⟩)
    (by rw [neg_sq]; exact g2_on) (by rw [one_smul]; exact Pt.neg_mk _) ?_ ?_ ?_ ?_
  · rw [val_neg_fp (by rw [Ne, ZMod.natCast_eq_zero_iff]; decide +kernel), ZMod.val_natCast]
    decide +kernel
  · rw [QuadraticAlgebra.re_neg, neg_ne_zero]
    show (g2ya : Fp) ≠ 0
    rw [Ne, ZMod.natCast_eq_zero_iff]
    decide +kernel
  · rw [QuadraticAlgebra.im_neg, neg_ne_zero]
    show (g2yb : Fp) ≠ 0
    rw [Ne, ZMod.natCast_eq_zero_iff]
    decide +kernel
  · rw [QuadraticAlgebra.im_neg, neg_neg]
    show signBit (-(g2yb : Fp)).val ≠ signBit (g2yb : Fp).val
    rw [val_neg_fp (by rw [Ne, ZMod.natCast_eq_zero_iff]; decide +kernel), ZMod.val_natCast]
    decide +kernel

end Props
