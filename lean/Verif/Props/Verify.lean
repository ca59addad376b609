import Verif.Props.Pairing
import Verif.Props.Cofactor
import Verif.Props.Aggregates
/-!
# Properties C05, C06, C11, C12: verification

`Signature.Aff` and `PublicKey.Aff` say that the object stands for a point in affine form. `verify` does not
normalise its arguments; `C06_signatures_affine` and `C06_keys_affine` show that every signature and key made
by the interface is in affine form.
-/

set_option exponentiation.threshold 6000

namespace Props

open Amcl Spec

seal Spec.finalExp Spec.toBE Spec.signBit Spec.enc1

/-! ### Everything made by the interface is in affine form -/

theorem Dec1.aff {N : Nat} {P : ECP} (h : Dec1 N (.ok P)) : ∃ g : G1, P.Aff g := by
  obtain ⟨h1, h2, h3, h4, h5⟩ := h
  by_cases c1 : N < 2 ^ 383
  · cases h1 c1
  by_cases c2 : N / 2 ^ 382 % 2 = 1
  · by_cases c3 : N % 2 ^ 382 = 0
    · obtain ⟨Q, e, hQ⟩ := h3 (by omega) c2 c3
      cases e
      exact ⟨_, hQ.mono (by norm_num), fun h => absurd rfl h⟩
    · cases h2 (by omega) c2 c3
  · by_cases c3 : IsSquare (((N % 2 ^ 381 : Nat) : Fp) ^ 3 + b1)
    · obtain ⟨Q, _, _, e, -, hz, -, hQ⟩ := h5 (by omega) (by omega) c3
      cases e
      exact ⟨_, hQ.mono (by norm_num), fun _ => hz⟩
    · cases h4 (by omega) (by omega) c3

theorem Dec2.aff {N M : Nat} {P : ECP2} (h : Dec2 N M (.ok P)) : ∃ g : G2, P.Aff g := by
  obtain ⟨h1, h2, h3, h4⟩ := h
  by_cases c1 : N < 2 ^ 383
  · cases h1 c1
  by_cases c2 : N / 2 ^ 382 % 2 = 1
  · by_cases c3 : N % 2 ^ 382 = 0 ∧ M = 0
    · obtain ⟨Q, e, hQ⟩ := h3 (by omega) c2 c3
      cases e
      exact ⟨_, hQ.mono (by norm_num), fun h => absurd rfl h⟩
    · cases h2 (by omega) c2 c3
  · obtain ⟨h4, h5⟩ := h4 _ rfl (by omega) (by omega)
    by_cases c3 : Solvable ((⟨((M : Nat) : Fp), ((N % 2 ^ 381 : Nat) : Fp)⟩ : Fp2) ^ 3 + b2)
    · obtain ⟨Q, _, _, e, -, hz, -, -, hQ⟩ := h5 c3
      cases e
      exact ⟨_, hQ.mono (by norm_num), fun _ => hz⟩
    · cases h4 c3

/-- **C06**, the hypothesis on signatures: signing and decoding give affine forms. -/
theorem C06_signatures_affine (s : Signature) :
    (∀ H msg d sk n, SecretKey.Rep sk n → Signature.new H msg d sk = some s → ∃ g, s.Aff g) ∧
    (∀ re im sk n, SecretKey.Rep sk n → Signature.new_hashed re im sk = some s → ∃ g, s.Aff g) ∧
    (∀ b, Signature.from_bytes b = some (.ok s) → ∃ g, s.Aff g) := by
  refine ⟨?_, ?_, ?_⟩
  · intro H msg d sk n hn h
    obtain ⟨P, e, g, -, hP⟩ := hash_on_g2_wp H msg d
    rw [Signature.new, e] at h
    exact ⟨_, (Signature.sign_wp (hP.mono (by norm_num)) hn).elim h⟩
  · intro re im sk n hn h
    by_cases hl : re.length < 48 ∨ im.length < 48
    · rw [C04_short_panics re im hl] at h
      cases h
    · obtain ⟨P, e, g, -, hP⟩ := map_to_g2_total (re := re) (im := im) (by omega) (by omega)
      rw [Signature.new_hashed, e] at h
      exact ⟨_, (Signature.sign_wp (hP.mono (by norm_num)) hn).elim h⟩
  · intro b h
    by_cases hb : b.length = 96
    · obtain ⟨d, hd, e⟩ := (sig_from_bytes hb).elim h
      cases d with
      | error _ => cases e
      | ok P => cases e; exact Dec2.aff hd
    · rw [Signature.from_bytes, decompress_g2_size hb] at h
      cases h

/-- **C06**, the hypothesis on keys: derivation and decoding give affine forms, and exporting uncompressed
bytes, which writes to the key, keeps them. -/
theorem C06_keys_affine (k : PublicKey) :
    (∀ sk n, SecretKey.Rep sk n → PublicKey.from_secret_key sk = some k → k.Aff (n • gen1)) ∧
    (∀ b, PublicKey.from_bytes b = some (.ok k) → ∃ g, k.Aff g) ∧
    (∀ b, PublicKey.from_uncompressed_bytes b = some (.ok k) → ∃ g, k.Aff g) ∧
    (∀ k0 g b, PublicKey.Aff k0 g → PublicKey.as_uncompressed_bytes k0 = some (b, k) → k.Aff g) := by
  refine ⟨?_, ?_, ?_, ?_⟩
  · intro sk n hn h
    obtain ⟨h1, h2⟩ := (PublicKey.from_secret_key_wp hn).elim h
    exact ⟨h1, fun h0 => (h2 h0).res⟩
  · intro b h
    by_cases hb : b.length = 48
    · obtain ⟨d, hd, e⟩ := (pk_from_bytes hb).elim h
      cases d with
      | error _ => cases e
      | ok P => cases e; exact Dec1.aff hd
    · rw [PublicKey.from_bytes, decompress_g1_size hb] at h
      cases h
  · intro b h
    by_cases hb : b.length = 96
    · obtain ⟨h1, h2, h3⟩ := (from_uncompressed_wp hb).elim h
      by_cases c1 : beNat (b.take 48) = 0 ∧ beNat (b.drop 48) = 0
      · obtain ⟨k, e, hk⟩ := h1 c1
        cases e
        exact ⟨_, hk, fun h => absurd rfl h⟩
      · by_cases c2 : ((beNat (b.drop 48) : Nat) : Fp) ^ 2 = ((beNat (b.take 48) : Nat) : Fp) ^ 3 + b1
        · obtain ⟨k, e, hk, hz, -⟩ := h3 c1 c2
          cases e
          exact ⟨_, hk, fun _ => hz⟩
        · cases h2 c1 c2
    · rw [PublicKey.from_uncompressed_bytes, if_pos hb] at h
      cases h
  · intro k0 g b hk h
    rcases Pt.cases g with rfl | ⟨x, y, hc, rfl⟩
    · rw [as_uncompressed_inf hk.1] at h
      cases h
      exact hk
    · have hp := p_le_pow
      have h1 := k0.point.xOut_le x
      have h2 := ZMod.val_lt y
      refine Wp.elim (Q := fun r : List UInt8 × PublicKey => r.2.Aff (Pt.mk x y hc)) ?_ h
      unfold PublicKey.as_uncompressed_bytes
      refine Wp.bind (ECP.is_infinity_wp hk.1 (by norm_num)) fun r hr => ?_
      rw [if_neg (fun e => Pt.mk_ne hc (hr.1 e))]
      refine Wp.bind (ECP.getx_wp hk.1 (by norm_num)) ?_
      rintro ⟨X, P⟩ ⟨nX, vX, hP⟩
      dsimp only at nX vX hP ⊢
      refine Wp.bind (Wp.eq (nX.tobytes vX (by omega))) ?_
      rintro _ rfl
      refine Wp.bind (ECP.gety_wp hP (by norm_num)) ?_
      rintro ⟨Y, Q⟩ ⟨nY, vY, hQ, hz, -⟩
      dsimp only at nY vY hQ hz ⊢
      refine Wp.bind (Wp.eq (nY.tobytes vY (by omega))) ?_
      rintro _ rfl
      exact Wp.ret ⟨hQ, fun _ => hz⟩

/-! ### C06 -/

/-- The verification equation for a message point, decided. -/
theorem check_exact {sig hp : ECP2} {pk : ECP} {S g : G2} {K : G1} {k : Nat} (hs : sig.Aff S) (hS : r • S = 0)
    (hh : hp.Rep g) (hH : r • g = 0) (hk : pk.Aff K) (hx : g = 0 → K ≠ 0 ∧ XNe K) (hkk : KeyScalar K k) :
    Signature.check sig hp pk = some true ∧ S = k • g ∨ Signature.check sig hp pk = some false ∧ S ≠ k • g := by
  obtain ⟨b, e, hb⟩ := check_wp hs hS hh hH hk hx
  rw [verify_iff hS hH hkk] at hb
  cases b with
  | true => exact .inl ⟨e, hb.1 rfl⟩
  | false => exact .inr ⟨e, fun h => by cases hb.2 h⟩

/-- **C06.** For a signature of order dividing `r` and a key `k • gen1`, `verify` accepts exactly the signature
`k • g`, `g` the point of the message; it never panics. The only excluded case is that both the key and the
message point are infinity. -/
theorem C06_exactly_one (H : Keccak) (msg : List UInt8) (d : UInt64) (s : Signature) (S : G2) (pk : PublicKey) (k : Nat)
    (hs : s.Aff S) (hS : r • S = 0) (hk : pk.Aff (k • gen1))
    (h0 : MapsTo (hashX (fun m => (H m).toList) msg d.toNat) 0 → ¬ r ∣ k) :
    ∃ g, MapsTo (hashX (fun m => (H m).toList) msg d.toNat) g ∧
      (s.verify H msg d pk = some true ∧ S = k • g ∨ s.verify H msg d pk = some false ∧ S ≠ k • g) := by
  obtain ⟨P, g, e, hP, hm, ho⟩ := C26_hash_on_g2 H msg d
  refine ⟨g, hm, ?_⟩
  rw [Signature.verify, e]
  refine check_exact hs hS hP ho hk (fun e => ⟨?_, .of_order (by rw [smul_comm, r_gen1, smul_zero])⟩) (keyScalar_smul k)
  rw [Ne, smul_gen1_zero]
  exact h0 (e ▸ hm)

/-- **C06**, pre-hashed form. -/
theorem C06_exactly_one_hashed (re im : List UInt8) (hr : 48 ≤ re.length) (hi : 48 ≤ im.length) (s : Signature) (S : G2)
    (pk : PublicKey) (k : Nat) (hs : s.Aff S) (hS : r • S = 0) (hk : pk.Aff (k • gen1))
    (h0 : MapsTo ⟨(beNat (re.take 48) : Fp), (beNat (im.take 48) : Fp)⟩ 0 → ¬ r ∣ k) :
    ∃ g, MapsTo ⟨(beNat (re.take 48) : Fp), (beNat (im.take 48) : Fp)⟩ g ∧
      (s.verify_hashed re im pk = some true ∧ S = k • g ∨ s.verify_hashed re im pk = some false ∧ S ≠ k • g) := by
  obtain ⟨P, g, e, hP, hm, ho⟩ := C26_map_to_g2 re im hr hi
  refine ⟨g, hm, ?_⟩
  rw [Signature.verify_hashed, e]
  refine check_exact hs hS hP ho hk (fun e => ⟨?_, .of_order (by rw [smul_comm, r_gen1, smul_zero])⟩) (keyScalar_smul k)
  rw [Ne, smul_gen1_zero]
  exact h0 (e ▸ hm)

theorem smul_inj_torsion {g g' : G2} {k : Nat} (hg : r • g = 0) (hg' : r • g' = 0) (h0 : ¬ r ∣ k) (h : k • g = k • g') :
    g = g' := by
  have h1 : k • (g - g') = 0 := by rw [smul_sub, h, sub_self]
  have h2 : r • (g - g') = 0 := by rw [smul_sub, hg, hg', sub_self]
  have h3 := Nat.dvd_gcd (addOrderOf_dvd_of_nsmul_eq_zero h1) (addOrderOf_dvd_of_nsmul_eq_zero h2)
  rw [((Nat.Prime.coprime_iff_not_dvd prime_r').2 h0).symm, Nat.dvd_one, AddMonoid.addOrderOf_eq_one_iff] at h3
  exact sub_eq_zero.1 h3

/-- **C06**, a different message: a signature accepted for one message and domain is rejected for every
other message and domain with a different message point. -/
theorem C06_wrong_message (H : Keccak) (msg msg' : List UInt8) (d d' : UInt64) (s : Signature) (S g g' : G2) (pk : PublicKey)
    (k : Nat) (hs : s.Aff S) (hS : r • S = 0) (hk : pk.Aff (k • gen1)) (h0 : ¬ r ∣ k)
    (hg : MapsTo (hashX (fun m => (H m).toList) msg d.toNat) g)
    (hg' : MapsTo (hashX (fun m => (H m).toList) msg' d'.toNat) g') (hne : g ≠ g')
    (h : s.verify H msg d pk = some true) : s.verify H msg' d' pk = some false := by
  obtain ⟨a, ha, h1⟩ := C06_exactly_one H msg d s S pk k hs hS hk fun _ => h0
  obtain ⟨a', ha', h2⟩ := C06_exactly_one H msg' d' s S pk k hs hS hk fun _ => h0
  cases ha.unique hg
  cases ha'.unique hg'
  rcases h2 with ⟨-, h2⟩ | ⟨h2, -⟩
  · rcases h1 with ⟨-, h1⟩ | ⟨h1, -⟩
    · rw [h1] at h2
      exact absurd (smul_inj_torsion (mapsTo_order hg) (mapsTo_order hg') h0 h2) hne
    · rw [h1] at h; cases h
  · exact h2

/-- **C06**, a different key: a signature accepted for one key is rejected for every other key, unless the
message point is infinity. -/
theorem C06_wrong_key (H : Keccak) (msg : List UInt8) (d : UInt64) (s : Signature) (S g : G2) (pk pk' : PublicKey)
    (k k' : Nat) (hs : s.Aff S) (hS : r • S = 0) (hk : pk.Aff (k • gen1)) (h0 : ¬ r ∣ k)
    (hk' : pk'.Aff (k' • gen1)) (h0' : ¬ r ∣ k') (hne : k • gen1 ≠ k' • gen1)
    (hg : MapsTo (hashX (fun m => (H m).toList) msg d.toNat) g) (hg0 : g ≠ 0)
    (h : s.verify H msg d pk = some true) : s.verify H msg d pk' = some false := by
  obtain ⟨a, ha, h1⟩ := C06_exactly_one H msg d s S pk k hs hS hk fun _ => h0
  obtain ⟨a', ha', h2⟩ := C06_exactly_one H msg d s S pk' k' hs hS hk' fun _ => h0'
  cases ha.unique hg
  cases ha'.unique hg
  rcases h2 with ⟨-, h2⟩ | ⟨h2, -⟩
  · rcases h1 with ⟨-, h1⟩ | ⟨h1, -⟩
    · rw [h1] at h2
      have := Fact.mk Primes.prime_r
      have ho := addOrderOf_eq_prime (mapsTo_order hg) hg0
      rw [nsmul_eq_nsmul_iff_modEq, ho] at h2
      exact absurd (smul_gen1_iff.2 h2) hne
    · rw [h1] at h; cases h
  · exact h2

/-- **C06**, keys outside the subgroup, which the decoders accept: any key verifies as its component
in the subgroup of order `r` (`KeyScalar K k` says that this component is `k • gen1`), except that the message
point infinity needs a finite key with an abscissa that is not 0. -/
theorem C06_any_key (H : Keccak) (msg : List UInt8) (d : UInt64) (s : Signature) (S : G2) (pk : PublicKey) (K : G1)
    (hs : s.Aff S) (hS : r • S = 0) (hk : pk.Aff K) (hx : MapsTo (hashX (fun m => (H m).toList) msg d.toNat) 0 → K ≠ 0 ∧ XNe K) :
    ∃ g k, MapsTo (hashX (fun m => (H m).toList) msg d.toNat) g ∧ KeyScalar K k ∧
      (s.verify H msg d pk = some true ∧ S = k • g ∨ s.verify H msg d pk = some false ∧ S ≠ k • g) := by
  obtain ⟨P, g, e, hP, hm, ho⟩ := C26_hash_on_g2 H msg d
  obtain ⟨k, hkk⟩ := exists_keyScalar K
  refine ⟨g, k, hm, hkk, ?_⟩
  rw [Signature.verify, e]
  exact check_exact hs hS hP ho hk (fun e => hx (e ▸ hm)) hkk

/-- **C06**, a consequence of the missing subgroup check: adding a point of order dividing the cofactor to a
key gives a different key that accepts the same signatures. -/
theorem C06_key_plus_small_order (H : Keccak) (msg : List UInt8) (d : UInt64) (s : Signature) (S : G2) (pk pk' : PublicKey)
    (K T : G1) (hs : s.Aff S) (hS : r • S = 0) (hk : pk.Aff K)
    (hx : MapsTo (hashX (fun m => (H m).toList) msg d.toNat) 0 → K ≠ 0 ∧ XNe K) (hT : h1 • T = 0)
    (hk' : pk'.Aff (K + T)) (hx' : MapsTo (hashX (fun m => (H m).toList) msg d.toNat) 0 → K + T ≠ 0 ∧ XNe (K + T)) :
    s.verify H msg d pk = s.verify H msg d pk' ∧ s.verify H msg d pk ≠ none := by
  obtain ⟨g, k, hm, hkk, h1⟩ := C06_any_key H msg d s S pk K hs hS hk hx
  obtain ⟨P, g', e, hP, hm', ho⟩ := C26_hash_on_g2 H msg d
  cases hm.unique hm'
  have h2 := check_exact hs hS hP ho hk' (fun e => hx' (e ▸ hm)) (k := k) (by rw [KeyScalar, smul_add, hT, add_zero]; exact hkk)
  have e2 : s.verify H msg d pk' = Signature.check s.point P pk'.point := by rw [Signature.verify, e]; rfl
  rw [← e2] at h2
  rcases h1 with ⟨h1, hs1⟩ | ⟨h1, hs1⟩ <;> rcases h2 with ⟨h2, hs2⟩ | ⟨h2, hs2⟩
  · exact ⟨by rw [h1, h2], by simp [h1]⟩
  · exact absurd hs1 hs2
  · exact absurd hs2 hs1
  · exact ⟨by rw [h1, h2], by simp [h1]⟩

/-- **C06**, infinity: the infinity signature is accepted for a finite key of order `r` only if the message
point is infinity. -/
theorem C06_infinity_signature (H : Keccak) (msg : List UInt8) (d : UInt64) (s : Signature) (pk : PublicKey) (k : Nat)
    (hs : s.Rep 0) (hk : pk.Aff (k • gen1)) (h0 : ¬ r ∣ k) (g : G2)
    (hg : MapsTo (hashX (fun m => (H m).toList) msg d.toNat) g) : s.verify H msg d pk = some true ↔ g = 0 := by
  obtain ⟨g', hg', h⟩ := C06_exactly_one H msg d s 0 pk k ⟨hs, fun h => absurd rfl h⟩ (smul_zero _) hk fun _ => h0
  cases hg.unique hg'
  constructor
  · intro hv
    rcases h with ⟨-, h⟩ | ⟨h, -⟩
    · exact (smul_inj_torsion (g := 0) (smul_zero _) (mapsTo_order hg) h0 (by rw [smul_zero]; exact h)).symm
    · rw [h] at hv; cases hv
  · rintro rfl
    rcases h with ⟨h, -⟩ | ⟨-, h⟩
    · exact h
    · exact absurd (smul_zero _).symm h

/-! ### C05 -/

/-- **C05.** For every hash function with 32-byte values, every message, every domain and every secret key:
signing, deriving the public key and verifying end without panic, and the signature is accepted. The only
excluded case is that the message point is infinity and the secret key is a multiple of `r`. -/
theorem C05_sign_verify (H : Keccak) (msg : List UInt8) (d : UInt64) (sk : SecretKey) (n : Nat) (hn : sk.Rep n)
    (h0 : MapsTo (hashX (fun m => (H m).toList) msg d.toNat) 0 → ¬ r ∣ n) : ∃ s pk, Signature.new H msg d sk = some s ∧ PublicKey.from_secret_key sk = some pk ∧
      s.verify H msg d pk = some true := by
  obtain ⟨P, e, g, hg, hP⟩ := hash_on_g2_wp H msg d
  obtain ⟨s, es, hs⟩ := Signature.sign_wp (hP.mono (by norm_num)) hn
  obtain ⟨pk, ek, hk, -⟩ := PublicKey.from_secret_key_wp hn
  have hk := (C06_keys_affine pk).1 sk n hn ek
  refine ⟨s, pk, by rw [Signature.new, e]; exact es, ek, ?_⟩
  obtain ⟨g', hg', h⟩ := C06_exactly_one H msg d s (n • g) pk n hs (by rw [smul_comm, mapsTo_order hg, smul_zero]) hk h0
  cases hg.unique hg'
  rcases h with ⟨h, -⟩ | ⟨-, h⟩
  · exact h
  · exact absurd rfl h

/-- **C05**, pre-hashed form. -/
theorem C05_sign_verify_hashed (re im : List UInt8) (hr : 48 ≤ re.length) (hi : 48 ≤ im.length) (sk : SecretKey) (n : Nat)
    (hn : sk.Rep n) (h0 : MapsTo ⟨(beNat (re.take 48) : Fp), (beNat (im.take 48) : Fp)⟩ 0 → ¬ r ∣ n) : ∃ s pk, Signature.new_hashed re im sk = some s ∧
      PublicKey.from_secret_key sk = some pk ∧ s.verify_hashed re im pk = some true := by
  obtain ⟨P, e, g, hg, hP⟩ := map_to_g2_total hr hi
  obtain ⟨s, es, hs⟩ := Signature.sign_wp (hP.mono (by norm_num)) hn
  obtain ⟨pk, ek, hk, -⟩ := PublicKey.from_secret_key_wp hn
  have hk := (C06_keys_affine pk).1 sk n hn ek
  refine ⟨s, pk, by rw [Signature.new_hashed, e]; exact es, ek, ?_⟩
  obtain ⟨g', hg', h⟩ := C06_exactly_one_hashed re im hr hi s (n • g) pk n hs (by rw [smul_comm, mapsTo_order hg, smul_zero])
    hk h0
  cases hg.unique hg'
  rcases h with ⟨h, -⟩ | ⟨-, h⟩
  · exact h
  · exact absurd rfl h

/-- The hypotheses hold for the key 5: its signature of the message `[1, 2, 3]` is accepted. -/
example (H : Keccak) : ∃ sk s pk, SecretKey.Rep sk 5 ∧ Signature.new H [1, 2, 3] 7 sk = some s ∧
    PublicKey.from_secret_key sk = some pk ∧ s.verify H [1, 2, 3] 7 pk = some true := by
  obtain ⟨sk, hk⟩ := SecretKey.exists_rep (n := 5) (by norm_num)
  obtain ⟨s, pk, h⟩ := C05_sign_verify H [1, 2, 3] 7 sk 5 hk fun _ => by norm_num [r]
  exact ⟨sk, s, pk, hk, h⟩

/-- With a hash that is constantly 0, the signature of the key 5 is rejected for the key 6. -/
example : ∃ sk sk' s pk', SecretKey.Rep sk 5 ∧ SecretKey.Rep sk' 6 ∧
    Signature.new (fun _ => Vector.replicate 32 0) [1, 2, 3] 7 sk = some s ∧ PublicKey.from_secret_key sk' = some pk' ∧
    s.verify (fun _ => Vector.replicate 32 0) [1, 2, 3] 7 pk' = some false := by
  obtain ⟨sk, hk⟩ := SecretKey.exists_rep (n := 5) (by norm_num)
  obtain ⟨sk', hk'⟩ := SecretKey.exists_rep (n := 6) (by norm_num)
  obtain ⟨s, pk, h1, hpk, h3⟩ := C05_sign_verify (fun _ => Vector.replicate 32 0) [1, 2, 3] 7 sk 5 hk fun _ => by norm_num [r]
  obtain ⟨pk', e', -⟩ := PublicKey.from_secret_key_wp hk'
  obtain ⟨g, s', hg, e, hs⟩ := C04_sign (fun _ => Vector.replicate 32 0) [1, 2, 3] 7 sk 5 hk
  rw [h1] at e
  cases e
  obtain ⟨S, hS⟩ := (C06_signatures_affine s).1 _ _ _ _ _ hk h1
  cases hS.1.inj hs
  refine ⟨sk, sk', s, pk', hk, hk', h1, e', ?_⟩
  refine C06_wrong_key _ _ _ s _ g pk pk' 5 6 hS ?_ ((C06_keys_affine pk).1 _ _ hk hpk) (by norm_num [r])
    ((C06_keys_affine pk').1 _ _ hk' e') (by norm_num [r]) ?_ hg ?_ h3
  · rw [smul_comm, mapsTo_order hg, smul_zero]
  · rw [Ne, smul_gen1_iff]
    norm_num [r]
  · have e0 : beNat (Vector.replicate 32 (0 : UInt8)).toList = 0 := by decide
    rw [hashX, e0, Nat.cast_zero] at hg
    rw [hg.unique zero_mapsTo, Ne, ← Eval.smul_zero_iff b2_is (two_is two_on) (f := 763) (by norm_num [h2])]
    decide +kernel

theorem h1_order3 : h1 • (Pt.mk 0 2 order3_on : G1) = 0 := by
  have h := Pt.three_smul_zero order3_on
  rw [show h1 = (h1 / 3) * 3 by norm_num [h1], mul_smul, h, smul_zero]

theorem three_gen1_order3 : 3 • (gen1 + Pt.mk 0 2 order3_on) ≠ 0 := by
  rw [smul_add, Pt.three_smul_zero, add_zero, Ne, smul_gen1_zero]
  norm_num [r]

/-- The generator plus the point `(0, 2)` of order 3 is another key that accepts the signatures made with
the secret key 1. -/
example (H : Keccak) (msg : List UInt8) (d : UInt64) : ∃ sk s pk pk', SecretKey.Rep sk 1 ∧
    Signature.new H msg d sk = some s ∧ PublicKey.from_secret_key sk = some pk ∧
    pk'.Aff (gen1 + Pt.mk 0 2 order3_on) ∧ pk.eq pk' = some false ∧
    s.verify H msg d pk = some true ∧ s.verify H msg d pk' = some true := by
  obtain ⟨sk, hk⟩ := SecretKey.exists_rep (n := 1) (by norm_num)
  obtain ⟨s, pk, e1, e2, e3⟩ := C05_sign_verify H msg d sk 1 hk fun _ => by norm_num [r]
  obtain ⟨P', hP'⟩ := exists_aff1 (gen1 + Pt.mk 0 2 order3_on)
  have hpk := (C06_keys_affine pk).1 _ _ hk e2
  rw [one_smul] at hpk
  obtain ⟨g, s', hg, e, hs⟩ := C04_sign H msg d sk 1 hk
  rw [e1] at e
  cases e
  obtain ⟨S, hS⟩ := (C06_signatures_affine s).1 _ _ _ _ _ hk e1
  cases hS.1.inj hs
  have hx : XNe (gen1 + Pt.mk 0 2 order3_on) := by
    rintro x y h hxy rfl
    exact three_gen1_order3 (by rw [hxy, Pt.three_smul_zero])
  have hv := C06_key_plus_small_order H msg d s _ pk ⟨P'⟩ gen1 _ hS (by rw [smul_comm, mapsTo_order hg, smul_zero]) hpk
    (fun _ => ⟨gen1_ne, .of_order r_gen1⟩) h1_order3 hP' (fun _ => ⟨fun h => three_gen1_order3 (by rw [h, smul_zero]), hx⟩)
  obtain ⟨b, eb, hb⟩ := ECP.equals_wp hpk.1 hP'.1 (by norm_num)
  refine ⟨sk, s, pk, ⟨P'⟩, hk, e1, e2, hP', ?_, e3, by rw [← hv.1, e3]⟩
  cases b with
  | false => exact eb
  | true => exact absurd (hb.1 rfl) (by rw [eq_comm, add_eq_left]; exact Pt.mk_ne _)

end Props
