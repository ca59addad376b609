import Verif.Props.Verify
/-!
# Properties C11, C12: verification of aggregates
-/

set_option exponentiation.threshold 6000

namespace Props

open Amcl Spec

seal Spec.finalExp Spec.toBE Spec.signBit Spec.enc1

/-- The value of the pairing algorithm at a pair of field elements: see `C31_textbook`. -/
noncomputable def ateVal (x y : Fp) (Q : G2) : Fp12 := (signedMiller x y Q)⁻¹ ^ finalExp

/-- The first two coordinates after `affine`: those of the point, or those of the representation if the point
is infinity. -/
def Coords (P : ECP) (x y : Fp) : Prop :=
  ∃ g, P.Rep g ∧ (g = 0 ∧ x = P.x.toF ∧ y = P.y.toF ∨ ∃ h, g = Pt.mk x y h)

theorem Coords.of_mk {P : ECP} {x y : Fp} {h : y ^ 2 = x ^ 3 + b1} (hP : P.Rep (Pt.mk x y h)) : Coords P x y :=
  ⟨_, hP, .inr ⟨h, rfl⟩⟩

theorem Coords.affine {P : ECP} {x y : Fp} (h : Coords P x y) :
    Wp P.affine fun R => FP.Ok R.x 1 (2 ^ 20) x ∧ FP.Ok R.y 1 (2 ^ 20) y := by
  obtain ⟨g, hP, ⟨rfl, rfl, rfl⟩ | ⟨h, rfl⟩⟩ := h
  · refine (ECP.affine_wp hP (by norm_num)).mono fun R hR => ?_
    rw [hR.2.1 rfl]
    exact ⟨hP.x.mono (by norm_num), hP.y.mono (by norm_num)⟩
  · exact (ECP.affine_aff hP).mono fun R hR => hR.coords

/-! ### C12 -/

/-- **C12**, rejected inputs: no keys, or a buffer whose length is not 32 bytes per key. -/
theorem C12_bad_input (H : Keccak) (s : AggregateSignature) (S : G2) (hs : s.Rep S) (msg : List UInt8) (d : UInt64)
    (avks : List AggregatePublicKey) (h : avks = [] ∨ msg.length ≠ 32 * avks.length) :
    s.verify_multiple H msg d avks = some false := by
  obtain ⟨P, e, -⟩ := ECP2.affine_aff hs
  rw [AggregateSignature.verify_multiple, e]
  have : msg.length ≠ 32 * avks.length ∨ avks.isEmpty = true := by
    rcases h with rfl | h
    · exact .inr rfl
    · exact .inl h
  exact if_pos this

theorem factor_wp (H : Keccak) (msg : List UInt8) (d : UInt64) (i : Nat) {k : AggregatePublicKey} {x y : Fp} {g : G2}
    (hk : Coords k.point x y) (hg : MapsTo (hashX (fun m => (H m).toList) ((msg.drop (32 * i)).take 32) d.toNat) g) :
    Wp (AggregateSignature.factor H msg d i k) fun z => z.Can (ateVal x y g) := by
  unfold AggregateSignature.factor
  refine Wp.bind hk.affine ?_
  rintro R ⟨hx, hy⟩
  rw [mul_comm 32] at hg
  obtain ⟨P, g', e, hP, hm, -⟩ := C26_hash_on_g2 H ((msg.drop (i * 32)).take 32) d
  cases hg.unique hm
  rw [e]
  show Wp (P.affine >>= _) _
  refine Wp.bind (ECP2.affine_aff hP) fun Q hQ => ?_
  exact pair.ate_pairing_wp hQ.1 hQ.2 hx hy

theorem product_wp (H : Keccak) (msg : List UInt8) (d : UInt64) (x y : Nat → Fp) (g : Nat → G2) :
    ∀ (ks : List AggregatePublicKey) (i : Nat) (lhs : FP12) (v : Fp12), i ≠ 0 → FP12.Ok lhs 1 (2 ^ 12) v →
      (∀ j (hj : j < ks.length), Coords ks[j].point (x (i + j)) (y (i + j))) →
      (∀ j, j < ks.length →
        MapsTo (hashX (fun m => (H m).toList) ((msg.drop (32 * (i + j))).take 32) d.toNat) (g (i + j))) →
      Wp (AggregateSignature.product H msg d i ks lhs) fun z =>
        FP12.Ok z 1 (2 ^ 12) (v * ∏ j ∈ Finset.range ks.length, ateVal (x (i + j)) (y (i + j)) (g (i + j)))
  | [], i, lhs, v, _, hl, _, _ => by
    rw [AggregateSignature.product]
    rw [List.length_nil, Finset.prod_range_zero, mul_one]
    exact Wp.ret hl
  | k :: ks, i, lhs, v, hi, hl, hk, hg => by
    rw [AggregateSignature.product]
    refine Wp.bind (factor_wp H msg d i (hk 0 (by simp)) (hg 0 (by simp))) fun z hz => ?_
    rw [if_neg hi]
    refine Wp.bind (FP12.mul_wp (hl.mono (by norm_num)) (hz.ok.mono (by norm_num))) fun w hw => ?_
    refine (product_wp H msg d x y g ks (i + 1) w _ (by omega) hw ?_ ?_).mono fun u hu => ?_
    · intro j hj
      have := hk (j + 1) (by simpa using hj)
      rwa [show i + (j + 1) = i + 1 + j by omega] at this
    · intro j hj
      have := hg (j + 1) (by simpa using hj)
      rwa [show i + (j + 1) = i + 1 + j by omega] at this
    · rw [List.length_cons, Finset.prod_range_succ', mul_comm _ (ateVal _ _ _), ← mul_assoc]
      have e : ∀ j, i + (j + 1) = i + 1 + j := fun j => by omega
      rw [Finset.prod_congr rfl fun j _ => by rw [e j]]
      exact hu

/-- **C12.** For every aggregate signature, every buffer of 32 bytes per key and every list of at least one
key: the `i`-th key is paired with the point `g i` of the bytes `32 i, …, 32 i + 31`, and the result is true
exactly if the product of the pairings is the pairing of the signature with the generator. Nothing panics. -/
theorem C12_product (H : Keccak) (s : AggregateSignature) (S : G2) (hs : s.Rep S) (msg : List UInt8) (d : UInt64)
    (avks : List AggregatePublicKey) (h0 : avks ≠ []) (hl : msg.length = 32 * avks.length) (x y : Nat → Fp)
    (hk : ∀ i (hi : i < avks.length), Coords avks[i].point (x i) (y i)) (g : Nat → G2)
    (hg : ∀ i, i < avks.length → MapsTo (hashX (fun m => (H m).toList) ((msg.drop (32 * i)).take 32) d.toNat) (g i)) :
    ∃ b, s.verify_multiple H msg d avks = some b ∧
      (b = true ↔ ∏ i ∈ Finset.range avks.length, ateVal (x i) (y i) (g i) = ateVal g1x g1y S) := by
  show Wp _ _
  unfold AggregateSignature.verify_multiple
  refine Wp.bind (ECP2.affine_aff hs) fun P hP => ?_
  rw [if_neg (by simp [hl, h0])]
  obtain ⟨k, ks, rfl⟩ := List.exists_cons_of_ne_nil h0
  have hp : Wp (AggregateSignature.product H msg d 0 (k :: ks) FP12.new) fun z =>
      FP12.Ok z 1 (2 ^ 12) (∏ i ∈ Finset.range (k :: ks).length, ateVal (x i) (y i) (g i)) := by
    rw [AggregateSignature.product]
    refine Wp.bind (factor_wp H msg d 0 (hk 0 (by simp)) (hg 0 (by simp))) fun z hz => ?_
    rw [if_pos rfl]
    refine Wp.bind (Wp.ret rfl : Wp (pure z) (· = z)) ?_
    rintro z rfl
    refine (product_wp H msg d x y g ks 1 z _ (by omega) (hz.ok.mono (by norm_num)) ?_ ?_).mono fun u hu => ?_
    · intro j hj
      have := hk (j + 1) (by simpa using hj)
      rw [add_comm 1 j]
      exact this
    · intro j hj
      have := hg (j + 1) (by simpa using hj)
      rwa [add_comm j] at this
    · rw [List.length_cons, Finset.prod_range_succ', mul_comm _ (ateVal _ _ _)]
      rw [Finset.prod_congr rfl fun j _ => by rw [add_comm j 1]]
      exact hu
  refine Wp.bind hp fun l hl => ?_
  refine Wp.bind generator_aff fun G hG => ?_
  obtain ⟨gx, gy⟩ := hG.coords
  refine Wp.bind (pair.ate_pairing_wp hP.1 hP.2 gx gy) fun r' hr => ?_
  exact FP12.equals_wp hl hr.ok (by norm_num)

theorem Coords.pairing {P : ECP} {K : G1} {Q : G2} {x y : Fp} (hc : Coords P x y) (hP : P.Rep K) (hK : r • K = 0)
    (hQ : r • Q = 0) (h0 : Q = 0 → K ≠ 0) : ateVal x y Q = Spec.pairing Q K := by
  obtain ⟨g, hg, ⟨rfl, rfl, rfl⟩ | ⟨h, rfl⟩⟩ := hc
  · cases hg.inj hP
    rw [ateVal, hg.inf_coords.1, signedMiller_zero_abscissa hg.inf_coords.2 hQ fun h => h0 h rfl]
    rfl
  · cases hg.inj hP
    by_cases h0 : Q = 0
    · rw [h0, pairing_zero_left, ateVal, signedMiller_inf (Pt.x_ne_of_order hK)]
    · rw [ateVal, signedMiller_eq h hQ h0]

theorem Coords.exists_of {P : ECP} {g : G1} (h : P.Rep g) : ∃ c : Fp × Fp, Coords P c.1 c.2 := by
  rcases Pt.cases g with rfl | ⟨x, y, hc, rfl⟩
  · exact ⟨(P.x.toF, P.y.toF), _, h, .inl ⟨rfl, rfl, rfl⟩⟩
  · exact ⟨(x, y), .of_mk h⟩

theorem ateVal_pairing {K : G1} {Q : G2} (hK : r • K = 0) (hQ : r • Q = 0) {x y : Fp} {h : y ^ 2 = x ^ 3 + b1}
    (e : K = Pt.mk x y h) : ateVal x y Q = pairing Q K := by
  subst e
  by_cases h0 : Q = 0
  · rw [h0, pairing_zero_left, ateVal, signedMiller_inf (Pt.x_ne_of_order hK)]
  · rw [ateVal, signedMiller_eq h hQ h0]

theorem pairing_sum (n : Nat) (k : Nat → Nat) (g : Nat → G2) (hg : ∀ i, i < n → r • g i = 0) :
    r • (∑ i ∈ Finset.range n, k i • g i) = 0 ∧
    ∏ i ∈ Finset.range n, pairing (g i) (k i • gen1) = pairing (∑ i ∈ Finset.range n, k i • g i) gen1 := by
  induction n with
  | zero => exact ⟨by simp, by simp [pairing_zero_left]⟩
  | succ n ih =>
    obtain ⟨h1, h2⟩ := ih fun i hi => hg i (by omega)
    have hn := hg n (by omega)
    have hk : r • k n • g n = 0 := by rw [smul_comm, hn, smul_zero]
    rw [Finset.sum_range_succ, Finset.prod_range_succ, h2, pairing_add_left h1 hk, pairing_key hn (keyScalar_smul _)]
    exact ⟨by rw [smul_add, h1, hk, add_zero], rfl⟩

/-- **C12**, solved for the signature: with keys `k i • gen1` and a signature of order dividing `r`,
`verify_multiple` accepts exactly the sum of the `k i • g i`. The only excluded case is that a key and its
message point are both infinity. -/
theorem C12_exactly_one (H : Keccak) (s : AggregateSignature) (S : G2) (hs : s.Rep S) (hS : r • S = 0) (msg : List UInt8)
    (d : UInt64) (avks : List AggregatePublicKey) (h0 : avks ≠ []) (hl : msg.length = 32 * avks.length) (k : Nat → Nat)
    (g : Nat → G2)
    (hg : ∀ i, i < avks.length → MapsTo (hashX (fun m => (H m).toList) ((msg.drop (32 * i)).take 32) d.toNat) (g i))
    (hk : ∀ i (hi : i < avks.length), avks[i].Rep (k i • gen1) ∧ (g i = 0 → ¬ r ∣ k i)) :
    s.verify_multiple H msg d avks = some true ∧ S = ∑ i ∈ Finset.range avks.length, k i • g i ∨
    s.verify_multiple H msg d avks = some false ∧ S ≠ ∑ i ∈ Finset.range avks.length, k i • g i := by
  have hx : ∀ i, ∃ c : Fp × Fp, ∀ hi : i < avks.length, Coords avks[i].point c.1 c.2 := by
    intro i
    by_cases hi : i < avks.length
    · obtain ⟨c, hc⟩ := Coords.exists_of (hk i hi).1
      exact ⟨c, fun _ => hc⟩
    · exact ⟨(0, 0), fun h => absurd h hi⟩
  choose c hc using hx
  have hgo : ∀ i, i < avks.length → r • g i = 0 := fun i hi => mapsTo_order (hg i hi)
  obtain ⟨b, e, hb⟩ := C12_product H s S hs msg d avks h0 hl (fun i => (c i).1) (fun i => (c i).2) hc g hg
  have e1 : ∏ i ∈ Finset.range avks.length, ateVal (c i).1 (c i).2 (g i) =
      ∏ i ∈ Finset.range avks.length, pairing (g i) (k i • gen1) := by
    refine Finset.prod_congr rfl fun i hi => ?_
    have hi := Finset.mem_range.1 hi
    refine (hc i hi).pairing (hk i hi).1 (by rw [smul_comm, r_gen1, smul_zero]) (hgo i hi) fun e => ?_
    rw [Ne, smul_gen1_zero]
    exact (hk i hi).2 e
  obtain ⟨h1, h2⟩ := pairing_sum avks.length k g hgo
  rw [e1, h2, ateVal_pairing r_gen1 hS (show gen1 = Pt.mk (g1x : Fp) (g1y : Fp) g1_on from rfl),
    pairing_inj h1 hS] at hb
  cases b with
  | true => exact .inl ⟨e, (hb.1 rfl).symm⟩
  | false => exact .inr ⟨e, fun h => by cases hb.2 h.symm⟩

/-! ### C11 -/

/-- **C11**, exactly one: for an aggregate signature of order dividing `r` and an aggregate key `k • gen1`,
in any representation, `verify` accepts exactly `k • g`, unless the key and the message point are both
infinity. -/
theorem C11_exactly_one (H : Keccak) (msg : List UInt8) (d : UInt64) (s : AggregateSignature) (S : G2)
    (avk : AggregatePublicKey) (k : Nat) (hs : s.Rep S) (hS : r • S = 0) (hk : avk.Rep (k • gen1))
    (h0 : MapsTo (hashX (fun m => (H m).toList) msg d.toNat) 0 → ¬ r ∣ k) :
    ∃ g, MapsTo (hashX (fun m => (H m).toList) msg d.toNat) g ∧
      (s.verify H msg d avk = some true ∧ S = k • g ∨ s.verify H msg d avk = some false ∧ S ≠ k • g) := by
  obtain ⟨P, g, e, hP, hm, ho⟩ := C26_hash_on_g2 H msg d
  refine ⟨g, hm, ?_⟩
  obtain ⟨s', es, hs'⟩ := ECP2.affine_aff hs
  obtain ⟨k', ek, hk'⟩ := ECP.affine_aff hk
  rw [AggregateSignature.verify, es, ek, e]
  refine check_exact hs' hS hP ho hk' (fun e => ⟨?_, .of_order (by rw [smul_comm, r_gen1, smul_zero])⟩) (keyScalar_smul k)
  rw [Ne, smul_gen1_zero]
  exact h0 (e ▸ hm)

/-- The signatures of one message by several keys. -/
theorem signatures_of {H : Keccak} {msg : List UInt8} {d : UInt64} {g : G2}
    (hg : MapsTo (hashX (fun m => (H m).toList) msg d.toNat) g) {sks : List SecretKey} {ns : List Nat}
    (h : List.Forall₂ SecretKey.Rep sks ns) :
    ∃ sigs, sks.mapM (Signature.new H msg d) = some sigs ∧ List.Forall₂ Signature.Rep sigs (ns.map fun n => n • g) := by
  induction h with
  | nil => exact ⟨[], by simp, .nil⟩
  | @cons s n ss ns h0 _ ih =>
    obtain ⟨sigs, e, hp⟩ := ih
    obtain ⟨g', sg, hg', e1, h1⟩ := C04_sign H msg d s n h0
    cases hg.unique hg'
    exact ⟨sg :: sigs, by simp [e, e1], .cons h1 hp⟩

/-- **C11.** For every message, domain and list of secret keys: the aggregate of the signatures is accepted
for the aggregate of the public keys. The only excluded case is that the message point is infinity and the sum
of the keys is a multiple of `r`. -/
theorem C11_honest (H : Keccak) (msg : List UInt8) (d : UInt64) (sks : List SecretKey) (ns : List Nat)
    (h : List.Forall₂ SecretKey.Rep sks ns) (h0 : MapsTo (hashX (fun m => (H m).toList) msg d.toNat) 0 → ¬ r ∣ ns.sum) :
    ∃ sigs a0 a pks avk, sks.mapM (Signature.new H msg d) = some sigs ∧ AggregateSignature.new = some a0 ∧
      sigs.foldlM AggregateSignature.add a0 = some a ∧ sks.mapM PublicKey.from_secret_key = some pks ∧
      AggregatePublicKey.from_public_keys pks = some avk ∧ a.verify H msg d avk = some true := by
  obtain ⟨P, g, -, -, hm, ho⟩ := C26_hash_on_g2 H msg d
  obtain ⟨sigs, e1, hp⟩ := signatures_of hm h
  obtain ⟨a0, a, e2, e3, ha⟩ := C08_aggregate_signature_is_sum (sigs.map .add) _ (List.forall₂_map_left_iff.2 hp)
  obtain ⟨pks, avk, e4, e5, hk⟩ := C10_aggregate_of_keys sks ns h
  rw [sum_smul_pt] at ha
  refine ⟨sigs, a0, a, pks, avk, e1, e2, ?_, e4, e5, ?_⟩
  · rw [← e3, List.foldlM_map]; rfl
  · obtain ⟨g', hg', h | h⟩ := C11_exactly_one H msg d a _ avk _ ha (by rw [smul_comm, ho, smul_zero]) hk h0
    · exact h.1
    · cases hm.unique hg'
      exact absurd rfl h.2

/-- Three signers with the keys 1, 2, 3. -/
example : ∃ sks, List.Forall₂ SecretKey.Rep sks [1, 2, 3] ∧ ¬ r ∣ [1, 2, 3].sum := by
  obtain ⟨s1, h1⟩ := SecretKey.exists_rep (n := 1) (by norm_num)
  obtain ⟨s2, h2⟩ := SecretKey.exists_rep (n := 2) (by norm_num)
  obtain ⟨s3, h3⟩ := SecretKey.exists_rep (n := 3) (by norm_num)
  exact ⟨[s1, s2, s3], by simp [h1, h2, h3], by norm_num [r]⟩

/-- One message with the keys of its signers. -/
abbrev Job := List UInt8 × List SecretKey

/-- A message of 32 bytes, signed by keys of values `ns`; their sum is not a multiple of `r` if the message
point is infinity. -/
def Job.Ok (H : Keccak) (d : UInt64) (j : Job) (ns : List Nat) : Prop :=
  j.1.length = 32 ∧ List.Forall₂ SecretKey.Rep j.2 ns ∧
    (MapsTo (hashX (fun m => (H m).toList) j.1 d.toNat) 0 → ¬ r ∣ ns.sum)

theorem chunk_flatten (jobs : List Job) (h : ∀ j ∈ jobs, j.1.length = 32) (i : Nat) (hi : i < jobs.length) :
    (((jobs.map Prod.fst).flatten.drop (32 * i)).take 32) = jobs[i].1 := by
  induction jobs generalizing i with
  | nil => cases hi
  | cons j js ih =>
    have hj := h j (by simp)
    cases i with
    | zero =>
      rw [mul_zero, List.drop_zero, List.map_cons, List.flatten_cons, ← hj, List.take_left']
      · rfl
      · rfl
    | succ i =>
      rw [List.map_cons, List.flatten_cons, show 32 * (i + 1) = j.1.length + 32 * i by omega, List.drop_append]
      rw [List.drop_eq_nil_of_le (by omega), List.nil_append, Nat.add_sub_cancel_left]
      exact ih (fun j hj => h j (by simp [hj])) i (by simpa using hi)

theorem length_flatten32 (jobs : List Job) (h : ∀ j ∈ jobs, j.1.length = 32) :
    (jobs.map Prod.fst).flatten.length = 32 * jobs.length := by
  induction jobs with
  | nil => rfl
  | cons j js ih =>
    rw [List.map_cons, List.flatten_cons, List.length_append, h j (by simp), ih fun j hj => h j (by simp [hj]),
      List.length_cons]
    omega

/-- What the jobs produce. -/
theorem jobs_run (H : Keccak) (d : UInt64) {jobs : List Job} {nss : List (List Nat)} (h : List.Forall₂ (Job.Ok H d) jobs nss) :
    ∃ (sigs : List (List Signature)) (avks : List AggregatePublicKey) (g : Nat → G2),
      jobs.mapM (fun j => j.2.mapM (Signature.new H j.1 d)) = some sigs ∧
      jobs.mapM (fun j => j.2.mapM PublicKey.from_secret_key >>= AggregatePublicKey.from_public_keys) = some avks ∧
      avks.length = jobs.length ∧ (∀ j ∈ jobs, j.1.length = 32) ∧
      (∀ i (hi : i < jobs.length), MapsTo (hashX (fun m => (H m).toList) jobs[i].1 d.toNat) (g i)) ∧
      (∀ i (hi : i < avks.length), avks[i].Rep ((nss.getD i []).sum • gen1) ∧ (g i = 0 → ¬ r ∣ (nss.getD i []).sum)) ∧
      ∃ gs, List.Forall₂ Signature.Rep sigs.flatten gs ∧
        gs.sum = ∑ i ∈ Finset.range jobs.length, (nss.getD i []).sum • g i := by
  induction h with
  | nil => exact ⟨[], [], fun _ => 0, by simp, by simp, rfl, by simp, by simp, by simp, [], .nil, by simp⟩
  | @cons j ns js nss h0 _ ih =>
    obtain ⟨sigs, avks, g, e1, e2, hl, h32, hg, hk, gs, hgs, hsum⟩ := ih
    obtain ⟨hj, hr, hn⟩ := h0
    obtain ⟨P, g0, -, -, hm, ho⟩ := C26_hash_on_g2 H j.1 d
    obtain ⟨sg, es, hsg⟩ := signatures_of hm hr
    obtain ⟨pks, avk, e4, e5, hka⟩ := C10_aggregate_of_keys j.2 ns hr
    refine ⟨sg :: sigs, avk :: avks, fun i => if i = 0 then g0 else g (i - 1), by simp [es, e1], by rw [List.mapM_cons, e4, e2]; show (AggregatePublicKey.from_public_keys pks >>= _) = _; rw [e5]; rfl,
      by simp [hl], ?_, ?_, ?_, ns.map (fun n => n • g0) ++ gs, ?_, ?_⟩
    · simpa [hj] using h32
    · intro i hi
      cases i with
      | zero => exact hm
      | succ i => exact hg i (by simpa using hi)
    · intro i hi
      cases i with
      | zero => exact ⟨hka, fun e => hn (by have e : g0 = 0 := e; exact e ▸ hm)⟩
      | succ i => exact hk i (by simpa using hi)
    · rw [List.flatten_cons]
      exact List.rel_append hsg hgs
    · rw [List.sum_append, sum_smul_pt, hsum, List.length_cons, Finset.sum_range_succ', add_comm]
      rfl

/-- **C11**, several messages: for every list of messages of 32 bytes, each signed by any keys (with the
exception of C11 for each message), the aggregate of all signatures is accepted by `verify_multiple` for the concatenated
messages and the list of aggregate keys. -/
theorem C11_honest_multiple (H : Keccak) (d : UInt64) (jobs : List Job) (nss : List (List Nat))
    (h : List.Forall₂ (Job.Ok H d) jobs nss) (h0 : jobs ≠ []) :
    ∃ (sigs : List (List Signature)) (avks : List AggregatePublicKey) (a0 a : AggregateSignature),
      jobs.mapM (fun j => j.2.mapM (Signature.new H j.1 d)) = some sigs ∧
      jobs.mapM (fun j => j.2.mapM PublicKey.from_secret_key >>= AggregatePublicKey.from_public_keys) = some avks ∧
      AggregateSignature.new = some a0 ∧ sigs.flatten.foldlM AggregateSignature.add a0 = some a ∧
      a.verify_multiple H (jobs.map Prod.fst).flatten d avks = some true := by
  obtain ⟨sigs, avks, g, e1, e2, hl, h32, hg, hk, gs, hgs, hsum⟩ := jobs_run H d h
  obtain ⟨a0, a, e3, e4, ha⟩ := C08_aggregate_signature_is_sum (sigs.flatten.map .add) _ (List.forall₂_map_left_iff.2 hgs)
  refine ⟨sigs, avks, a0, a, e1, e2, e3, by rw [← e4, List.foldlM_map]; rfl, ?_⟩
  have hgo : ∀ i, i < avks.length → r • g i = 0 := fun i hi => mapsTo_order (hg i (by omega))
  have hne : avks ≠ [] := by
    rintro rfl
    exact h0 (List.eq_nil_of_length_eq_zero hl.symm)
  rw [hsum, ← hl] at ha
  obtain h | h := C12_exactly_one H a _ ha (pairing_sum _ _ _ hgo).1 (jobs.map Prod.fst).flatten d avks hne
    (by rw [length_flatten32 jobs h32, hl]) (fun i => (nss.getD i []).sum) g
    (fun i hi => by rw [chunk_flatten jobs h32 i (by omega)]; exact hg i (by omega)) hk
  · exact h.1
  · exact absurd rfl h.2

/-- Two messages, with two signers and one. -/
example (H : Keccak) (d : UInt64) : ∃ jobs : List Job, List.Forall₂ (Job.Ok H d) jobs [[1, 2], [3]] ∧ jobs ≠ [] := by
  obtain ⟨s1, h1⟩ := SecretKey.exists_rep (n := 1) (by norm_num)
  obtain ⟨s2, h2⟩ := SecretKey.exists_rep (n := 2) (by norm_num)
  obtain ⟨s3, h3⟩ := SecretKey.exists_rep (n := 3) (by norm_num)
  refine ⟨[(List.replicate 32 7, [s1, s2]), (List.replicate 32 8, [s3])], .cons ⟨by simp, by simp [h1, h2], fun _ => by norm_num [r]⟩
    (.cons ⟨by simp, by simp [h3], fun _ => by norm_num [r]⟩ .nil), by simp⟩

end Props
