import Verif.Props.Protocol
import Verif.Props.Agree
/-!
# Property C104: what the verdict on an aggregate says about its members
-/

set_option exponentiation.threshold 6000

namespace Props

open Amcl Spec

seal Spec.finalExp Spec.toBE Spec.signBit Spec.enc1

/-- A signature with the key it is checked with. -/
abbrev Member := Signature × PublicKey

/-- The signature and the key of the member are in the subgroups, with representations that `verify` can use. -/
def Member.Ok (j : Member) : Prop := ∃ (S : G2) (k : Nat), j.1.Aff S ∧ r • S = 0 ∧ j.2.Aff (k • gen1)

/-- Aggregate the signatures with `new` and `add`, the keys with `from_public_keys`, and verify. -/
def verifyMembers (H : Keccak) (msg : List UInt8) (d : UInt64) (l : List Member) : Option Bool := do
  let a ← (l.map Prod.fst).foldlM AggregateSignature.add (← AggregateSignature.new)
  let k ← AggregatePublicKey.from_public_keys (l.map Prod.snd)
  a.verify H msg d k

/-- The difference of the signature and the right one. -/
def Member.Off (g : G2) (j : Member) (D : G2) : Prop :=
  ∃ (S : G2) (k : Nat), j.1.Aff S ∧ r • S = 0 ∧ j.2.Aff (k • gen1) ∧ D = S - k • g

theorem off_verify (H : Keccak) (msg : List UInt8) (d : UInt64) (g : G2) (h0 : g ≠ 0)
    (hg : MapsTo (hashX (fun m => (H m).toList) msg d.toNat) g) (j : Member) (D : G2) (h : Member.Off g j D) :
    j.1.verify H msg d j.2 = some (decide (D = 0)) := by
  obtain ⟨S, k, hS, hr, hk, rfl⟩ := h
  obtain ⟨g', hg', h⟩ := C06_exactly_one H msg d j.1 S j.2 k hS hr hk fun h => absurd (hg.unique h) h0
  cases hg.unique hg'
  rcases h with ⟨e, h⟩ | ⟨e, h⟩
  · rw [e, h, sub_self, decide_eq_true rfl]
  · rw [e, decide_eq_false (sub_ne_zero.2 h)]

theorem off_verify_members (H : Keccak) (msg : List UInt8) (d : UInt64) (g : G2) (h0 : g ≠ 0)
    (hg : MapsTo (hashX (fun m => (H m).toList) msg d.toNat) g) (l : List Member) (Ds : List G2)
    (h : List.Forall₂ (Member.Off g) l Ds) : verifyMembers H msg d l = some (decide (Ds.sum = 0)) := by
  have key : ∃ (Ss : List G2) (ks : List Nat), List.Forall₂ Signature.Rep (l.map Prod.fst) Ss ∧
      List.Forall₂ PublicKey.Rep (l.map Prod.snd) (ks.map fun k => k • gen1) ∧ r • Ss.sum = 0 ∧
      Ds.sum = Ss.sum - ks.sum • g := by
    induction h with
    | nil => exact ⟨[], [], .nil, .nil, by simp, by simp⟩
    | @cons j D l Ds hj _ ih =>
      obtain ⟨Ss, ks, h1, h2, h3, h4⟩ := ih
      obtain ⟨S, k, hS, hr, hk, rfl⟩ := hj
      refine ⟨S :: Ss, k :: ks, .cons hS.1 h1, .cons hk.1 h2, ?_, ?_⟩
      · rw [List.sum_cons, smul_add, hr, h3, add_zero]
      · rw [List.sum_cons, List.sum_cons, List.sum_cons, h4, add_nsmul]
        abel
  obtain ⟨Ss, ks, h1, h2, h3, h4⟩ := key
  obtain ⟨a0, a, e0, e1, ha⟩ := C08_aggregate_signature_is_sum ((l.map Prod.fst).map .add) Ss (List.forall₂_map_left_iff.2 h1)
  obtain ⟨avk, e2, hk⟩ := C07_from_public_keys_is_sum (l.map Prod.snd) _ h2
  rw [sum_smul_gen1] at hk
  rw [List.foldlM_map] at e1
  have e3 : (l.map Prod.fst).foldlM AggregateSignature.add a0 = some a := e1
  obtain ⟨g', hg', h⟩ := C11_exactly_one H msg d a _ avk ks.sum ha h3 hk fun h => absurd (hg.unique h) h0
  cases hg.unique hg'
  have e4 : verifyMembers H msg d l = a.verify H msg d avk := by
    rw [verifyMembers, e0, e2]
    show ((l.map Prod.fst).foldlM AggregateSignature.add a0 >>= _) = _
    rw [e3]
    rfl
  rw [e4, h4]
  rcases h with ⟨e, h⟩ | ⟨e, h⟩
  · rw [e, h, sub_self, decide_eq_true rfl]
  · rw [e, decide_eq_false (sub_ne_zero.2 h)]

theorem Member.Ok.off {j : Member} (h : j.Ok) (g : G2) : ∃ D, Member.Off g j D := by
  obtain ⟨S, k, h1, h2, h3⟩ := h
  exact ⟨_, S, k, h1, h2, h3, rfl⟩

theorem accepted_off {H : Keccak} {msg : List UInt8} {d : UInt64} {g : G2} (h0 : g ≠ 0)
    (hg : MapsTo (hashX (fun m => (H m).toList) msg d.toNat) g) {j : Member} (hj : j.Ok)
    (h : j.1.verify H msg d j.2 = some true) : Member.Off g j 0 := by
  obtain ⟨D, hD⟩ := hj.off g
  rw [off_verify H msg d g h0 hg j D hD] at h
  have := of_decide_eq_true (Option.some.inj h)
  rwa [this] at hD

theorem accepted_offs {H : Keccak} {msg : List UInt8} {d : UInt64} {g : G2} (h0 : g ≠ 0)
    (hg : MapsTo (hashX (fun m => (H m).toList) msg d.toNat) g) {l : List Member}
    (h : ∀ j ∈ l, Member.Ok j ∧ j.1.verify H msg d j.2 = some true) :
    List.Forall₂ (Member.Off g) l (List.replicate l.length 0) := by
  induction l with
  | nil => exact .nil
  | cons j l ih =>
    obtain ⟨h1, h2⟩ := h j (by simp)
    exact .cons (accepted_off h0 hg h1 h2) (ih fun j hj => h j (by simp [hj]))

/-- **C104**, all but one: if all members but one are accepted, the verdict on the aggregate is that on the one. So an
aggregate of accepted signatures is accepted, one wrong signature spoils it, and from the others being right and the
aggregate accepted it follows that the last one is right. -/
theorem C104_all_but_one (H : Keccak) (msg : List UInt8) (d : UInt64)
    (hm : ¬ MapsTo (hashX (fun m => (H m).toList) msg d.toNat) 0) (l l' : List Member) (j : Member) (hj : j.Ok)
    (h : ∀ i ∈ l ++ l', Member.Ok i ∧ i.1.verify H msg d i.2 = some true) :
    verifyMembers H msg d (l ++ j :: l') = j.1.verify H msg d j.2 ∧ j.1.verify H msg d j.2 ≠ none := by
  obtain ⟨-, g, -, -, hg, -⟩ := C26_hash_on_g2 H msg d
  have h0 : g ≠ 0 := fun e => hm (e ▸ hg)
  obtain ⟨D, hD⟩ := hj.off g
  have h1 := accepted_offs h0 hg fun i hi => h i (List.mem_append_left l' hi)
  have h2 := accepted_offs h0 hg fun i hi => h i (List.mem_append_right l hi)
  rw [off_verify H msg d g h0 hg j D hD, off_verify_members H msg d g h0 hg _ _ (List.rel_append h1 (.cons hD h2))]
  refine ⟨?_, by simp⟩
  congr 2
  simp

/-- **C104**, acceptance: an aggregate of accepted signatures is accepted. -/
theorem C104_accepted (H : Keccak) (msg : List UInt8) (d : UInt64)
    (hm : ¬ MapsTo (hashX (fun m => (H m).toList) msg d.toNat) 0) (l : List Member)
    (h : ∀ i ∈ l, Member.Ok i ∧ i.1.verify H msg d i.2 = some true) : verifyMembers H msg d l = some true := by
  obtain ⟨-, g, -, -, hg, -⟩ := C26_hash_on_g2 H msg d
  have h0 : g ≠ 0 := fun e => hm (e ▸ hg)
  rw [off_verify_members H msg d g h0 hg _ _ (accepted_offs h0 hg h)]
  simp

/-- **C104**, two wrong signatures: errors that cancel are not noticed. If a point `T` of the subgroup other than infinity
is added to one accepted signature and taken from another one, both are rejected, but the aggregate with any further
accepted signatures is accepted. -/
theorem C104_cancel (H : Keccak) (msg : List UInt8) (d : UInt64)
    (hm : ¬ MapsTo (hashX (fun m => (H m).toList) msg d.toNat) 0) (l : List Member)
    (h : ∀ i ∈ l, Member.Ok i ∧ i.1.verify H msg d i.2 = some true) (s₁ s₂ t₁ t₂ : Signature) (S₁ S₂ T : G2) (pk₁ pk₂ : PublicKey)
    (k₁ k₂ : Nat) (hs₁ : s₁.Aff S₁) (hr₁ : r • S₁ = 0) (hk₁ : pk₁.Aff (k₁ • gen1)) (hs₂ : s₂.Aff S₂) (hr₂ : r • S₂ = 0)
    (hk₂ : pk₂.Aff (k₂ • gen1)) (ht₁ : t₁.Aff (S₁ + T)) (ht₂ : t₂.Aff (S₂ - T)) (hT : r • T = 0) (hT0 : T ≠ 0)
    (h₁ : s₁.verify H msg d pk₁ = some true) (h₂ : s₂.verify H msg d pk₂ = some true) :
    t₁.verify H msg d pk₁ = some false ∧ t₂.verify H msg d pk₂ = some false ∧
      verifyMembers H msg d ((t₁, pk₁) :: (t₂, pk₂) :: l) = some true := by
  obtain ⟨-, g, -, -, hg, -⟩ := C26_hash_on_g2 H msg d
  have h0 : g ≠ 0 := fun e => hm (e ▸ hg)
  have a1 := off_verify H msg d g h0 hg (s₁, pk₁) _ ⟨S₁, k₁, hs₁, hr₁, hk₁, rfl⟩
  have a2 := off_verify H msg d g h0 hg (s₂, pk₂) _ ⟨S₂, k₂, hs₂, hr₂, hk₂, rfl⟩
  rw [h₁] at a1
  rw [h₂] at a2
  have z1 := sub_eq_zero.1 (of_decide_eq_true (Option.some.inj a1).symm)
  have z2 := sub_eq_zero.1 (of_decide_eq_true (Option.some.inj a2).symm)
  have o1 : Member.Off g (t₁, pk₁) T :=
    ⟨S₁ + T, k₁, ht₁, by rw [smul_add, hr₁, hT, add_zero], hk₁, by rw [z1, add_sub_cancel_left]⟩
  have o2 : Member.Off g (t₂, pk₂) (-T) :=
    ⟨S₂ - T, k₂, ht₂, by rw [smul_sub, hr₂, hT, sub_zero], hk₂, by rw [z2]; abel⟩
  refine ⟨?_, ?_, ?_⟩
  · have := off_verify H msg d g h0 hg _ _ o1
    rwa [decide_eq_false hT0] at this
  · have := off_verify H msg d g h0 hg _ _ o2
    rwa [decide_eq_false (neg_ne_zero.2 hT0)] at this
  · rw [off_verify_members H msg d g h0 hg _ _ (.cons o1 (.cons o2 (accepted_offs h0 hg h)))]
    simp

/-- The hypotheses of the three theorems hold for a signature of the secret key 7, used twice, and the generator of the
twist for `T`. -/
example : ∃ (H : Keccak) (msg : List UInt8) (d : UInt64) (s t₁ t₂ : Signature) (S : G2) (pk : PublicKey),
    ¬ MapsTo (hashX (fun m => (H m).toList) msg d.toNat) 0 ∧ Member.Ok (s, pk) ∧ s.verify H msg d pk = some true ∧
      s.Aff S ∧ r • S = 0 ∧ pk.Aff (7 • gen1) ∧ t₁.Aff (S + gen2) ∧ t₂.Aff (S - gen2) ∧ r • gen2 = 0 ∧ gen2 ≠ 0 := by
  obtain ⟨sk, hn⟩ := SecretKey.exists_rep (n := 7) (by norm_num)
  have h7 : ¬ r ∣ 7 := by norm_num [r]
  obtain ⟨s, pk, es, ek, h⟩ := C05_sign_verify (fun _ => Vector.replicate 32 0) [1, 2, 3] 7 sk 7 hn fun _ => h7
  obtain ⟨S, hS⟩ := (C06_signatures_affine s).1 _ _ _ _ _ hn es
  obtain ⟨g, s', hg, e, hs'⟩ := C04_sign (fun _ => Vector.replicate 32 0) [1, 2, 3] 7 sk 7 hn
  rw [es] at e
  cases e
  have hr : r • S = 0 := by
    rw [hS.1.inj hs', smul_comm, mapsTo_order hg, smul_zero]
  have hk := (C06_keys_affine pk).1 _ _ hn ek
  obtain ⟨P, hP⟩ := exists_aff2 (S + gen2)
  obtain ⟨Q, hQ⟩ := exists_aff2 (S - gen2)
  exact ⟨_, _, _, s, ⟨P⟩, ⟨Q⟩, S, pk, fun h0 => neg_ne_zero.2 gen2_ne (zero_hash_point.unique h0), ⟨S, 7, hS, hr, hk⟩, h, hS,
    hr, hk, hP, hQ, r_gen2, gen2_ne⟩

/-! ### Different messages -/

/-- A message of 32 bytes with a signature and a key. -/
abbrev Entry := List UInt8 × Signature × PublicKey

/-- Aggregate the signatures, make an aggregate key of every key, and call `verify_multiple`. -/
def verifyEntries (H : Keccak) (d : UInt64) (l : List Entry) : Option Bool := do
  let a ← (l.map fun e : Entry => e.2.1).foldlM AggregateSignature.add (← AggregateSignature.new)
  let ks ← l.mapM fun e => AggregatePublicKey.from_public_keys [e.2.2]
  a.verify_multiple H (l.map Prod.fst).flatten d ks

/-- The message has 32 bytes and a finite point, and the signature and the key are in the subgroups. -/
def Entry.Ok (H : Keccak) (d : UInt64) (e : Entry) : Prop :=
  e.1.length = 32 ∧ ¬ MapsTo (hashX (fun m => (H m).toList) e.1 d.toNat) 0 ∧ Member.Ok e.2

/-- The difference of the signature and the right one. -/
def Entry.Off (H : Keccak) (d : UInt64) (e : Entry) (D : G2) : Prop :=
  e.1.length = 32 ∧ ∃ g, MapsTo (hashX (fun m => (H m).toList) e.1 d.toNat) g ∧ g ≠ 0 ∧ Member.Off g e.2 D

theorem Entry.Ok.off {H : Keccak} {d : UInt64} {e : Entry} (h : Entry.Ok H d e) : ∃ D, Entry.Off H d e D := by
  obtain ⟨h1, h2, h3⟩ := h
  obtain ⟨-, g, -, -, hg, -⟩ := C26_hash_on_g2 H e.1 d
  obtain ⟨D, hD⟩ := h3.off g
  exact ⟨D, h1, g, hg, fun e => h2 (e ▸ hg), hD⟩

theorem entry_verify {H : Keccak} {d : UInt64} {e : Entry} {D : G2} (h : Entry.Off H d e D) :
    e.2.1.verify H e.1 d e.2.2 = some (decide (D = 0)) := by
  obtain ⟨-, g, hg, h0, h⟩ := h
  exact off_verify H e.1 d g h0 hg e.2 D h

theorem entries_verify (H : Keccak) (d : UInt64) (l : List Entry) (hne : l ≠ []) (Ds : List G2)
    (h : List.Forall₂ (Entry.Off H d) l Ds) : verifyEntries H d l = some (decide (Ds.sum = 0)) := by
  obtain ⟨v, hv⟩ := exists_vals H d
  have key : ∃ (Ss Gs : List G2) (ks : List AggregatePublicKey), List.Forall₂ Signature.Rep (l.map fun e : Entry => e.2.1) Ss ∧
      r • Ss.sum = 0 ∧ r • Gs.sum = 0 ∧ (l.mapM fun e => AggregatePublicKey.from_public_keys [e.2.2]) = some ks ∧
      (∃ ps : List Pair, ps.length = l.length ∧ ps.map Prod.fst = l.map Prod.fst ∧ ps.map Prod.snd = ks ∧ (∀ j ∈ ps, Pair.Ok j) ∧
        (ps.map v).prod = pairing Gs.sum gen1) ∧ Ds.sum = Ss.sum - Gs.sum := by
    clear hne
    induction h with
    | nil => exact ⟨[], [], [], .nil, by simp, by simp, by simp, ⟨[], by simp, by simp, by simp, by simp,
        by simp [pairing_zero_left]⟩, by simp⟩
    | @cons e D l Ds he _ ih =>
      obtain ⟨Ss, Gs, ks, h1, h2, h3, h4, ⟨ps, p0, p1, p2, p3, p4⟩, h5⟩ := ih
      obtain ⟨hl, g, hg, h0, S, k, hS, hr, hk, rfl⟩ := he
      obtain ⟨a, ea, ha⟩ := C07_from_public_keys_is_sum [e.2.2] [k • gen1] (.cons hk.1 .nil)
      rw [List.sum_singleton] at ha
      have ho : r • g = 0 := mapsTo_order hg
      have hok : Pair.Ok (e.1, a) := ⟨hl, _, ha⟩
      refine ⟨S :: Ss, k • g :: Gs, a :: ks, .cons hS.1 h1, ?_, ?_, ?_, ⟨(e.1, a) :: ps, ?_, ?_, ?_, ?_, ?_⟩, ?_⟩
      · rw [List.sum_cons, smul_add, hr, h2, add_zero]
      · rw [List.sum_cons, smul_add, h3, smul_comm, ho, smul_zero, add_zero]
      · simp [ea, h4]
      · simp [p0]
      · simp [p1]
      · simp [p2]
      · intro j hj
        rcases List.mem_cons.1 hj with rfl | hj
        · exact hok
        · exact p3 j hj
      · rw [List.map_cons, List.prod_cons, p4, pair_val (hv _ hok) ha hg h0, List.sum_cons,
          pairing_add_left (by rw [smul_comm, ho, smul_zero]) h3, pairing_nsmul_left ho, pairing_nsmul_right ho]
      · rw [List.sum_cons, List.sum_cons, List.sum_cons, h5]
        abel
  obtain ⟨Ss, Gs, ks, h1, h2, h3, h4, ⟨ps, p0, p1, p2, p3, p4⟩, h5⟩ := key
  obtain ⟨a0, a, e0, e1, ha⟩ := C08_aggregate_signature_is_sum ((l.map fun e : Entry => e.2.1).map .add) Ss
    (List.forall₂_map_left_iff.2 h1)
  rw [List.foldlM_map] at e1
  have e3 : (l.map fun e : Entry => e.2.1).foldlM AggregateSignature.add a0 = some a := e1
  obtain ⟨b, eb, hb⟩ := pairs_val H a _ ha d ps (fun e => hne (List.length_eq_zero_iff.1 (by rw [← p0, e]; rfl))) p3 v
    fun j hj => hv j (p3 j hj)
  have e4 : verifyEntries H d l = some b := by
    rw [verifyEntries, e0, h4]
    show ((l.map fun e : Entry => e.2.1).foldlM AggregateSignature.add a0 >>= _) = _
    rw [e3, ← eb, verifyPairs, p1, p2]
    rfl
  rw [e4, h5]
  refine congrArg some ?_
  rw [Bool.eq_iff_iff, hb, decide_eq_true_iff, p4, ateVal_gen, pairing_inj h3 h2, sub_eq_zero, eq_comm]

/-- **C104**, different messages: the same for `verify_multiple`. If all entries but one are accepted by `verify`, the
verdict on the aggregate is that of `verify` on the one. -/
theorem C104_multiple_all_but_one (H : Keccak) (d : UInt64) (l l' : List Entry) (e : Entry) (he : e.Ok H d)
    (h : ∀ i ∈ l ++ l', Entry.Ok H d i ∧ i.2.1.verify H i.1 d i.2.2 = some true) :
    verifyEntries H d (l ++ e :: l') = e.2.1.verify H e.1 d e.2.2 ∧ e.2.1.verify H e.1 d e.2.2 ≠ none := by
  have key : ∀ l : List Entry, (∀ i ∈ l, Entry.Ok H d i ∧ i.2.1.verify H i.1 d i.2.2 = some true) →
      List.Forall₂ (Entry.Off H d) l (List.replicate l.length 0) := by
    intro l h
    induction l with
    | nil => exact .nil
    | cons i l ih =>
      obtain ⟨h1, h2⟩ := h i (by simp)
      obtain ⟨D, hD⟩ := h1.off
      rw [entry_verify hD] at h2
      rw [of_decide_eq_true (Option.some.inj h2)] at hD
      exact .cons hD (ih fun i hi => h i (by simp [hi]))
  obtain ⟨D, hD⟩ := he.off
  rw [entry_verify hD, entries_verify H d _ (by simp) _ (List.rel_append
    (key l fun i hi => h i (List.mem_append_left l' hi)) (.cons hD (key l' fun i hi => h i (List.mem_append_right l hi))))]
  refine ⟨?_, by simp⟩
  congr 2
  simp

/-- **C104**, different messages: errors that cancel are not noticed by `verify_multiple` either. -/
theorem C104_multiple_cancel (H : Keccak) (d : UInt64) (m₁ m₂ : List UInt8) (s₁ s₂ t₁ t₂ : Signature) (S₁ S₂ T : G2)
    (pk₁ pk₂ : PublicKey) (h₁ : Entry.Ok H d (m₁, s₁, pk₁)) (h₂ : Entry.Ok H d (m₂, s₂, pk₂)) (hs₁ : s₁.Rep S₁) (hs₂ : s₂.Rep S₂)
    (ht₁ : t₁.Aff (S₁ + T)) (ht₂ : t₂.Aff (S₂ - T)) (hT : r • T = 0) (hT0 : T ≠ 0)
    (v₁ : s₁.verify H m₁ d pk₁ = some true) (v₂ : s₂.verify H m₂ d pk₂ = some true) :
    t₁.verify H m₁ d pk₁ = some false ∧ t₂.verify H m₂ d pk₂ = some false ∧
      verifyEntries H d [(m₁, t₁, pk₁), (m₂, t₂, pk₂)] = some true := by
  have key : ∀ {m : List UInt8} {s t : Signature} {pk : PublicKey} {S T : G2}, Entry.Ok H d (m, s, pk) → s.Rep S →
      t.Aff (S + T) → r • T = 0 → s.verify H m d pk = some true → Entry.Off H d (m, t, pk) T := by
    intro m s t pk S T h hs ht hT hv
    obtain ⟨D, hD⟩ := h.off
    have e := entry_verify hD
    rw [hv] at e
    have z := of_decide_eq_true (Option.some.inj e).symm
    obtain ⟨hl, g, hg, h0, S', k, hS, hr, hk, eD⟩ := hD
    obtain rfl : S' = S := hS.1.inj hs
    refine ⟨hl, g, hg, h0, S' + T, k, ht, by rw [smul_add, hr, hT, add_zero], hk, ?_⟩
    have : S' = k • g := sub_eq_zero.1 (eD.symm.trans z)
    rw [this, add_sub_cancel_left]
  have o₁ := key h₁ hs₁ ht₁ hT v₁
  have o₂ := key h₂ hs₂ (by rwa [sub_eq_add_neg] at ht₂) (by rw [smul_neg, hT, neg_zero]) v₂
  refine ⟨?_, ?_, ?_⟩
  · have := entry_verify o₁
    rwa [decide_eq_false hT0] at this
  · have := entry_verify o₂
    rwa [decide_eq_false (neg_ne_zero.2 hT0)] at this
  · rw [entries_verify H d _ (by simp) _ (.cons o₁ (.cons o₂ .nil))]
    simp

/-- The hypotheses hold, e.g. for signatures of two different messages by the keys 7 and 5. -/
example : ∃ (H : Keccak) (d : UInt64) (m₁ m₂ : List UInt8) (s₁ s₂ t₁ t₂ : Signature) (S₁ S₂ : G2) (pk₁ pk₂ : PublicKey),
    m₁ ≠ m₂ ∧ pk₁.Aff (7 • gen1) ∧ pk₂.Aff (5 • gen1) ∧ Entry.Ok H d (m₁, s₁, pk₁) ∧ Entry.Ok H d (m₂, s₂, pk₂) ∧ s₁.Rep S₁ ∧
      s₂.Rep S₂ ∧ t₁.Aff (S₁ + gen2) ∧ t₂.Aff (S₂ - gen2) ∧ r • gen2 = 0 ∧ gen2 ≠ 0 ∧
      s₁.verify H m₁ d pk₁ = some true ∧ s₂.verify H m₂ d pk₂ = some true := by
  have key : ∀ (m : List UInt8) (n : Nat), m.length = 32 → n < r → ¬ r ∣ n → ∃ (s : Signature) (S : G2) (pk : PublicKey),
      pk.Aff (n • gen1) ∧ Entry.Ok (fun _ => Vector.replicate 32 0) 7 (m, s, pk) ∧ s.Rep S ∧
        s.verify (fun _ => Vector.replicate 32 0) m 7 pk = some true := by
    intro m n hm hn hd
    obtain ⟨sk, hn⟩ := SecretKey.exists_rep (n := n) (hn.trans (by norm_num [r]))
    obtain ⟨s, pk, es, ek, h⟩ := C05_sign_verify (fun _ => Vector.replicate 32 0) m 7 sk n hn fun _ => hd
    obtain ⟨S, hS⟩ := (C06_signatures_affine s).1 _ _ _ _ _ hn es
    obtain ⟨g, s', hg, e, hs'⟩ := C04_sign (fun _ => Vector.replicate 32 0) m 7 sk n hn
    rw [es] at e
    cases e
    have hr : r • S = 0 := by
      rw [hS.1.inj hs', smul_comm, mapsTo_order hg, smul_zero]
    have hk := (C06_keys_affine pk).1 _ _ hn ek
    exact ⟨s, S, pk, hk, ⟨hm, fun h0 => neg_ne_zero.2 gen2_ne (zero_hash_point.unique h0), S, n, hS, hr, hk⟩, hS.1, h⟩
  obtain ⟨s₁, S₁, pk₁, a1, a2, a3, a4⟩ := key (List.replicate 32 0) 7 (by simp) (by norm_num [r]) (by norm_num [r])
  obtain ⟨s₂, S₂, pk₂, b1, b2, b3, b4⟩ := key (List.replicate 32 1) 5 (by simp) (by norm_num [r]) (by norm_num [r])
  obtain ⟨P, hP⟩ := exists_aff2 (S₁ + gen2)
  obtain ⟨Q, hQ⟩ := exists_aff2 (S₂ - gen2)
  exact ⟨_, _, _, _, s₁, s₂, ⟨P⟩, ⟨Q⟩, S₁, S₂, pk₁, pk₂, by decide, a1, b1, a2, b2, a3, b3, hP, hQ, r_gen2, gen2_ne, a4, b4⟩

end Props
