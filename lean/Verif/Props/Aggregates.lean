import Verif.Proof.Aggregate
/-!
# Properties C07, C08, C09, C10: aggregation is the group sum
-/

set_option exponentiation.threshold 2000

namespace Props

open Amcl Spec

seal Spec.toBE Spec.signBit Spec.enc1

/-- One call on an `AggregatePublicKey`. -/
inductive KeyOp
  | add (k : PublicKey)
  | addAggregate (a : AggregatePublicKey)

/-- Perform the call. -/
def KeyOp.run (a : AggregatePublicKey) : KeyOp → Option AggregatePublicKey
  | .add k => a.add k
  | .addAggregate b => a.add_aggregate b

/-- The point added by the call. -/
def KeyOp.Adds : KeyOp → G1 → Prop
  | .add k, g => k.Rep g
  | .addAggregate b, g => b.Rep g

/-- One call on an `AggregateSignature`. -/
inductive SigOp
  | add (s : Signature)
  | addAggregate (a : AggregateSignature)

/-- Perform the call. -/
def SigOp.run (a : AggregateSignature) : SigOp → Option AggregateSignature
  | .add s => a.add s
  | .addAggregate b => a.add_aggregate b

/-- The point added by the call. -/
def SigOp.Adds : SigOp → G2 → Prop
  | .add s, g => s.Rep g
  | .addAggregate b, g => b.Rep g

theorem keyOps_wp {ops : List KeyOp} {gs : List G1} (h : List.Forall₂ KeyOp.Adds ops gs) :
    ∀ {a : AggregatePublicKey} {g : G1}, a.Rep g →
      ∃ a', ops.foldlM KeyOp.run a = some a' ∧ a'.Rep (g + gs.sum) := by
  induction h with
  | nil => intro a g ha; exact ⟨a, rfl, by simpa using ha⟩
  | @cons o g' os gs h0 _ ih =>
    intro a g ha
    have : Wp (KeyOp.run a o) fun r => r.Rep (g + g') := by
      cases o with
      | add k => exact AggregatePublicKey.add_wp ha h0
      | addAggregate b => exact AggregatePublicKey.add_aggregate_wp ha h0
    obtain ⟨a1, e1, h1⟩ := this
    obtain ⟨a2, e2, h2⟩ := ih h1
    refine ⟨a2, ?_, ?_⟩
    · rw [List.foldlM_cons, e1]; exact e2
    · rw [List.sum_cons, ← add_assoc]; exact h2

theorem sigOps_wp {ops : List SigOp} {gs : List G2} (h : List.Forall₂ SigOp.Adds ops gs) :
    ∀ {a : AggregateSignature} {g : G2}, a.Rep g →
      ∃ a', ops.foldlM SigOp.run a = some a' ∧ a'.Rep (g + gs.sum) := by
  induction h with
  | nil => intro a g ha; exact ⟨a, rfl, by simpa using ha⟩
  | @cons o g' os gs h0 _ ih =>
    intro a g ha
    have : Wp (SigOp.run a o) fun r => r.Rep (g + g') := by
      cases o with
      | add k => exact AggregateSignature.add_wp ha h0
      | addAggregate b => exact AggregateSignature.add_aggregate_wp ha h0
    obtain ⟨a1, e1, h1⟩ := this
    obtain ⟨a2, e2, h2⟩ := ih h1
    refine ⟨a2, ?_, ?_⟩
    · rw [List.foldlM_cons, e1]; exact e2
    · rw [List.sum_cons, ← add_assoc]; exact h2

/-- **C07.** `new` followed by any sequence of `add` and `add_aggregate` calls stands for the sum of the
points added. -/
theorem C07_aggregate_key_is_sum (ops : List KeyOp) (gs : List G1)
    (h : List.Forall₂ KeyOp.Adds ops gs) :
    ∃ a0 a, AggregatePublicKey.new = some a0 ∧ ops.foldlM KeyOp.run a0 = some a ∧ a.Rep gs.sum := by
  obtain ⟨a0, e0, h0⟩ := AggregatePublicKey.new_wp
  obtain ⟨a, e, ha⟩ := keyOps_wp h h0
  exact ⟨a0, a, e0, e, by rwa [zero_add] at ha⟩

/-- **C07** for `from_public_keys`. -/
theorem C07_from_public_keys_is_sum (ks : List PublicKey) (gs : List G1)
    (h : List.Forall₂ PublicKey.Rep ks gs) :
    ∃ a, AggregatePublicKey.from_public_keys ks = some a ∧ a.Rep gs.sum := by
  obtain ⟨a0, a, e0, e, ha⟩ := C07_aggregate_key_is_sum (ks.map .add) gs
    (List.forall₂_map_left_iff.2 h)
  refine ⟨a, ?_, ha⟩
  rw [AggregatePublicKey.from_public_keys, e0, ← e, List.foldlM_map]
  rfl

/-- Equal points (`gen1` twice), opposite points and infinity are all instances. -/
example : ∃ k1 k2 k3 : PublicKey, List.Forall₂ PublicKey.Rep [k1, k1, k2, k3]
    [gen1, gen1, -gen1, 0] ∧ [gen1, gen1, -gen1, 0].sum = gen1 := by
  obtain ⟨k1, h1⟩ := PublicKey.exists_rep gen1
  obtain ⟨k2, h2⟩ := PublicKey.exists_rep (-gen1)
  obtain ⟨k3, h3⟩ := PublicKey.exists_rep 0
  exact ⟨k1, k2, k3, by simp [h1, h2, h3], by simp⟩

/-- **C08.** The same for aggregate signatures. -/
theorem C08_aggregate_signature_is_sum (ops : List SigOp) (gs : List G2)
    (h : List.Forall₂ SigOp.Adds ops gs) :
    ∃ a0 a, AggregateSignature.new = some a0 ∧ ops.foldlM SigOp.run a0 = some a ∧ a.Rep gs.sum := by
  obtain ⟨a0, e0, h0⟩ := AggregateSignature.new_wp
  obtain ⟨a, e, ha⟩ := sigOps_wp h h0
  exact ⟨a0, a, e0, e, by rwa [zero_add] at ha⟩

/-- Equal and opposite signatures. -/
example : ∃ s1 s2 : Signature, List.Forall₂ SigOp.Adds [.add s1, .add s1, .add s2] [gen2, gen2, -gen2] ∧
    [gen2, gen2, -gen2].sum ≠ 0 := by
  obtain ⟨s1, h1⟩ := Signature.exists_rep gen2
  obtain ⟨s2, h2⟩ := Signature.exists_rep (-gen2)
  refine ⟨s1, s2, ?_, by simpa using gen2_ne⟩
  exact .cons h1 (.cons h1 (.cons h2 .nil))

/-- **C09** for keys: two call sequences that add the same points up to order give equal aggregates.
Their compressed encodings are the same bytes, except possibly when the sum is a point with abscissa
0, which has order 3 and is no sum of points of order dividing `r`. -/
theorem C09_key_order_irrelevant (ops ops' : List KeyOp) (gs gs' : List G1)
    (h : List.Forall₂ KeyOp.Adds ops gs) (h' : List.Forall₂ KeyOp.Adds ops' gs') (hp : gs.Perm gs') :
    ∃ a0 a a', AggregatePublicKey.new = some a0 ∧ ops.foldlM KeyOp.run a0 = some a ∧
      ops'.foldlM KeyOp.run a0 = some a' ∧ a.eq a' = some true ∧
      ((∀ y h, gs.sum ≠ Pt.mk 0 y h) → ∃ bytes, a.as_bytes = some bytes ∧ a'.as_bytes = some bytes) ∧
      ((∀ g ∈ gs, r • g = 0) → ∀ y h, gs.sum ≠ Pt.mk 0 y h) := by
  obtain ⟨a0, a, e0, e, ha⟩ := C07_aggregate_key_is_sum ops gs h
  obtain ⟨a0', a', e0', e', ha'⟩ := C07_aggregate_key_is_sum ops' gs' h'
  rw [e0] at e0'
  cases e0'
  rw [← hp.sum_eq] at ha'
  refine ⟨a0, a, a', e0, e, e', ?_, ?_, ?_⟩
  · obtain ⟨t, et, ht⟩ := ECP.equals_wp ha ha' (by norm_num)
    rw [AggregatePublicKey.eq, et, ht.2 rfl]
  · intro hx
    rcases Pt.cases gs.sum with h0 | ⟨x, y, hh, h0⟩
    · rw [h0] at ha ha'
      exact ⟨_, compress_g1_inf ha (by norm_num), compress_g1_inf ha' (by norm_num)⟩
    · have hx0 : x ≠ 0 := by
        rintro rfl
        exact hx _ _ h0
      rw [h0] at ha ha'
      refine ⟨enc1 x.val (signBit y.val), ?_, ?_⟩
      · rw [AggregatePublicKey.as_bytes, compress_g1_eq ha (by norm_num), ECP.xOut_of_ne hx0]
      · rw [AggregatePublicKey.as_bytes, compress_g1_eq ha' (by norm_num), ECP.xOut_of_ne hx0]
  · intro hr y hy h0
    refine Pt.x_ne_of_order (b := b1) (x := 0) (y := y) (h := hy) ?_ rfl
    rw [← h0]
    clear h h' hp ha ha' e e' h0
    induction gs with
    | nil => simp
    | cons g gs ih =>
      rw [List.sum_cons, smul_add, hr g (by simp), ih fun g hg => hr g (by simp [hg]), add_zero]

/-- Two keys in the two orders, one of them through a nested aggregate, are an instance. -/
example : ∃ (k1 k2 : PublicKey) (a : AggregatePublicKey),
    List.Forall₂ KeyOp.Adds [.add k1, .add k2] [gen1, 7 • gen1] ∧
    List.Forall₂ KeyOp.Adds [.addAggregate a, .add k1] [7 • gen1, gen1] ∧
    [gen1, 7 • gen1].Perm [7 • gen1, gen1] ∧ ∀ g ∈ [gen1, 7 • gen1], r • g = 0 := by
  obtain ⟨k1, h1⟩ := PublicKey.exists_rep gen1
  obtain ⟨k2, h2⟩ := PublicKey.exists_rep (7 • gen1)
  refine ⟨k1, k2, ⟨k2.point⟩, .cons h1 (.cons h2 .nil), .cons h2 (.cons h1 .nil), .swap _ _ _, ?_⟩
  intro g hg
  rw [List.mem_pair] at hg
  rcases hg with rfl | rfl
  · exact r_gen1
  · rw [smul_comm, r_gen1, smul_zero]

/-- **C09** for signatures. The compressed encodings are the same bytes when no coordinate component
that enters the encoding is 0 (a zero component can be stored as a multiple of `p`, see C24). -/
theorem C09_signature_order_irrelevant (ops ops' : List SigOp) (gs gs' : List G2)
    (h : List.Forall₂ SigOp.Adds ops gs) (h' : List.Forall₂ SigOp.Adds ops' gs') (hp : gs.Perm gs') :
    ∃ a0 a a', AggregateSignature.new = some a0 ∧ ops.foldlM SigOp.run a0 = some a ∧
      ops'.foldlM SigOp.run a0 = some a' ∧ a.eq a' = some true ∧
      ((∀ x y h, gs.sum = Pt.mk x y h → x.re ≠ 0 ∧ x.im ≠ 0 ∧ y.im ≠ 0) →
        ∃ bytes, a.as_bytes = some bytes ∧ a'.as_bytes = some bytes) := by
  obtain ⟨a0, a, e0, e, ha⟩ := C08_aggregate_signature_is_sum ops gs h
  obtain ⟨a0', a', e0', e', ha'⟩ := C08_aggregate_signature_is_sum ops' gs' h'
  rw [e0] at e0'
  cases e0'
  rw [← hp.sum_eq] at ha'
  refine ⟨a0, a, a', e0, e, e', ?_, ?_⟩
  · obtain ⟨t, et, ht⟩ := ECP2.equals_wp ha ha' (by norm_num)
    rw [AggregateSignature.eq, et, ht.2 rfl]
  · intro hx
    rcases Pt.cases gs.sum with h0 | ⟨x, y, hh, h0⟩
    · rw [h0] at ha ha'
      exact ⟨_, compress_g2_inf ha (by norm_num), compress_g2_inf ha' (by norm_num)⟩
    · obtain ⟨x1, x2, y2⟩ := hx _ _ _ h0
      rw [h0] at ha ha'
      refine ⟨enc2 x.re.val x.im.val (signBit y.im.val), ?_, ?_⟩
      · rw [AggregateSignature.as_bytes, compress_g2_eq ha (by norm_num), ECP2.xaOut, ECP2.xbOut, ECP2.ybOut,
          FP.outIf_of_ne x1, FP.outIf_of_ne x2, FP.outIf_of_ne y2]
      · rw [AggregateSignature.as_bytes, compress_g2_eq ha' (by norm_num), ECP2.xaOut, ECP2.xbOut, ECP2.ybOut,
          FP.outIf_of_ne x1, FP.outIf_of_ne x2, FP.outIf_of_ne y2]

/-- The generator and infinity in either order; the components of the generator are not 0. -/
example : ∃ s1 s2 : Signature,
    List.Forall₂ SigOp.Adds [.add s1, .add s2] [gen2, 0] ∧
    List.Forall₂ SigOp.Adds [.add s2, .add s1] [0, gen2] ∧ [gen2, 0].Perm [0, gen2] ∧
    ∀ x y h, [gen2, 0].sum = Pt.mk x y h → x.re ≠ 0 ∧ x.im ≠ 0 ∧ y.im ≠ 0 := by
  obtain ⟨s1, h1⟩ := Signature.exists_rep gen2
  obtain ⟨s2, h2⟩ := Signature.exists_rep 0
  refine ⟨s1, s2, .cons h1 (.cons h2 .nil), .cons h2 (.cons h1 .nil), .swap _ _ _, ?_⟩
  intro x y h e
  rw [List.sum_cons, List.sum_cons, List.sum_nil, add_zero, add_zero, gen2, Pt.mk_inj] at e
  obtain ⟨rfl, rfl⟩ := e
  simp only [ne_eq, ZMod.natCast_eq_zero_iff]
  refine ⟨?_, ?_, ?_⟩ <;> norm_num [g2xa, g2xb, g2yb, p]

theorem sum_smul_gen1 (ns : List Nat) : (ns.map fun n => n • gen1).sum = ns.sum • gen1 := by
  induction ns with
  | nil => simp
  | cons n ns ih => simp [ih, add_smul]

theorem sum_smul_pt (g : G2) (ns : List Nat) : (ns.map fun n => n • g).sum = ns.sum • g := by
  induction ns with
  | nil => simp
  | cons n ns ih => simp [ih, add_smul]

/-- **C10** for keys: the aggregate of the public keys of `sks` stands for `(n₁ + … + nₖ) • G`. -/
theorem C10_aggregate_of_keys (sks : List SecretKey) (ns : List Nat) (h : List.Forall₂ SecretKey.Rep sks ns) :
    ∃ pks a, sks.mapM PublicKey.from_secret_key = some pks ∧
      AggregatePublicKey.from_public_keys pks = some a ∧ a.Rep (ns.sum • gen1) := by
  have : ∃ pks, sks.mapM PublicKey.from_secret_key = some pks ∧
      List.Forall₂ PublicKey.Rep pks (ns.map fun n => n • gen1) := by
    induction h with
    | nil => exact ⟨[], by simp, .nil⟩
    | @cons s n ss ns h0 _ ih =>
      obtain ⟨pks, e, hp⟩ := ih
      obtain ⟨pk, e1, h1, -⟩ := PublicKey.from_secret_key_wp h0
      exact ⟨pk :: pks, by simp [e, e1], .cons h1 hp⟩
  obtain ⟨pks, e, hp⟩ := this
  obtain ⟨a, ea, ha⟩ := C07_from_public_keys_is_sum pks _ hp
  exact ⟨pks, a, e, ea, by rwa [sum_smul_gen1] at ha⟩

/-- Three keys whose sum is the group order: the aggregate is infinity. -/
example : (∃ sks, List.Forall₂ SecretKey.Rep sks [1, 2, r - 3]) ∧ [1, 2, r - 3].sum • gen1 = 0 := by
  obtain ⟨s1, h1⟩ := SecretKey.exists_rep (n := 1) (by norm_num)
  obtain ⟨s2, h2⟩ := SecretKey.exists_rep (n := 2) (by norm_num)
  obtain ⟨s3, h3⟩ := SecretKey.exists_rep (n := r - 3) (by norm_num [r])
  refine ⟨⟨[s1, s2, s3], by simp [h1, h2, h3]⟩, ?_⟩
  rw [show [1, 2, r - 3].sum = r by norm_num [r], r_gen1]

/-- **C10** for signatures: signatures by `sks` on one message point `P` aggregate to
`(n₁ + … + nₖ) • P`. -/
theorem C10_aggregate_of_signatures (P : ECP2) (g : G2) (hP : P.Rep g) (sks : List SecretKey) (ns : List Nat)
    (h : List.Forall₂ SecretKey.Rep sks ns) :
    ∃ sigs a0 a, sks.mapM (Signature.sign P) = some sigs ∧ AggregateSignature.new = some a0 ∧
      sigs.foldlM AggregateSignature.add a0 = some a ∧ a.Rep (ns.sum • g) := by
  have : ∃ sigs, sks.mapM (Signature.sign P) = some sigs ∧
      List.Forall₂ Signature.Rep sigs (ns.map fun n => n • g) := by
    induction h with
    | nil => exact ⟨[], by simp, .nil⟩
    | @cons s n ss ns h0 _ ih =>
      obtain ⟨pks, e, hp⟩ := ih
      obtain ⟨pk, e1, h1, -⟩ := Signature.sign_wp hP h0
      exact ⟨pk :: pks, by simp [e, e1], .cons h1 hp⟩
  obtain ⟨sigs, e, hp⟩ := this
  obtain ⟨a0, a, e0, ea, ha⟩ := C08_aggregate_signature_is_sum (sigs.map .add) _ (List.forall₂_map_left_iff.2 hp)
  refine ⟨sigs, a0, a, e, e0, ?_, by rwa [sum_smul_pt] at ha⟩
  rw [← ea, List.foldlM_map]
  rfl

/-- The hypothesis holds for the generator of the second group and two keys. -/
example : ∃ P : ECP2, P.Rep gen2 ∧ ∃ sks, List.Forall₂ SecretKey.Rep sks [3, 4] := by
  obtain ⟨P, h⟩ := ECP2.exists_rep gen2
  obtain ⟨s1, h1⟩ := SecretKey.exists_rep (n := 3) (by norm_num)
  obtain ⟨s2, h2⟩ := SecretKey.exists_rep (n := 4) (by norm_num)
  exact ⟨P, h, [s1, s2], by simp [h1, h2]⟩

end Props
