import Verif.Props.Codec2
/-!
# Properties C23, C24: equality and representation independence of encodings
-/

set_option exponentiation.threshold 2000

namespace Props

open Amcl Spec

seal Spec.toBE Spec.signBit Spec.enc1

theorem eq_of_wp {m : Option Bool} {P : Prop} [Decidable P] (h : Wp m fun r => r = true ↔ P) : m = some (decide P) := by
  obtain ⟨r, e, h⟩ := h
  rw [e]
  by_cases hp : P
  · rw [h.2 hp, decide_eq_true hp]
  · rw [Bool.eq_false_iff.2 fun hr => hp (h.1 hr), decide_eq_false hp]

open Classical in
/-- **C23.** `==` on the four point types decides equality of the represented points, `==` on secret
keys decides equality of the integers; whatever coordinates, excess counters and limbs represent them. -/
theorem C23_equality :
    (∀ (a b : PublicKey) (g h : G1), a.Rep g → b.Rep h → a.eq b = some (decide (g = h))) ∧
    (∀ (a b : AggregatePublicKey) (g h : G1), a.Rep g → b.Rep h → a.eq b = some (decide (g = h))) ∧
    (∀ (a b : Signature) (g h : G2), a.Rep g → b.Rep h → a.eq b = some (decide (g = h))) ∧
    (∀ (a b : AggregateSignature) (g h : G2), a.Rep g → b.Rep h → a.eq b = some (decide (g = h))) ∧
    (∀ (a b : SecretKey) (m n : Nat), a.Rep m → b.Rep n → a.eq b = some (decide (m = n))) := by
  refine ⟨?_, ?_, ?_, ?_, ?_⟩
  · intro a b g h ha hb
    exact eq_of_wp (ECP.equals_wp ha hb (by norm_num))
  · intro a b g h ha hb
    exact eq_of_wp (ECP.equals_wp ha hb (by norm_num))
  · intro a b g h ha hb
    exact eq_of_wp (ECP2.equals_wp ha hb (by norm_num))
  · intro a b g h ha hb
    exact eq_of_wp (ECP2.equals_wp ha hb (by norm_num))
  · intro a b m n ha hb
    rw [SecretKey.eq, SecretKey.as_bytes, SecretKey.as_bytes, ha.nrm.tobytes ha.val ha.lt, hb.nrm.tobytes hb.val hb.lt]
    have key : toBE 48 m = toBE 48 n ↔ m = n := by
      refine ⟨fun h => ?_, fun h => by rw [h]⟩
      have h1 := ha.lt
      have h2 := hb.lt
      have := congrArg beNat h
      rwa [beNat_toBE, beNat_toBE, Nat.mod_eq_of_lt (by omega), Nat.mod_eq_of_lt (by omega)] at this
    show some (toBE 48 m == toBE 48 n) = _
    by_cases h : m = n
    · rw [decide_eq_true h, h, beq_self_eq_true]
    · rw [decide_eq_false h, beq_eq_false_iff_ne.2 fun e => h (key.1 e)]

/-- Both outcomes occur: the generator equals itself and differs from its negative. -/
example : (∃ a : PublicKey, a.Rep gen1) ∧ (∃ b : PublicKey, b.Rep (-gen1)) ∧ gen1 ≠ -gen1 := by
  refine ⟨PublicKey.exists_rep _, PublicKey.exists_rep _, fun e => gen1_ne ?_⟩
  have h2 : 2 • gen1 = 0 := by
    rw [two_nsmul]
    nth_rewrite 2 [e]
    rw [add_neg_cancel]
  rw [← AddMonoid.addOrderOf_eq_one_iff, addOrderOf_gen1]
  have := addOrderOf_dvd_of_nsmul_eq_zero h2
  rw [addOrderOf_gen1] at this
  exact absurd (Nat.le_of_dvd (by norm_num) this) (by norm_num [r])

/-- Points whose encodings are canonical: infinity, or nonzero abscissa. -/
def Regular1 (g : G1) : Prop := ∀ x y h, g = Pt.mk x y h → x ≠ 0

/-- Points whose encodings are canonical: infinity, or all encoded components nonzero. -/
def Regular2 (g : G2) : Prop := ∀ x y h, g = Pt.mk x y h → x.re ≠ 0 ∧ x.im ≠ 0 ∧ y.im ≠ 0

/-- **C24.** The compressed and uncompressed encodings are functions of the point alone, for infinity
and for all points without a zero among the encoded components; the bytes are the documented ones
(with the encoders' sign bit). -/
theorem C24_encoding_of_point :
    (∀ a : PublicKey, a.Rep 0 → a.as_bytes = some (encInf 48)) ∧
    (∀ a : AggregatePublicKey, a.Rep 0 → a.as_bytes = some (encInf 48)) ∧
    (∀ a : Signature, a.Rep 0 → a.as_bytes = some (encInf 96)) ∧
    (∀ a : AggregateSignature, a.Rep 0 → a.as_bytes = some (encInf 96)) ∧
    (∀ (a : PublicKey) (x y : Fp) h, a.Rep (Pt.mk x y h) → x ≠ 0 →
      a.as_bytes = some (enc1 x.val (signBit y.val)) ∧
      ∃ a', a.as_uncompressed_bytes = some (toBE 48 x.val ++ toBE 48 y.val, a') ∧ a'.Rep (Pt.mk x y h)) ∧
    (∀ (a : AggregatePublicKey) (x y : Fp) h, a.Rep (Pt.mk x y h) → x ≠ 0 →
      a.as_bytes = some (enc1 x.val (signBit y.val))) ∧
    (∀ (a : Signature) (x y : Fp2) h, a.Rep (Pt.mk x y h) → x.re ≠ 0 → x.im ≠ 0 → y.im ≠ 0 →
      a.as_bytes = some (enc2 x.re.val x.im.val (signBit y.im.val))) ∧
    (∀ (a : AggregateSignature) (x y : Fp2) h, a.Rep (Pt.mk x y h) → x.re ≠ 0 → x.im ≠ 0 → y.im ≠ 0 →
      a.as_bytes = some (enc2 x.re.val x.im.val (signBit y.im.val))) := by
  have k2 : ∀ (P : ECP2) (x y : Fp2) h, P.Rep (Pt.mk x y h) → x.re ≠ 0 → x.im ≠ 0 → y.im ≠ 0 →
      utils.compress_g2 P = some (enc2 x.re.val x.im.val (signBit y.im.val)) := by
    intro P x y h hP h1 h2 h3
    rw [compress_g2_eq hP (by norm_num), show P.xaOut x = x.re.val from FP.outIf_of_ne h1,
      show P.xbOut x = x.im.val from FP.outIf_of_ne h2, show P.ybOut y = y.im.val from FP.outIf_of_ne h3]
  refine ⟨fun a ha => compress_g1_inf ha (by norm_num), fun a ha => compress_g1_inf ha (by norm_num),
    fun a ha => compress_g2_inf ha (by norm_num), fun a ha => compress_g2_inf ha (by norm_num), ?_, ?_,
    fun a => k2 a.point, fun a => k2 a.point⟩
  · intro a x y h ha hx
    refine ⟨?_, ?_⟩
    · rw [PublicKey.as_bytes, compress_g1_eq ha (by norm_num), ECP.xOut_of_ne hx]
    · obtain ⟨⟨b, a'⟩, e, hb, ha'⟩ := as_uncompressed_wp ha
      dsimp only at hb ha'
      rw [ECP.xOut_of_ne hx] at hb
      exact ⟨a', by rw [e, hb], ha'⟩
  · intro a x y h ha hx
    rw [AggregatePublicKey.as_bytes, compress_g1_eq ha (by norm_num), ECP.xOut_of_ne hx]

/-- The generators meet the hypotheses. -/
example : (g1x : Fp) ≠ 0 ∧ (g2xa : Fp) ≠ 0 ∧ (g2xb : Fp) ≠ 0 ∧ (g2yb : Fp) ≠ 0 := by
  refine ⟨?_, ?_, ?_, ?_⟩ <;>
  · rw [Ne, ZMod.natCast_eq_zero_iff]
    norm_num [g1x, g2xa, g2xb, g2yb, p]

/-- **C24**, consequence: equal keys (`==`) have equal encodings, away from zero components. -/
theorem C24_equal_keys_encode_equally (a b : PublicKey) (g h : G1) (ha : a.Rep g) (hb : b.Rep h)
    (e : a.eq b = some true) (hr : Regular1 g) :
    ∃ bytes, a.as_bytes = some bytes ∧ b.as_bytes = some bytes := by
  obtain rfl : g = h := by
    have := C23_equality.1 a b g h ha hb
    rw [e] at this
    exact of_decide_eq_true (Option.some.inj this).symm
  rcases Pt.cases g with rfl | ⟨x, y, h, rfl⟩
  · exact ⟨_, C24_encoding_of_point.1 a ha, C24_encoding_of_point.1 b hb⟩
  · have hx := hr x y h rfl
    exact ⟨_, (C24_encoding_of_point.2.2.2.2.1 a x y h ha hx).1, (C24_encoding_of_point.2.2.2.2.1 b x y h hb hx).1⟩

theorem C24_equal_signatures_encode_equally (a b : Signature) (g h : G2) (ha : a.Rep g) (hb : b.Rep h)
    (e : a.eq b = some true) (hr : Regular2 g) :
    ∃ bytes, a.as_bytes = some bytes ∧ b.as_bytes = some bytes := by
  obtain rfl : g = h := by
    have := C23_equality.2.2.1 a b g h ha hb
    rw [e] at this
    exact of_decide_eq_true (Option.some.inj this).symm
  rcases Pt.cases g with rfl | ⟨x, y, h, rfl⟩
  · exact ⟨_, C24_encoding_of_point.2.2.1 a ha, C24_encoding_of_point.2.2.1 b hb⟩
  · obtain ⟨h1, h2, h3⟩ := hr x y h rfl
    exact ⟨_, C24_encoding_of_point.2.2.2.2.2.2.1 a x y h ha h1 h2 h3,
      C24_encoding_of_point.2.2.2.2.2.2.1 b x y h hb h1 h2 h3⟩

/-- **C24**, the exception is real: the abscissa fields 0 and `p` decode to keys that compare equal but
encode to different bytes. -/
theorem C24_zero_abscissa_exception : ∃ a b : PublicKey, a.eq b = some true ∧
    ∃ u v, a.as_bytes = some u ∧ b.as_bytes = some v ∧ u ≠ v := by
  have hp : p < 2 ^ 381 := p_lt_381
  have h0 : (2 : Fp) ^ 2 = ((0 : Nat) : Fp) ^ 3 + b1 := by rw [b1]; norm_num
  have h1 : (2 : Fp) ^ 2 = ((p : Nat) : Fp) ^ 3 + b1 := by rw [b1]; simp; norm_num
  obtain ⟨a, b, ea, eb, h⟩ := C22_same_key_iff 0 p 0 0 (by norm_num) hp (by norm_num) (by norm_num)
    ⟨2, by rw [← h0, sq]⟩ ⟨2, by rw [← h1, sq]⟩
  obtain ⟨a', s, ea', ha, -, hs, -⟩ := C22_reencode 0 0 (by norm_num) (by norm_num) 2 h0
  obtain ⟨b', s', eb', hb, -, hs', -⟩ := C22_reencode p 0 hp (by norm_num) 2 h1
  cases ea.symm.trans ea'
  cases eb.symm.trans eb'
  have hne : p ≠ 0 := by norm_num [p]
  refine ⟨a, b, ?_, _, _, ha, hb, ?_⟩
  · rcases h with h | h
    · exact h.1
    · exact absurd ⟨rfl, by simp⟩ h.2
  · intro e
    have hlt : (if (0 : Nat) = p then p else 0 % p) < 2 ^ 381 := by
      split
      · exact hp
      · simp
    rw [if_pos (rfl : p = p)] at e
    have := (enc1_inj hlt hs hp hs' e).1
    rw [if_neg (Ne.symm hne), Nat.zero_mod] at this
    exact hne this.symm

/-- Infinity round trips through all three encodings (**C17**, **C18**, **C20**). -/
theorem C17_infinity_round_trip (a : PublicKey) (s : Signature) (ha : a.Rep 0) (hs : s.Rep 0) :
    (∃ b a', a.as_bytes = some b ∧ PublicKey.from_bytes b = some (.ok a') ∧ a.eq a' = some true) ∧
    (∃ b s', s.as_bytes = some b ∧ Signature.from_bytes b = some (.ok s') ∧ s.eq s' = some true) := by
  refine ⟨?_, ?_⟩
  · obtain ⟨a', e, ha'⟩ := (C15_key_acceptance (encInf 48)).2.2.2.1 (by decide) (by decide +kernel)
    exact ⟨_, a', C24_encoding_of_point.1 a ha, e, by rw [C23_equality.1 a a' 0 0 ha ha']; simp⟩
  · obtain ⟨s', e, hs'⟩ := ((C16_signature_acceptance (encInf 96)).2 _ _ (by decide) rfl rfl).2.2.1
      ⟨by decide +kernel, by decide +kernel⟩
    exact ⟨_, s', C24_encoding_of_point.2.2.1 s hs, e, by rw [C23_equality.2.2.1 s s' 0 0 hs hs']; simp⟩

end Props
