import Verif.Props.Codec1
import Verif.Proof.Codec2
/-!
# Properties C13, C14, C16, C18, C34: encodings of signatures
-/

set_option exponentiation.threshold 2000

namespace Props

open Amcl Spec

seal Spec.toBE Spec.signBit Spec.enc1

/-! ### Helpers -/

theorem sig_from_bytes {b : List UInt8} (hb : b.length = 96) :
    Wp (Signature.from_bytes b) fun r =>
      ∃ d, Dec2 (beNat (b.take 48)) (beNat (b.drop 48)) d ∧ r = d.map Signature.mk := by
  unfold Signature.from_bytes
  exact Wp.bind (decompress_g2_wp hb) fun d hd => Wp.ret ⟨d, hd, rfl⟩

theorem asig_from_bytes {b : List UInt8} (hb : b.length = 96) :
    Wp (AggregateSignature.from_bytes b) fun r =>
      ∃ d, Dec2 (beNat (b.take 48)) (beNat (b.drop 48)) d ∧ r = d.map AggregateSignature.mk := by
  unfold AggregateSignature.from_bytes
  exact Wp.bind (decompress_g2_wp hb) fun d hd => Wp.ret ⟨d, hd, rfl⟩

theorem decompress_g2_size {b : List UInt8} (hb : b.length ≠ 96) :
    utils.decompress_g2 b = some (.error .IncorrectSize) := by
  rw [utils.decompress_g2.eq_def, if_pos hb]
  rfl

theorem cast_outIf (a : Prop) (f : FP) (v : Fp) : ((FP.outIf a f v : Nat) : Fp) = v := by
  unfold FP.outIf
  split
  · next h => rw [h.1]; simp
  · simp

/-- The right-hand sides whose root the library finds. -/
def Solvable (v : Fp2) : Prop := IsSquare v ∧ (v.im = 0 → IsSquare v.re)

/-- The curve points it can reach: those whose ordinate is not purely imaginary. -/
theorem solvable_sq {y : Fp2} (h : y ≠ 0) : Solvable (y ^ 2) ↔ y.re ≠ 0 := by
  have e1 : (y ^ 2).im = 2 * (y.re * y.im) := by rw [sq]; simp; ring
  have e2 : (y ^ 2).re = y.re * y.re - y.im * y.im := by rw [sq]; simp; ring
  constructor
  · rintro ⟨-, h2⟩ h0
    have hi : y.im ≠ 0 := fun hi => h (QuadraticAlgebra.ext h0 hi)
    have := h2 (by rw [e1, h0]; ring)
    rw [e2, h0, mul_zero, zero_sub] at this
    exact FP2.neg_sq_nonsquare hi this
  · intro h0
    refine ⟨⟨y, sq y⟩, fun hi => ?_⟩
    rw [e1] at hi
    have : y.im = 0 := ((mul_eq_zero.1 ((mul_eq_zero.1 hi).resolve_left FP.two_ne))).resolve_left h0
    rw [e2, this, mul_zero, sub_zero]
    exact ⟨_, rfl⟩

theorem sig_from_enc2 {X Y s : Nat} (hX : X < 2 ^ 384) (hY : Y < 2 ^ 381) (hs : s < 2) {x y : Fp2}
    (hx : x = ⟨(X : Fp), (Y : Fp)⟩) (h : y ^ 2 = x ^ 3 + b2) :
    Wp (Signature.from_bytes (enc2 X Y s)) fun r =>
      (y.re = 0 → r = .error .BadPoint) ∧
      (y.re ≠ 0 → ∃ sg y0 h0, r = .ok sg ∧ IsSquare y0.re ∧ (y0 = y ∨ y0 = -y) ∧
        sg.point.z.toF = 1 ∧ (sg.point.x.a.x.val = 0 ↔ X = 0) ∧ (sg.point.x.b.x.val = 0 ↔ Y = 0) ∧
        ECP2.Ok sg.point 10 (if signBit y0.im.val = s then Pt.mk x y0 h0 else - Pt.mk x y0 h0)) := by
  refine (sig_from_bytes (length_enc2 _ _ _)).mono ?_
  rintro r ⟨d, hd, rfl⟩
  have t1 : beNat ((enc2 X Y s).take 48) = 2 ^ 383 + s * 2 ^ 381 + Y := by
    rw [enc2, List.take_append_of_le_length (by rw [length_enc1]), List.take_of_length_le (by rw [length_enc1]),
      beNat_enc1 hY hs]
  have t2 : beNat ((enc2 X Y s).drop 48) = X := by
    rw [enc2, List.drop_left' (length_enc1 _ _), beNat_toBE, Nat.mod_eq_of_lt (by omega)]
  rw [t1, t2] at hd
  have hsm : s * 2 ^ 381 ≤ 1 * 2 ^ 381 := Nat.mul_le_mul_right _ (by omega)
  have e1 : (2 ^ 383 + s * 2 ^ 381 + Y) % 2 ^ 381 = Y := by omega
  have e2 : (2 ^ 383 + s * 2 ^ 381 + Y) / 2 ^ 381 % 2 = s := by omega
  have e3 : (2 ^ 383 + s * 2 ^ 381 + Y) / 2 ^ 382 % 2 = 0 := by omega
  obtain ⟨-, -, -, hd⟩ := hd
  rw [e1, e2, e3] at hd
  obtain ⟨h1, h2⟩ := hd x hx (by omega) rfl
  have hsol := solvable_sq (Pt.y_ne h)
  rw [h] at hsol
  refine ⟨fun h0 => ?_, fun h0 => ?_⟩
  · rw [h1 (fun hc => hsol.1 hc h0)]; rfl
  · obtain ⟨P, y0, h0', rfl, hy0, hz, ha, hb, hP⟩ := h2 (hsol.2 h0)
    exact ⟨⟨P⟩, y0, h0', rfl, hy0, sq_eq_sq_iff_eq_or_eq_neg.1 (h0'.trans h.symm), hz, ha, hb, hP⟩

/-! ### The properties -/

/-- **C13** for signatures: both decoders return a result on every byte string. -/
theorem C13_signature_decoders_total (b : List UInt8) :
    (∃ r, Signature.from_bytes b = some r) ∧ (∃ r, AggregateSignature.from_bytes b = some r) := by
  refine ⟨?_, ?_⟩
  · by_cases hb : b.length = 96
    · obtain ⟨r, e, -⟩ := sig_from_bytes hb
      exact ⟨r, e⟩
    · exact ⟨_, by rw [Signature.from_bytes, decompress_g2_size hb]; rfl⟩
  · by_cases hb : b.length = 96
    · obtain ⟨r, e, -⟩ := asig_from_bytes hb
      exact ⟨r, e⟩
    · exact ⟨_, by rw [AggregateSignature.from_bytes, decompress_g2_size hb]; rfl⟩

theorem Dec2.rep {N M : Nat} {P : ECP2} (h : Dec2 N M (.ok P)) : ∃ g : G2, P.Rep g := by
  obtain ⟨h1, h2, h3, h4⟩ := h
  by_cases c1 : N < 2 ^ 383
  · cases h1 c1
  by_cases c2 : N / 2 ^ 382 % 2 = 1
  · by_cases c3 : N % 2 ^ 382 = 0 ∧ M = 0
    · obtain ⟨Q, e, hQ⟩ := h3 (by omega) c2 c3
      cases e
      exact ⟨_, hQ.mono (by norm_num)⟩
    · cases h2 (by omega) c2 c3
  · obtain ⟨h4, h5⟩ := h4 _ rfl (by omega) (by omega)
    by_cases c3 : Solvable ((⟨((M : Nat) : Fp), ((N % 2 ^ 381 : Nat) : Fp)⟩ : Fp2) ^ 3 + b2)
    · obtain ⟨Q, _, _, e, -, -, -, -, hQ⟩ := h5 c3
      cases e
      exact ⟨_, hQ.mono (by norm_num)⟩
    · cases h4 c3

/-- **C14** for signatures: an accepted signature represents a point of the twist (a solution of
`y² = x³ + 4(1 + i)` or infinity). -/
theorem C14_signature_decoders_on_curve (b : List UInt8) :
    (∀ s, Signature.from_bytes b = some (.ok s) → ∃ g : G2, s.Rep g) ∧
    (∀ s, AggregateSignature.from_bytes b = some (.ok s) → ∃ g : G2, s.Rep g) := by
  refine ⟨?_, ?_⟩
  · intro s h
    by_cases hb : b.length = 96
    · obtain ⟨d, hd, e⟩ := (sig_from_bytes hb).elim h
      cases d with
      | error _ => cases e
      | ok P => cases e; exact Dec2.rep hd
    · rw [Signature.from_bytes, decompress_g2_size hb] at h
      cases h
  · intro s h
    by_cases hb : b.length = 96
    · obtain ⟨d, hd, e⟩ := (asig_from_bytes hb).elim h
      cases d with
      | error _ => cases e
      | ok P => cases e; exact Dec2.rep hd
    · rw [AggregateSignature.from_bytes, decompress_g2_size hb] at h
      cases h

/-- **C16.** Result of `Signature::from_bytes` on every byte string. The first 48 bytes are the integer
`N` with flags in its bits 383 to 381 and the imaginary part of the abscissa below, the last 48 bytes
are the real part (all 384 bits of it). Accepted are the abscissas whose `x³ + 4(1 + i)` is a square,
except those where it is in `Fp` without being a square of `Fp`. -/
theorem C16_signature_acceptance (b : List UInt8) :
    (b.length ≠ 96 → Signature.from_bytes b = some (.error .IncorrectSize)) ∧
    ∀ N M, b.length = 96 → N = beNat (b.take 48) → M = beNat (b.drop 48) →
      (N < 2 ^ 383 → Signature.from_bytes b = some (.error .InvalidCFlag)) ∧
      (2 ^ 383 + 2 ^ 382 ≤ N → ¬ (N = 2 ^ 383 + 2 ^ 382 ∧ M = 0) →
        Signature.from_bytes b = some (.error .BadPoint)) ∧
      (N = 2 ^ 383 + 2 ^ 382 ∧ M = 0 → ∃ sg, Signature.from_bytes b = some (.ok sg) ∧ sg.Rep 0) ∧
      ∀ Y s, ∀ x : Fp2, Y < 2 ^ 381 → s < 2 → N = 2 ^ 383 + s * 2 ^ 381 + Y → x = ⟨(M : Fp), (Y : Fp)⟩ →
        (¬ (IsSquare (x ^ 3 + b2) ∧ ((x ^ 3 + b2).im = 0 → IsSquare (x ^ 3 + b2).re)) →
          Signature.from_bytes b = some (.error .BadPoint)) ∧
        (IsSquare (x ^ 3 + b2) ∧ ((x ^ 3 + b2).im = 0 → IsSquare (x ^ 3 + b2).re) →
          ∃ sg y h, Signature.from_bytes b = some (.ok sg) ∧ IsSquare y.re ∧
            sg.Rep (if signBit y.im.val = s then Pt.mk x y h else - Pt.mk x y h)) := by
  refine ⟨fun hb => ?_, ?_⟩
  · rw [Signature.from_bytes, decompress_g2_size hb]; rfl
  intro N M hb hN hM
  obtain ⟨r, e, d, ⟨h1, h2, h3, h4⟩, rfl⟩ := sig_from_bytes hb
  have hl : N < 2 ^ 384 := hN ▸ beNat_lt48 (by rw [List.length_take, hb]; rfl)
  rw [← hN, ← hM] at h2 h3 h4
  rw [← hN] at h1
  rw [e]
  refine ⟨fun h => by rw [h1 h]; rfl, fun h h' => ?_, fun h => ?_, ?_⟩
  · rw [h2 (by omega) (by omega) (by omega)]; rfl
  · obtain ⟨P, rfl, hP⟩ := h3 (by omega) (by omega) (by omega)
    exact ⟨⟨P⟩, rfl, hP.mono (by norm_num)⟩
  · intro Y s x hY hs hNY hx
    have hsm : s * 2 ^ 381 ≤ 1 * 2 ^ 381 := Nat.mul_le_mul_right _ (by omega)
    have e1 : N % 2 ^ 381 = Y := by omega
    have e2 : N / 2 ^ 381 % 2 = s := by omega
    rw [e1, e2] at h4
    obtain ⟨h4, h5⟩ := h4 x hx (by omega) (by omega)
    refine ⟨fun h => by rw [h4 h]; rfl, fun h => ?_⟩
    obtain ⟨P, y0, h0, rfl, hy0, -, -, -, hP⟩ := h5 h
    exact ⟨⟨P⟩, y0, h0, rfl, hy0, hP.mono (by norm_num)⟩

/-- The abscissa of the published generator of the twist is accepted. -/
example : let x : Fp2 := ⟨(g2xa : Fp), (g2xb : Fp)⟩
    IsSquare (x ^ 3 + b2) ∧ ((x ^ 3 + b2).im = 0 → IsSquare (x ^ 3 + b2).re) := by
  intro x
  have h := g2_on
  have := (solvable_sq (Pt.y_ne h)).2 (by
    show (g2ya : Fp) ≠ 0
    rw [Ne, ZMod.natCast_eq_zero_iff]
    norm_num [g2ya, p])
  rwa [h] at this

/-- **C18.** Compressed round trip of a finite signature point `(x, y)`:
* a purely imaginary `y` is not decodable;
* otherwise the result is `(x, y)` or `(x, -y)`;
* if `y` has a nonzero imaginary part, it is `(x, y)` iff the encoders' bit separates the imaginary
  parts of `y` and `-y`, or the real part of `y` is a square (the root the decoder computes);
* if `y` is real the encoded bit carries no information about the sign (it depends on whether the
  zero is stored as 0 or as a multiple of `p`); writing `s` for it, the result is `(x, y)` iff
  (`s = 0` iff `y` is a square). -/
theorem C18_signature_round_trip (sg : Signature) (x y : Fp2) (h : y ^ 2 = x ^ 3 + b2)
    (hk : sg.Rep (Pt.mk x y h)) :
    ∃ bytes X Y s, sg.as_bytes = some bytes ∧ bytes = enc2 X Y s ∧ X ≤ p ∧ Y ≤ p ∧ s < 2 ∧
      x = ⟨(X : Fp), (Y : Fp)⟩ ∧
      (y.re = 0 → Signature.from_bytes bytes = some (.error .BadPoint)) ∧
      (y.re ≠ 0 → ∃ sg' y' h', Signature.from_bytes bytes = some (.ok sg') ∧ sg'.Rep (Pt.mk x y' h') ∧
        (sg.eq sg' = some true ∧ y' = y ∨ sg.eq sg' = some false ∧ y' = -y) ∧
        (y.im ≠ 0 → (y' = y ↔ IsSquare y.re ∨ signBit y.im.val ≠ signBit (-y.im).val)) ∧
        (y.im = 0 → (y' = y ↔ (s = 0 ↔ IsSquare y.re)))) := by
  have hy := Pt.y_ne h
  have hb : sg.as_bytes = some (enc2 (sg.point.xaOut x) (sg.point.xbOut x) (signBit (sg.point.ybOut y))) :=
    compress_g2_eq hk (by norm_num)
  have hX : sg.point.xaOut x ≤ p := FP.outIf_le _ _ _
  have hY : sg.point.xbOut x ≤ p := FP.outIf_le _ _ _
  have hx : x = ⟨((sg.point.xaOut x : Nat) : Fp), ((sg.point.xbOut x : Nat) : Fp)⟩ := by
    ext
    · exact (cast_outIf _ _ _).symm
    · exact (cast_outIf _ _ _).symm
  have hs := signBit_lt (sg.point.ybOut y)
  have hp := p_lt_381
  obtain ⟨r, e, h1, h2⟩ := sig_from_enc2 (show sg.point.xaOut x < 2 ^ 384 by omega)
    (show sg.point.xbOut x < 2 ^ 381 by omega) hs hx h
  refine ⟨_, _, _, _, hb, rfl, hX, hY, hs, hx, fun h0 => by rw [e, h1 h0], fun h0 => ?_⟩
  obtain ⟨sg', y0, h0', rfl, hs0, hy0, -, -, -, hP⟩ := h2 h0
  have hyo : y.im ≠ 0 → sg.point.ybOut y = y.im.val := fun hi => FP.outIf_of_ne hi
  generalize hsdef : signBit (sg.point.ybOut y) = s at *
  have key : ∃ y' h', ECP2.Ok sg'.point 10 (Pt.mk x y' h') ∧ (y' = y ∨ y' = -y) ∧
        (y.im ≠ 0 → (y' = y ↔ IsSquare y.re ∨ signBit y.im.val ≠ signBit (-y.im).val)) ∧
        (y.im = 0 → (y' = y ↔ (s = 0 ↔ IsSquare y.re))) := by
    have hne : -y ≠ y := by
      intro hc
      have : (2 : Fp) * y.re = 0 := by
        have := congrArg QuadraticAlgebra.re hc
        rw [QuadraticAlgebra.re_neg] at this
        linear_combination -this
      exact h0 ((mul_eq_zero.1 this).resolve_left FP.two_ne)
    have z0 : signBit (0 : Fp).val = 0 := by
      rw [ZMod.val_zero]
      decide +kernel
    rcases hy0 with rfl | rfl
    · by_cases hi : y0.im = 0
      · by_cases hc : signBit y0.im.val = s
        · rw [if_pos hc] at hP
          rw [hi, z0] at hc
          exact ⟨_, _, hP, .inl rfl, fun h => absurd hi h, fun _ => by simp [hs0, hc.symm]⟩
        · rw [if_neg hc, Pt.neg_mk] at hP
          rw [hi, z0] at hc
          exact ⟨_, _, hP, .inr rfl, fun h => absurd hi h, fun _ => by simp [hs0, hne, Ne.symm hc]⟩
      · rw [if_pos (by rw [← hsdef, hyo hi])] at hP
        exact ⟨_, _, hP, .inl rfl, fun _ => by simp [hs0], fun h => absurd h hi⟩
    · have hs0' : IsSquare (-y.re) := by rwa [QuadraticAlgebra.re_neg] at hs0
      have hns : ¬ IsSquare y.re := not_isSquare_neg h0 hs0'
      by_cases hi : y.im = 0
      · have hi' : (-y).im = 0 := by rw [QuadraticAlgebra.im_neg, hi, neg_zero]
        by_cases hc : signBit (-y).im.val = s
        · rw [if_pos hc] at hP
          rw [hi', z0] at hc
          exact ⟨_, _, hP, .inr rfl, fun h => absurd hi h, fun _ => by simp [hns, hne, hc.symm]⟩
        · rw [if_neg hc, Pt.neg_mk] at hP
          simp only [neg_neg] at hP
          rw [hi', z0] at hc
          exact ⟨_, h, hP, .inl rfl, fun h => absurd hi h, fun _ => by simp [hns, Ne.symm hc]⟩
      · have hsy : s = signBit y.im.val := by rw [← hsdef, hyo hi]
        rw [QuadraticAlgebra.im_neg] at hP
        by_cases hc : signBit (-y.im).val = s
        · rw [if_pos hc] at hP
          exact ⟨_, _, hP, .inr rfl, fun _ => by simp [hns, hne, ← hsy, hc], fun h => absurd h hi⟩
        · rw [if_neg hc, Pt.neg_mk] at hP
          simp only [neg_neg] at hP
          exact ⟨_, h, hP, .inl rfl, fun _ => by simp [← hsy, Ne.symm hc], fun h => absurd h hi⟩
  obtain ⟨y', h', hP', hc, hc1, hc2⟩ := key
  have hR : sg'.Rep (Pt.mk x y' h') := hP'.mono (by norm_num)
  refine ⟨sg', y', h', e, hR, ?_, hc1, hc2⟩
  obtain ⟨t, et, ht⟩ := ECP2.equals_wp hk hR (by norm_num)
  rw [Signature.eq, et]
  rcases hc with rfl | rfl
  · exact .inl ⟨by rw [ht.2 rfl], rfl⟩
  · refine .inr ⟨?_, rfl⟩
    cases t
    · rfl
    · have := congrArg QuadraticAlgebra.re (Pt.mk_inj.1 (ht.1 rfl)).2
      rw [QuadraticAlgebra.re_neg] at this
      exact absurd ((mul_eq_zero.1 (show (2 : Fp) * y.re = 0 by linear_combination this)).resolve_left FP.two_ne) h0

/-- The generator of the twist is an instance with `y.re ≠ 0` and `y.im ≠ 0`. -/
example : (∃ sg : Signature, sg.Rep gen2) ∧ (g2ya : Fp) ≠ 0 ∧ (g2yb : Fp) ≠ 0 := by
  refine ⟨Signature.exists_rep _, ?_, ?_⟩ <;>
  · rw [Ne, ZMod.natCast_eq_zero_iff]
    norm_num [g2ya, g2yb, p]

/-- **C18**, points whose sign is lost: for nonzero components of `x` and a nonzero imaginary part of
`y`, `P` and `-P` have equal encodings iff the imaginary part of `y` or its negative is exceptional. -/
theorem C18_ambiguous_encoding (sg sg' : Signature) (x y : Fp2) (h : y ^ 2 = x ^ 3 + b2)
    (hk : sg.Rep (Pt.mk x y h)) (hk' : sg'.Rep (- Pt.mk x y h)) (hx : x.re ≠ 0 ∧ x.im ≠ 0) (hy : y.im ≠ 0) :
    (∃ bytes, sg.as_bytes = some bytes ∧ sg'.as_bytes = some bytes) ↔
      Exceptional y.im.val ∨ Exceptional (p - y.im.val) := by
  rw [Pt.neg_mk] at hk'
  have hy' : (-y).im ≠ 0 := by rwa [QuadraticAlgebra.im_neg, neg_ne_zero]
  have e1 := compress_g2_eq hk (by norm_num)
  have e2 := compress_g2_eq hk' (by norm_num)
  rw [show sg.point.xaOut x = x.re.val from FP.outIf_of_ne hx.1,
    show sg.point.xbOut x = x.im.val from FP.outIf_of_ne hx.2,
    show sg.point.ybOut y = y.im.val from FP.outIf_of_ne hy] at e1
  rw [show sg'.point.xaOut x = x.re.val from FP.outIf_of_ne hx.1,
    show sg'.point.xbOut x = x.im.val from FP.outIf_of_ne hx.2,
    show sg'.point.ybOut (-y) = (-y).im.val from FP.outIf_of_ne hy', QuadraticAlgebra.im_neg] at e2
  rw [Signature.as_bytes, Signature.as_bytes, e1, e2, ← (signBit_neg_iff (val_pos_fp hy) (ZMod.val_lt _)).1,
    val_neg_fp hy]
  have hX : x.im.val < 2 ^ 381 := (ZMod.val_lt _).trans p_lt_381
  constructor
  · rintro ⟨bytes, h1, h2⟩
    have := Option.some.inj (h1.trans h2.symm)
    rw [enc2, enc2] at this
    exact (enc1_inj hX (signBit_lt _) hX (signBit_lt _) (List.append_cancel_right this)).2
  · intro h
    rw [h]
    exact ⟨_, rfl, rfl⟩

/-- **C34** for signatures: a concrete string is accepted although its point has no order dividing `r`. -/
theorem C34_signature_without_subgroup_check : ∃ sg : Signature, ∃ g : G2,
    Signature.from_bytes (enc2 2 0 0) = some (.ok sg) ∧ sg.Rep g ∧ r • g ≠ 0 := by
  obtain ⟨x, e, -, h2⟩ := sig_from_enc2 (X := 2) (Y := 0) (s := 0) (by norm_num) (by norm_num) (by norm_num) rfl two_on
  obtain ⟨sg, y0, h0, rfl, -, hy0, -, -, -, hP⟩ := h2 (by
    show (two_ya : Fp) ≠ 0
    rw [Ne, ZMod.natCast_eq_zero_iff]
    norm_num [two_ya, p])
  have hne : r • (Pt.mk _ y0 h0 : G2) ≠ 0 := by
    rcases hy0 with rfl | rfl
    · exact two_order
    · have := two_order
      rw [← neg_ne_zero, ← smul_neg, Pt.neg_mk] at this
      exact this
  refine ⟨sg, _, e, hP.mono (by norm_num), ?_⟩
  split
  · exact hne
  · rw [smul_neg, neg_ne_zero]
    exact hne

end Props
