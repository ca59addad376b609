import Verif.Proof.Reach
import Verif.Props.SignBit
/-!
# Properties C13, C14, C15, C17, C20, C21, C22, C34: encodings of public keys
-/

set_option exponentiation.threshold 2000

namespace Props

open Amcl Spec

seal Spec.toBE Spec.signBit Spec.enc1

/-! ### Helpers -/

theorem pk_from_bytes {b : List UInt8} (hb : b.length = 48) :
    Wp (PublicKey.from_bytes b) fun r => ∃ d, Dec1 (beNat b) d ∧ r = d.map PublicKey.mk := by
  unfold PublicKey.from_bytes
  exact Wp.bind (decompress_g1_wp hb) fun d hd => Wp.ret ⟨d, hd, rfl⟩

theorem apk_from_bytes {b : List UInt8} (hb : b.length = 48) :
    Wp (AggregatePublicKey.from_bytes b) fun r => ∃ d, Dec1 (beNat b) d ∧ r = d.map AggregatePublicKey.mk := by
  unfold AggregatePublicKey.from_bytes
  exact Wp.bind (decompress_g1_wp hb) fun d hd => Wp.ret ⟨d, hd, rfl⟩

theorem decompress_g1_size {b : List UInt8} (hb : b.length ≠ 48) :
    utils.decompress_g1 b = some (.error .IncorrectSize) := by
  rw [utils.decompress_g1.eq_def, if_pos hb]
  rfl

theorem val_neg_fp {y : Fp} (hy : y ≠ 0) : (-y).val = p - y.val := by
  rw [ZMod.neg_val, if_neg hy]

theorem val_pos_fp {y : Fp} (hy : y ≠ 0) : 0 < y.val := by
  rw [Nat.pos_iff_ne_zero, Ne, ZMod.val_eq_zero]
  exact hy

theorem cast_xOut (P : ECP) (x : Fp) : ((P.xOut x : Nat) : Fp) = x := by
  unfold ECP.xOut
  split
  · next h => rw [h.1]; simp
  · simp

theorem not_isSquare_neg {y : Fp} (hy : y ≠ 0) (h : IsSquare (-y)) : ¬ IsSquare y := by
  rintro ⟨t, ht⟩
  have ht0 : t ≠ 0 := by
    rintro rfl
    exact hy (by rw [ht, mul_zero])
  exact FP2.neg_sq_nonsquare ht0 (by rwa [← ht])

theorem p_lt_381 : p < 2 ^ 381 := by norm_num [p]

/-- Decoding the flagged encoding of an abscissa. -/
theorem pk_from_enc1 {X s : Nat} (hX : X < 2 ^ 381) (hs : s < 2) {y : Fp}
    (h : y ^ 2 = (X : Fp) ^ 3 + b1) :
    Wp (PublicKey.from_bytes (enc1 X s)) fun r => ∃ pk y0 h0, r = .ok pk ∧ IsSquare y0 ∧ (y0 = y ∨ y0 = -y) ∧
      pk.point.z.toF = 1 ∧ (pk.point.x.x.val = 0 ↔ X = 0) ∧
      ECP.Ok pk.point 4 (if signBit y0.val = s then Pt.mk (X : Fp) y0 h0 else - Pt.mk (X : Fp) y0 h0) := by
  refine (pk_from_bytes (length_enc1 _ _)).mono ?_
  rintro r ⟨d, hd, rfl⟩
  rw [beNat_enc1 hX hs] at hd
  have hsm : s * 2 ^ 381 ≤ 1 * 2 ^ 381 := Nat.mul_le_mul_right _ (by omega)
  have e1 : (2 ^ 383 + s * 2 ^ 381 + X) % 2 ^ 381 = X := by omega
  have e2 : (2 ^ 383 + s * 2 ^ 381 + X) / 2 ^ 381 % 2 = s := by omega
  have e3 : (2 ^ 383 + s * 2 ^ 381 + X) / 2 ^ 382 % 2 = 0 := by omega
  obtain ⟨-, -, -, -, hd⟩ := hd
  rw [e1, e2, e3] at hd
  obtain ⟨P, y0, h0, rfl, hy0, hz, hx, hP⟩ := hd (by omega) rfl ⟨y, by rw [← h, sq]⟩
  exact ⟨⟨P⟩, y0, h0, rfl, hy0, sq_eq_sq_iff_eq_or_eq_neg.1 (h0.trans h.symm), hz, hx, hP⟩

/-! ### The properties -/

/-- **C13** for public keys: the three decoders return a result on every byte string. -/
theorem C13_key_decoders_total (b : List UInt8) :
    (∃ r, PublicKey.from_bytes b = some r) ∧ (∃ r, AggregatePublicKey.from_bytes b = some r) ∧
    (∃ r, PublicKey.from_uncompressed_bytes b = some r) := by
  refine ⟨?_, ?_, ?_⟩
  · by_cases hb : b.length = 48
    · obtain ⟨r, e, -⟩ := pk_from_bytes hb
      exact ⟨r, e⟩
    · exact ⟨_, by rw [PublicKey.from_bytes, decompress_g1_size hb]; rfl⟩
  · by_cases hb : b.length = 48
    · obtain ⟨r, e, -⟩ := apk_from_bytes hb
      exact ⟨r, e⟩
    · exact ⟨_, by rw [AggregatePublicKey.from_bytes, decompress_g1_size hb]; rfl⟩
  · by_cases hb : b.length = 96
    · obtain ⟨r, e, -⟩ := from_uncompressed_wp hb
      exact ⟨r, e⟩
    · exact ⟨_, by rw [PublicKey.from_uncompressed_bytes, if_pos hb]; rfl⟩

theorem Dec1.rep {N : Nat} {P : ECP} (h : Dec1 N (.ok P)) : ∃ g : G1, P.Rep g := by
  obtain ⟨h1, h2, h3, h4, h5⟩ := h
  by_cases c1 : N < 2 ^ 383
  · cases h1 c1
  by_cases c2 : N / 2 ^ 382 % 2 = 1
  · by_cases c3 : N % 2 ^ 382 = 0
    · obtain ⟨Q, e, hQ⟩ := h3 (by omega) c2 c3
      cases e
      exact ⟨_, hQ.mono (by norm_num)⟩
    · cases h2 (by omega) c2 c3
  · by_cases c3 : IsSquare (((N % 2 ^ 381 : Nat) : Fp) ^ 3 + b1)
    · obtain ⟨Q, _, _, e, -, -, -, hQ⟩ := h5 (by omega) (by omega) c3
      cases e
      exact ⟨_, hQ.mono (by norm_num)⟩
    · cases h4 (by omega) (by omega) c3

/-- **C14** for public keys: an accepted key represents a point of the curve group (a solution of
`y² = x³ + 4` or infinity). -/
theorem C14_key_decoders_on_curve (b : List UInt8) :
    (∀ pk, PublicKey.from_bytes b = some (.ok pk) → ∃ g : G1, pk.Rep g) ∧
    (∀ pk, AggregatePublicKey.from_bytes b = some (.ok pk) → ∃ g : G1, pk.Rep g) ∧
    (∀ pk, PublicKey.from_uncompressed_bytes b = some (.ok pk) → ∃ g : G1, pk.Rep g) := by
  refine ⟨?_, ?_, ?_⟩
  · intro pk h
    by_cases hb : b.length = 48
    · obtain ⟨d, hd, e⟩ := (pk_from_bytes hb).elim h
      cases d with
      | error _ => cases e
      | ok P => cases e; exact Dec1.rep hd
    · rw [PublicKey.from_bytes, decompress_g1_size hb] at h
      cases h
  · intro pk h
    by_cases hb : b.length = 48
    · obtain ⟨d, hd, e⟩ := (apk_from_bytes hb).elim h
      cases d with
      | error _ => cases e
      | ok P => cases e; exact Dec1.rep hd
    · rw [AggregatePublicKey.from_bytes, decompress_g1_size hb] at h
      cases h
  · intro pk h
    by_cases hb : b.length = 96
    · obtain ⟨h1, h2, h3⟩ := (from_uncompressed_wp hb).elim h
      by_cases c1 : beNat (b.take 48) = 0 ∧ beNat (b.drop 48) = 0
      · obtain ⟨k, e, hk⟩ := h1 c1
        cases e
        exact ⟨_, hk⟩
      · by_cases c2 : ((beNat (b.drop 48) : Nat) : Fp) ^ 2 = ((beNat (b.take 48) : Nat) : Fp) ^ 3 + b1
        · obtain ⟨k, e, hk, -⟩ := h3 c1 c2
          cases e
          exact ⟨_, hk⟩
        · cases h2 c1 c2
    · rw [PublicKey.from_uncompressed_bytes, if_pos hb] at h
      cases h

/-- **C15.** Result of `PublicKey::from_bytes` on every byte string. `N` is the 384-bit big-endian
integer; bit 383 is the compression flag, bit 382 the infinity flag, bit 381 the sign, the low 381
bits are the abscissa. Of the two roots the library computes the one that is itself a square, and
negates it when its sign bit differs from the encoded one. -/
theorem C15_key_acceptance (b : List UInt8) :
    (b.length ≠ 48 → PublicKey.from_bytes b = some (.error .IncorrectSize)) ∧
    (b.length = 48 → beNat b < 2 ^ 383 → PublicKey.from_bytes b = some (.error .InvalidCFlag)) ∧
    (b.length = 48 → 2 ^ 383 + 2 ^ 382 < beNat b → PublicKey.from_bytes b = some (.error .BadPoint)) ∧
    (b.length = 48 → beNat b = 2 ^ 383 + 2 ^ 382 →
      ∃ pk, PublicKey.from_bytes b = some (.ok pk) ∧ pk.Rep 0) ∧
    ∀ X s, b.length = 48 → X < 2 ^ 381 → s < 2 → beNat b = 2 ^ 383 + s * 2 ^ 381 + X →
      (¬ IsSquare ((X : Fp) ^ 3 + 4) → PublicKey.from_bytes b = some (.error .BadPoint)) ∧
      (IsSquare ((X : Fp) ^ 3 + 4) → ∃ pk y h, PublicKey.from_bytes b = some (.ok pk) ∧ IsSquare y ∧
        pk.Rep (if signBit y.val = s then Pt.mk (X : Fp) y h else - Pt.mk (X : Fp) y h)) := by
  refine ⟨fun hb => ?_, ?_⟩
  · rw [PublicKey.from_bytes, decompress_g1_size hb]; rfl
  by_cases hb : b.length = 48
  swap
  · exact ⟨fun h => absurd h hb, fun h => absurd h hb, fun h => absurd h hb, fun _ _ h => absurd h hb⟩
  obtain ⟨r, e, d, ⟨h1, h2, h3, h4, h5⟩, rfl⟩ := pk_from_bytes hb
  have hl := beNat_lt48 hb
  rw [e]
  refine ⟨fun _ h => by rw [h1 h]; rfl, fun _ h => ?_, fun _ h => ?_, ?_⟩
  · rw [h2 (by omega) (by omega) (by omega)]; rfl
  · obtain ⟨P, rfl, hP⟩ := h3 (by omega) (by omega) (by omega)
    exact ⟨⟨P⟩, rfl, hP.mono (by norm_num)⟩
  · intro X s _ hX hs hN
    have hsm : s * 2 ^ 381 ≤ 1 * 2 ^ 381 := Nat.mul_le_mul_right _ (by omega)
    have e1 : beNat b % 2 ^ 381 = X := by omega
    have e2 : beNat b / 2 ^ 381 % 2 = s := by omega
    rw [e1] at h4 h5
    rw [e2] at h5
    refine ⟨fun h => ?_, fun h => ?_⟩
    · rw [h4 (by omega) (by omega) h]; rfl
    · obtain ⟨P, y0, h0, rfl, hy0, -, -, hP⟩ := h5 (by omega) (by omega) h
      exact ⟨⟨P⟩, y0, h0, rfl, hy0, hP.mono (by norm_num)⟩

/-- The published generator is accepted, abscissa 1 (`1 + 4` is no square) is not. -/
example : IsSquare ((g1x : Fp) ^ 3 + 4) ∧ ¬ IsSquare (((1 : Nat) : Fp) ^ 3 + 4) := by
  refine ⟨⟨(g1y : Fp), by rw [← sq, g1_on]; rfl⟩, ?_⟩
  intro h
  have h2 := FP.sqrt_pow h
  rw [show (((1 : Nat) : Fp) ^ 3 + 4) = ((5 : Nat) : Fp) by push_cast; norm_num, ← pow_mul, ← Nat.cast_pow,
    ZMod.natCast_eq_natCast_iff, Nat.ModEq, ← Primes.powMod_eq p 5 400 _ (by norm_num [p])] at h2
  revert h2
  decide +kernel

/-- **C17.** Compressed round trip of a finite public key: the abscissa survives; the point survives
exactly when the encoders' bit separates `y` from `-y` or `y` is the root the decoder computes. -/
theorem C17_key_round_trip (pk : PublicKey) (x y : Fp) (h : y ^ 2 = x ^ 3 + b1) (hk : pk.Rep (Pt.mk x y h)) :
    ∃ bytes pk' y' h', pk.as_bytes = some bytes ∧ PublicKey.from_bytes bytes = some (.ok pk') ∧
      pk'.Rep (Pt.mk x y' h') ∧
      (pk.eq pk' = some true ∧ y' = y ∧ (IsSquare y ∨ signBit y.val ≠ signBit (-y).val) ∨
       pk.eq pk' = some false ∧ y' = -y ∧ ¬ (IsSquare y ∨ signBit y.val ≠ signBit (-y).val)) := by
  have hX := (pk.point.xOut_le x).trans_lt p_lt_381
  have ec := cast_xOut pk.point x
  have hy := Pt.y_ne h
  obtain ⟨r, e, pk', y0, h0, rfl, hs, hy0, -, -, hP⟩ := pk_from_enc1 (y := y) hX (signBit_lt y.val) (by rw [ec, h])
  have hb : pk.as_bytes = some (enc1 (pk.point.xOut x) (signBit y.val)) := compress_g1_eq hk (by norm_num)
  have key : ∃ y' h', ECP.Ok pk'.point 4 (Pt.mk x y' h') ∧
      ((y' = y ∧ (IsSquare y ∨ signBit y.val ≠ signBit (-y).val)) ∨
       (y' = -y ∧ ¬ (IsSquare y ∨ signBit y.val ≠ signBit (-y).val))) := by
    simp only [ec] at hP
    rcases hy0 with rfl | rfl
    · rw [if_pos rfl] at hP
      exact ⟨_, h, hP, .inl ⟨rfl, .inl hs⟩⟩
    · have hns := not_isSquare_neg hy hs
      by_cases hc : signBit (-y).val = signBit y.val
      · rw [if_pos hc] at hP
        exact ⟨_, by rwa [ec] at h0, hP, .inr ⟨rfl, by rintro (h | h); exact hns h; exact h hc.symm⟩⟩
      · rw [if_neg hc, Pt.neg_mk] at hP
        simp only [neg_neg] at hP
        exact ⟨_, h, hP, .inl ⟨rfl, .inr fun h => hc h.symm⟩⟩
  obtain ⟨y', h', hP', hc⟩ := key
  have hR : pk'.Rep (Pt.mk x y' h') := hP'.mono (by norm_num)
  obtain ⟨t, et, ht⟩ := ECP.equals_wp hk hR (by norm_num)
  refine ⟨_, pk', y', h', hb, e, hR, ?_⟩
  rw [PublicKey.eq, et]
  rcases hc with ⟨rfl, hc⟩ | ⟨rfl, hc⟩
  · exact .inl ⟨by rw [ht.2 rfl], rfl, hc⟩
  · refine .inr ⟨?_, rfl, hc⟩
    cases t
    · rfl
    · have := (Pt.mk_inj.1 (ht.1 rfl)).2
      exact absurd this (fun e => hy (by
        have : (2 : Fp) * y = 0 := by linear_combination e
        exact (mul_eq_zero.1 this).resolve_left FP.two_ne))

/-- **C17**, the failing points: the encoders' bit fails to separate `y` from `-y` exactly when `y` or
`p - y` is exceptional (leading bytes `0d 80`, or `0d 00` and `2y > p`), and then `P` and `-P` have the
same compressed encoding, so one of them does not survive the round trip. -/
theorem C17_ambiguous_encoding (pk pk' : PublicKey) (x y : Fp) (h : y ^ 2 = x ^ 3 + b1)
    (hk : pk.Rep (Pt.mk x y h)) (hk' : pk'.Rep (- Pt.mk x y h)) (hx : x ≠ 0) :
    (∃ bytes, pk.as_bytes = some bytes ∧ pk'.as_bytes = some bytes) ↔
      Exceptional y.val ∨ Exceptional (p - y.val) := by
  have hy := Pt.y_ne h
  rw [Pt.neg_mk] at hk'
  have e1 := compress_g1_eq hk (by norm_num)
  have e2 := compress_g1_eq hk' (by norm_num)
  rw [ECP.xOut_of_ne hx] at e1 e2
  rw [PublicKey.as_bytes, PublicKey.as_bytes, e1, e2, ← (signBit_neg_iff (val_pos_fp hy) (ZMod.val_lt y)).1,
    val_neg_fp hy]
  have hX : x.val < 2 ^ 381 := (ZMod.val_lt x).trans p_lt_381
  constructor
  · rintro ⟨bytes, h1, h2⟩
    exact (enc1_inj hX (signBit_lt _) hX (signBit_lt _) (Option.some.inj (h1.trans h2.symm))).2
  · intro h
    rw [h]
    exact ⟨_, rfl, rfl⟩

/-- Abscissa of a point with an exceptional ordinate. -/
def badX : Nat := 0x991e6865a892c02e6e3056c7a98a9b0d49f1694e95b6fb5b133601b5d2a76a644090d817675198247fddf34dbf6b941
/-- Its ordinate, leading bytes `0d 80`. -/
def badY : Nat := 0xd8090000000000000000000000000000000000000000000000000000000000000000000000000000000000000000010

theorem bad_on : (badY : Fp) ^ 2 = (badX : Fp) ^ 3 + b1 := by
  have h : ((badY ^ 2 : Nat) : Fp) = ((badX ^ 3 + 4 : Nat) : Fp) := by
    rw [ZMod.natCast_eq_natCast_iff, Nat.ModEq]
    norm_num [badX, badY, p]
  push_cast at h
  exact h

/-- **C17**, a concrete lost sign: `P ≠ -P` are both representable and have the same bytes. -/
theorem C17_concrete_collision : ∃ pk pk' : PublicKey, ∃ g : G1, pk.Rep g ∧ pk'.Rep (-g) ∧ g ≠ -g ∧
    pk.eq pk' = some false ∧ ∃ bytes, pk.as_bytes = some bytes ∧ pk'.as_bytes = some bytes := by
  obtain ⟨pk, hk⟩ := PublicKey.exists_rep (Pt.mk _ _ bad_on)
  obtain ⟨pk', hk'⟩ := PublicKey.exists_rep (- Pt.mk _ _ bad_on)
  have hne : Pt.mk _ _ bad_on ≠ - Pt.mk _ _ bad_on := by
    intro e
    rw [Pt.neg_mk, Pt.mk_inj] at e
    refine Pt.y_ne bad_on ?_
    have : (2 : Fp) * badY = 0 := by linear_combination e.2
    exact (mul_eq_zero.1 this).resolve_left FP.two_ne
  refine ⟨pk, pk', _, hk, hk', hne, ?_, ?_⟩
  · obtain ⟨t, et, ht⟩ := ECP.equals_wp hk hk' (by norm_num)
    rw [PublicKey.eq, et]
    cases t
    · rfl
    · exact absurd (ht.1 rfl) hne
  · refine (C17_ambiguous_encoding pk pk' _ _ bad_on hk hk' ?_).2 (.inl (.inl ?_))
    · rw [Ne, ZMod.natCast_eq_zero_iff]
      norm_num [badX, p]
    · rw [ZMod.val_natCast, Nat.mod_eq_of_lt (by norm_num [badY, p])]
      norm_num [badY]

/-- **C20.** Uncompressed round trip of every point, infinity included. -/
theorem C20_uncompressed_round_trip (pk : PublicKey) (g : G1) (hk : pk.Rep g) :
    ∃ bytes pk1 pk2, pk.as_uncompressed_bytes = some (bytes, pk1) ∧ pk1.Rep g ∧
      PublicKey.from_uncompressed_bytes bytes = some (.ok pk2) ∧ pk2.Rep g ∧ pk.eq pk2 = some true := by
  have key : ∃ bytes pk1 pk2, pk.as_uncompressed_bytes = some (bytes, pk1) ∧ pk1.Rep g ∧
      PublicKey.from_uncompressed_bytes bytes = some (.ok pk2) ∧ pk2.Rep g := by
    rcases Pt.cases g with rfl | ⟨x, y, h, rfl⟩
    · obtain ⟨r, e, h1, -, -⟩ := from_uncompressed_wp (b := List.replicate 96 0) (by simp)
      obtain ⟨pk2, rfl, h2⟩ := h1 (by decide)
      exact ⟨_, pk, pk2, as_uncompressed_inf hk, hk, e, h2⟩
    · obtain ⟨⟨bytes, pk1⟩, e, hb, h1⟩ := as_uncompressed_wp hk
      dsimp only at hb h1
      have hl : bytes.length = 96 := by rw [hb, List.length_append, length_toBE, length_toBE]
      obtain ⟨r, er, -, -, h3⟩ := from_uncompressed_wp hl
      have t1 : beNat (bytes.take 48) = pk.point.xOut x := by
        have := pk.point.xOut_le x
        have := p_lt_381
        rw [hb, List.take_append_of_le_length (by rw [length_toBE]), List.take_of_length_le (by rw [length_toBE]),
          beNat_toBE, Nat.mod_eq_of_lt (by omega)]
      have t2 : beNat (bytes.drop 48) = y.val := by
        have := ZMod.val_lt y
        have := p_lt_381
        rw [hb, List.drop_left' (length_toBE _ _), beNat_toBE, Nat.mod_eq_of_lt (by omega)]
      rw [t1, t2] at h3
      have c1 := cast_xOut pk.point x
      have c2 : ((y.val : Nat) : Fp) = y := by simp
      simp only [c1, c2] at h3
      obtain ⟨pk2, rfl, h4, -⟩ := h3 (fun hc => Pt.y_ne h ((ZMod.val_eq_zero y).1 hc.2)) h
      exact ⟨bytes, pk1, pk2, e, h1, er, h4⟩
  obtain ⟨bytes, pk1, pk2, h1, h2, h3, h4⟩ := key
  refine ⟨bytes, pk1, pk2, h1, h2, h3, h4, ?_⟩
  obtain ⟨t, et, ht⟩ := ECP.equals_wp hk h4 (by norm_num)
  rw [PublicKey.eq, et, ht.2 rfl]

/-- Also the point with an ambiguous compressed encoding is an instance. -/
example : ∃ pk : PublicKey, pk.Rep (Pt.mk _ _ bad_on) := PublicKey.exists_rep _

/-- **C21.** Result of `from_uncompressed_bytes` on every byte string; coordinates `≥ p` are accepted
and reduced. -/
theorem C21_uncompressed_acceptance (b : List UInt8) :
    (b.length ≠ 96 → PublicKey.from_uncompressed_bytes b = some (.error .IncorrectSize)) ∧
    (b = List.replicate 96 0 → ∃ pk, PublicKey.from_uncompressed_bytes b = some (.ok pk) ∧ pk.Rep 0) ∧
    ∀ X Y, X < 2 ^ 384 → Y < 2 ^ 384 → b = toBE 48 X ++ toBE 48 Y → b ≠ List.replicate 96 0 →
      (¬ (Y : Fp) ^ 2 = (X : Fp) ^ 3 + b1 → PublicKey.from_uncompressed_bytes b = some (.error .BadPoint)) ∧
      (∀ h : (Y : Fp) ^ 2 = (X : Fp) ^ 3 + b1,
        ∃ pk, PublicKey.from_uncompressed_bytes b = some (.ok pk) ∧ pk.Rep (Pt.mk (X : Fp) (Y : Fp) h)) := by
  refine ⟨fun hb => ?_, ?_, ?_⟩
  · rw [PublicKey.from_uncompressed_bytes, if_pos hb]; rfl
  · rintro rfl
    obtain ⟨r, e, h1, -, -⟩ := from_uncompressed_wp (b := List.replicate 96 0) (by simp)
    obtain ⟨pk, rfl, h2⟩ := h1 (by decide)
    exact ⟨pk, e, h2⟩
  · intro X Y hX hY hb hb0
    have hl : b.length = 96 := by rw [hb, List.length_append, length_toBE, length_toBE]
    obtain ⟨r, e, -, h2, h3⟩ := from_uncompressed_wp hl
    have t1 : beNat (b.take 48) = X := by
      rw [hb, List.take_append_of_le_length (by rw [length_toBE]), List.take_of_length_le (by rw [length_toBE]),
        beNat_toBE, Nat.mod_eq_of_lt (by omega)]
    have t2 : beNat (b.drop 48) = Y := by
      rw [hb, List.drop_left' (length_toBE _ _), beNat_toBE, Nat.mod_eq_of_lt (by omega)]
    rw [t1, t2] at h2 h3
    have hne : ¬ (X = 0 ∧ Y = 0) := by
      rintro ⟨rfl, rfl⟩
      apply hb0
      rw [hb]
      decide +kernel
    rw [e]
    refine ⟨fun h => by rw [h2 hne h], fun h => ?_⟩
    obtain ⟨pk, rfl, hk, -⟩ := h3 hne h
    exact ⟨pk, rfl, hk⟩

/-- Two different strings for one key: the coordinates of the generator, and the same with the
ordinate raised by `p`. -/
example : (g1y + p < 2 ^ 384) ∧ ((g1y + p : Nat) : Fp) ^ 2 = (g1x : Fp) ^ 3 + b1 ∧
    toBE 48 g1x ++ toBE 48 g1y ≠ toBE 48 g1x ++ toBE 48 (g1y + p) := by
  refine ⟨by norm_num [g1y, p], ?_, ?_⟩
  · rw [Nat.cast_add, CharP.cast_eq_zero Fp p, add_zero, g1_on]
  · intro e
    have := congrArg beNat (List.append_cancel_left e)
    rw [beNat_toBE, beNat_toBE] at this
    norm_num [g1y, p] at this

/-- **C22**, equality: two accepted encodings of finite points decode to equal keys iff the sign bits
agree and the 381-bit abscissas are congruent modulo `p`. -/
theorem C22_same_key_iff (X X' s s' : Nat) (hX : X < 2 ^ 381) (hX' : X' < 2 ^ 381) (hs : s < 2) (hs' : s' < 2)
    (h : IsSquare ((X : Fp) ^ 3 + b1)) (h' : IsSquare ((X' : Fp) ^ 3 + b1)) :
    ∃ pk pk', PublicKey.from_bytes (enc1 X s) = some (.ok pk) ∧
      PublicKey.from_bytes (enc1 X' s') = some (.ok pk') ∧
      (pk.eq pk' = some true ∧ s = s' ∧ X % p = X' % p ∨
       pk.eq pk' = some false ∧ ¬ (s = s' ∧ X % p = X' % p)) := by
  obtain ⟨y, hy⟩ := h
  obtain ⟨y', hy'⟩ := h'
  rw [← sq] at hy hy'
  obtain ⟨r, e, pk, y0, h0, rfl, hs0, hy0, -, -, hP⟩ := pk_from_enc1 hX hs hy.symm
  obtain ⟨r', e', pk', y0', h0', rfl, hs0', hy0', -, -, hP'⟩ := pk_from_enc1 hX' hs' hy'.symm
  refine ⟨pk, pk', e, e', ?_⟩
  obtain ⟨t, et, ht⟩ := ECP.equals_wp hP hP' (by norm_num)
  rw [PublicKey.eq, et]
  have hmod : X % p = X' % p ↔ (X : Fp) = (X' : Fp) := (ZMod.natCast_eq_natCast_iff X X' p).symm
  rw [hmod]
  have hyne := Pt.y_ne h0
  have hroot : (X : Fp) = (X' : Fp) → y0 = y0' := by
    intro ex
    have e2 : y0 ^ 2 = y0' ^ 2 := by rw [h0, h0', ex]
    rcases sq_eq_sq_iff_eq_or_eq_neg.1 e2 with h | h
    · exact h
    · exact absurd hs0' (not_isSquare_neg (Pt.y_ne h0') (h ▸ hs0))
  have hflip : Pt.mk (X : Fp) y0 h0 ≠ - Pt.mk (X : Fp) y0 h0 := by
    intro e
    rw [Pt.neg_mk, Pt.mk_inj] at e
    have : (2 : Fp) * y0 = 0 := by linear_combination e.2
    exact hyne ((mul_eq_zero.1 this).resolve_left FP.two_ne)
  have key : (if signBit y0.val = s then Pt.mk (X : Fp) y0 h0 else - Pt.mk (X : Fp) y0 h0) =
      (if signBit y0'.val = s' then Pt.mk (X' : Fp) y0' h0' else - Pt.mk (X' : Fp) y0' h0') ↔
      s = s' ∧ (X : Fp) = (X' : Fp) := by
    constructor
    · intro hg
      have hx : (X : Fp) = (X' : Fp) := by
        rw [Pt.neg_mk, Pt.neg_mk] at hg
        split at hg <;> split at hg <;> exact (Pt.mk_inj.1 hg).1
      have hyy := hroot hx
      refine ⟨?_, hx⟩
      have em : Pt.mk (X' : Fp) y0' h0' = Pt.mk (X : Fp) y0 h0 := Pt.mk_inj.2 ⟨hx.symm, hyy.symm⟩
      rw [em, ← hyy] at hg
      have := signBit_lt y0.val
      split at hg <;> split at hg
      · omega
      · exact absurd hg hflip
      · exact absurd hg.symm hflip
      · omega
    · rintro ⟨rfl, hx⟩
      have hyy := hroot hx
      have em : Pt.mk (X' : Fp) y0' h0' = Pt.mk (X : Fp) y0 h0 := Pt.mk_inj.2 ⟨hx.symm, hyy.symm⟩
      rw [em, ← hyy]
  rw [key] at ht
  by_cases hc : s = s' ∧ (X : Fp) = (X' : Fp)
  · exact .inl ⟨by rw [ht.2 hc], hc⟩
  · refine .inr ⟨?_, hc⟩
    cases t
    · rfl
    · exact absurd (ht.1 rfl) hc

/-- **C22**, re-encoding: the abscissa field is reduced modulo `p`, except that the field `p` stays
`p`; the sign bit stays unless the encoding had sign 1 on a point whose ordinate is ambiguous. So a
string re-encodes to itself iff its field is at most `p` and its sign is not such a lost one. -/
theorem C22_reencode (X s : Nat) (hX : X < 2 ^ 381) (hs : s < 2) (y : Fp) (hy : y ^ 2 = (X : Fp) ^ 3 + b1) :
    ∃ pk s', PublicKey.from_bytes (enc1 X s) = some (.ok pk) ∧
      pk.as_bytes = some (enc1 (if X = p then p else X % p) s') ∧
      (s' = s ↔ ¬ (s = 1 ∧ (Exceptional y.val ∨ Exceptional (p - y.val)))) ∧ s' < 2 ∧
      (pk.as_bytes = some (enc1 X s) ↔
        X ≤ p ∧ ¬ (s = 1 ∧ (Exceptional y.val ∨ Exceptional (p - y.val)))) := by
  obtain ⟨r, e, pk, y0, h0, rfl, hs0, hy0, hz, hx0, hP⟩ := pk_from_enc1 hX hs hy
  have hne := Pt.y_ne hy
  have hne0 := Pt.y_ne h0
  have hXo : pk.point.xOut (X : Fp) = if X = p then p else X % p := by
    unfold ECP.xOut
    rw [ZMod.val_natCast]
    have hpp : 0 < p := by norm_num [p]
    have h2p : 2 ^ 381 < 2 * p := by norm_num [p]
    by_cases c : X = p
    · subst c
      rw [if_pos rfl, if_pos]
      refine ⟨by simp, hz, ?_⟩
      rw [Ne, hx0]
      omega
    · rw [if_neg c, if_neg]
      rintro ⟨h1, -, h2⟩
      rw [Ne, hx0] at h2
      rw [ZMod.natCast_eq_zero_iff] at h1
      obtain ⟨k, hk⟩ := h1
      have : k = 1 := by
        rcases k with _ | _ | k
        · omega
        · rfl
        · exfalso
          have := Nat.mul_le_mul_left p (show 2 ≤ k + 1 + 1 by omega)
          omega
      exact c (by rw [hk, this, mul_one])
  have hex : Exceptional y.val ∨ Exceptional (p - y.val) ↔ signBit y0.val = signBit (-y0).val := by
    rw [val_neg_fp hne0, (signBit_neg_iff (val_pos_fp hne0) (ZMod.val_lt y0)).1]
    rcases hy0 with rfl | rfl
    · rfl
    · rw [val_neg_fp hne, Nat.sub_sub_self (ZMod.val_lt y).le, or_comm]
  have hz0 : signBit y0.val = signBit (-y0).val → signBit y0.val = 0 := by
    intro h
    rw [val_neg_fp hne0] at h
    have := signBit_neg_iff (val_pos_fp hne0) (ZMod.val_lt y0)
    exact (this.2 (this.1.1 h)).1
  have hl1 := signBit_lt y0.val
  have hl2 := signBit_lt (-y0).val
  have key : ∃ s', pk.as_bytes = some (enc1 (if X = p then p else X % p) s') ∧ s' < 2 ∧
      (s' = s ↔ ¬ (s = 1 ∧ signBit y0.val = signBit (-y0).val)) := by
    by_cases hc : signBit y0.val = s
    · rw [if_pos hc] at hP
      refine ⟨s, ?_, hs, ?_⟩
      · rw [PublicKey.as_bytes, compress_g1_eq hP (by norm_num), hXo, hc]
      · omega
    · rw [if_neg hc, Pt.neg_mk] at hP
      refine ⟨signBit (-y0).val, ?_, hl2, ?_⟩
      · rw [PublicKey.as_bytes, compress_g1_eq hP (by norm_num), hXo]
      · omega
  obtain ⟨s', hb, hl, hs'⟩ := key
  refine ⟨pk, s', e, hb, by rw [hs', hex], hl, ?_⟩
  rw [hb, hex, ← hs', Option.some_inj]
  have hpp : 0 < p := by norm_num [p]
  have hlt : (if X = p then p else X % p) < 2 ^ 381 := by
    have := p_lt_381
    have := Nat.mod_lt X hpp
    split <;> omega
  constructor
  · intro h
    obtain ⟨h1, h2⟩ := enc1_inj hlt hl hX hs h
    refine ⟨?_, h2⟩
    have := Nat.mod_lt X hpp
    split at h1 <;> omega
  · rintro ⟨h1, rfl⟩
    congr 1
    split
    · next h => exact h.symm
    · exact Nat.mod_eq_of_lt (by omega)

/-- The abscissa fields 0 and `p` are both accepted, so is the exceptional point. -/
example : (2 : Fp) ^ 2 = ((0 : Nat) : Fp) ^ 3 + b1 ∧ (2 : Fp) ^ 2 = ((p : Nat) : Fp) ^ 3 + b1 ∧
    (badY : Fp) ^ 2 = (badX : Fp) ^ 3 + b1 := by
  refine ⟨by rw [b1]; norm_num, by rw [b1]; simp; norm_num, bad_on⟩

/-- **C34** for public keys: the decoder accepts a point whose order does not divide `r` (the string
`80 00 … 00`, a point of order 3). -/
theorem C34_key_without_subgroup_check : ∃ pk : PublicKey, ∃ g : G1,
    PublicKey.from_bytes (128 :: List.replicate 47 0) = some (.ok pk) ∧ pk.Rep g ∧ 3 • g = 0 ∧ r • g ≠ 0 := by
  have h : (2 : Fp) ^ 2 = ((0 : Nat) : Fp) ^ 3 + b1 := by rw [b1]; norm_num
  obtain ⟨x, e, pk, y0, h0, rfl, hs0, hy0, hz, hx0, hP⟩ := pk_from_enc1 (X := 0) (s := 0) (by norm_num) (by norm_num) h
  have eb : enc1 0 0 = 128 :: List.replicate 47 0 := by decide +kernel
  rw [eb] at e
  refine ⟨pk, _, e, hP.mono (by norm_num), ?_, ?_⟩
  · have h3 : 3 • (Pt.mk ((0 : Nat) : Fp) y0 h0 : G1) = 0 := by
      have h0' := h0
      simp only [Nat.cast_zero] at h0' ⊢
      exact Pt.three_smul_zero h0'
    split
    · exact h3
    · rw [smul_neg, h3, neg_zero]
  · intro hr
    have : r • (Pt.mk ((0 : Nat) : Fp) y0 h0 : G1) = 0 := by
      split at hr
      · exact hr
      · rwa [smul_neg, neg_eq_zero] at hr
    exact Pt.x_ne_of_order this (by simp)

end Props
