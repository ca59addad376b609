import Verif.Proof.EcpCodec
import Verif.Props.Pairing
/-!
# Property C48: the octet encoding of AMCL for points of the first curve
-/

set_option exponentiation.threshold 2000

namespace Props

open Amcl Spec

seal Spec.toBE Spec.octets Spec.octetsC

/-- **C48**, decoding: for every byte string that is long enough, `frombytes` ends without panic or overflow. The
result represents a given finite point exactly if the bytes start with one of the two strings of that point; in all
other cases it represents infinity. -/
theorem C48_decode (b : List UInt8) (hb : 49 ≤ b.length)
    (h4 : b.head? = some 4 → beNat ((b.drop 1).take 48) < p → 97 ≤ b.length) :
    ∃ P g, ECP.frombytes b = some P ∧ P.OkY 2 g ∧
      ∀ x y h, g = Pt.mk x y h ↔ octets x y <+: b ∨ octetsC x y <+: b := by
  rcases b with _ | ⟨b0, b⟩
  · simp at hb
  rw [List.length_cons] at hb
  simp only [List.head?_cons, Option.some.injEq, List.drop_one, List.tail_cons, List.length_cons] at h4
  obtain ⟨P, e, g, hP, h⟩ := ECP.frombytes_wp (b0 := b0) (b := b) (by omega) (fun h h' => by have := h4 h h'; omega)
  exact ⟨P, g, e, hP, fun x y hxy => (h x y hxy).1⟩

/-- **C48**, panics: `frombytes` fails exactly for strings shorter than 49 bytes, and for strings shorter than 97
bytes that start with 4 and a first coordinate below `p`. -/
theorem C48_panics (b : List UInt8) : ECP.frombytes b = none ↔ b.length < 49 ∨
    (b.length < 97 ∧ b.head? = some 4 ∧ beNat ((b.drop 1).take 48) < p) :=
  ECP.frombytes_none b

/-- **C48**, encoding: for every representation of a finite point, the strings are the ones of the specification,
with one exception. If the abscissa is 0 and the representation is affine with nonzero limbs, `p` is written
for it. -/
theorem C48_encode (P : ECP) (x y : Fp) (h : y ^ 2 = x ^ 3 + b1) (hP : P.OkY (2 ^ 10) (Pt.mk x y h)) :
    ∃ b c Q R, P.tobytes = some (b, Q) ∧ P.tobytesC = some (c, R) ∧ Q.OkY (2 ^ 10) (Pt.mk x y h) ∧
      R.OkY (2 ^ 10) (Pt.mk x y h) ∧
      (¬ (x = 0 ∧ P.z.toF = 1 ∧ P.x.x.val ≠ 0) → b = octets x y ∧ c = octetsC x y) ∧
      (x = 0 ∧ P.z.toF = 1 ∧ P.x.x.val ≠ 0 → b = 4 :: (toBE 48 p ++ toBE 48 y.val) ∧
        c = UInt8.ofNat (2 + y.val % 2) :: toBE 48 p) := by
  obtain ⟨⟨b, Q⟩, e, rfl, hQ⟩ := ECP.tobytes_wpY hP (by norm_num)
  obtain ⟨⟨c, R⟩, e', rfl, hR⟩ := ECP.tobytesC_wp hP (by norm_num)
  refine ⟨_, _, Q, R, e, e', hQ, hR, fun hn => ?_, fun hn => ?_⟩
  · rw [ECP.xOut, if_neg hn]
    exact ⟨by rw [octets], by rw [octetsC]⟩
  · rw [ECP.xOut, if_pos hn]
    exact ⟨rfl, rfl⟩

/-- **C48**, transport: decoding either string of a finite point gives the point back, except for the
representations of `(0, ±2)` named in `C48_encode`, which come back as infinity. -/
theorem C48_roundtrip (P : ECP) (x y : Fp) (h : y ^ 2 = x ^ 3 + b1) (hP : P.OkY (2 ^ 10) (Pt.mk x y h)) :
    ∃ b c Q R P₁ P₂, P.tobytes = some (b, Q) ∧ P.tobytesC = some (c, R) ∧ ECP.frombytes b = some P₁ ∧
      ECP.frombytes c = some P₂ ∧
      (¬ (x = 0 ∧ P.z.toF = 1 ∧ P.x.x.val ≠ 0) → P₁.OkY 2 (Pt.mk x y h) ∧ P₂.OkY 2 (Pt.mk x y h)) ∧
      (x = 0 ∧ P.z.toF = 1 ∧ P.x.x.val ≠ 0 → P₁.OkY 2 0 ∧ P₂.OkY 2 0) := by
  obtain ⟨b, c, Q, R, e1, e2, -, -, h1, h2⟩ := C48_encode P x y h hP
  have hyl := val_lt384 y
  by_cases hn : x = 0 ∧ P.z.toF = 1 ∧ P.x.x.val ≠ 0
  · obtain ⟨rfl, rfl⟩ := h2 hn
    have hp := p_le_pow
    have t48 : ∀ l : List UInt8, (toBE 48 p ++ l).take 48 = toBE 48 p := fun l => by
      rw [List.take_append_of_le_length (by rw [length_toBE]), List.take_of_length_le (by rw [length_toBE])]
    have hbp : beNat (toBE 48 p) = p := by rw [beNat_toBE, Nat.mod_eq_of_lt (by omega)]
    obtain ⟨P₁, d1, g, hg, k1⟩ := ECP.frombytes_wp (b0 := 4) (b := toBE 48 p ++ toBE 48 y.val)
      (by rw [List.length_append, length_toBE]; omega) (fun _ h => by rw [t48, hbp] at h; omega)
    obtain ⟨P₂, d2, g', hg', k2⟩ := ECP.frombytes_wp (b0 := UInt8.ofNat (2 + y.val % 2)) (b := toBE 48 p)
      (by rw [length_toBE]) (fun _ h => by
        rw [List.take_of_length_le (by rw [length_toBE]), hbp] at h; omega)
    refine ⟨_, _, Q, R, P₁, P₂, e1, e2, d1, d2, fun h => absurd hn h, fun _ => ?_⟩
    have fin : ∀ {g : G1}, (∀ x y h, g ≠ Pt.mk x y h) → g = 0 := by
      intro g hg
      rcases Pt.cases g with rfl | ⟨x, y, h, rfl⟩
      · rfl
      · exact absurd rfl (hg x y h)
    have z1 : g = 0 := fin fun x' y' h' e => by
      rw [(k1 x' y' h').1, octets_prefix (by rw [List.length_append, length_toBE]; omega),
        octetsC_prefix (by rw [List.length_append, length_toBE]; omega), t48, hbp] at e
      have := ZMod.val_lt x'
      rcases e with ⟨-, e, -⟩ | ⟨-, e⟩ <;> omega
    have z2 : g' = 0 := fin fun x' y' h' e => by
      rw [(k2 x' y' h').1, octets_prefix (by rw [length_toBE]), octetsC_prefix (by rw [length_toBE]),
        List.take_of_length_le (by rw [length_toBE]), hbp] at e
      have := ZMod.val_lt x'
      rcases e with ⟨-, e, -⟩ | ⟨-, e⟩ <;> omega
    exact ⟨z1 ▸ hg, z2 ▸ hg'⟩
  · obtain ⟨rfl, rfl⟩ := h1 hn
    obtain ⟨P₁, g, d1, hg, k1⟩ := C48_decode (octets x y)
      (by rw [octets, List.length_cons, List.length_append, length_toBE, length_toBE]; omega)
      (fun _ _ => by rw [octets, List.length_cons, List.length_append, length_toBE, length_toBE])
    obtain ⟨P₂, g', d2, hg', k2⟩ := C48_decode (octetsC x y)
      (by rw [octetsC, List.length_cons, length_toBE])
      (fun h => by
        rw [octetsC, List.head?_cons, Option.some.injEq] at h
        exfalso
        rcases Nat.mod_two_eq_zero_or_one y.val with e | e <;> rw [e] at h <;> revert h <;> decide)
    refine ⟨_, _, Q, R, P₁, P₂, e1, e2, d1, d2, fun _ => ⟨?_, ?_⟩, fun h => absurd h hn⟩
    · exact (k1 x y h).2 (Or.inl List.prefix_rfl) ▸ hg
    · exact (k2 x y h).2 (Or.inr List.prefix_rfl) ▸ hg'

theorem order3_on' : (-2 : Fp) ^ 2 = 0 ^ 3 + b1 := by rw [b1]; norm_num

/-- **C48**, infinity has no compressed string of its own: the string written for infinity, in any representation
whose first coordinate has zero limbs, decodes to one of the finite points `(0, ±2)`. -/
theorem C48_infinity_compressed (P : ECP) (hP : P.OkY (2 ^ 10) 0) (hx : P.x.x.val = 0) :
    ∃ b Q, P.tobytesC = some (b, P) ∧ ECP.frombytes b = some Q ∧
      (Q.OkY 2 (Pt.mk 0 2 order3_on) ∨ Q.OkY 2 (Pt.mk 0 (-2) order3_on')) := by
  obtain ⟨⟨b, R⟩, e, rfl, hR⟩ := ECP.tobytesC_inf hP (by norm_num)
  dsimp only at hR
  subst hR
  have h0 : FP.outNat R.x 0 = (0 : Fp).val := by rw [FP.outNat, if_neg (by simp [hx])]
  have v2 : (2 : Fp).val % 2 = 0 := by rw [show (2 : Fp) = ((2 : Nat) : Fp) by norm_num, ECP.natCast_val_of_lt (by norm_num [p])]
  have n2 : (2 : Fp) ≠ 0 := Pt.y_ne order3_on
  rw [h0] at e
  rcases Nat.mod_two_eq_zero_or_one (FP.outNat R.y R.y.toF) with hm | hm
  · have eb : UInt8.ofNat (2 + FP.outNat R.y R.y.toF % 2) :: toBE 48 (0 : Fp).val = octetsC 0 2 := by
      rw [octetsC, hm, v2]
    rw [eb] at e
    obtain ⟨Q, g, d, hg, k⟩ := C48_decode (octetsC 0 2) (by rw [octetsC, List.length_cons, length_toBE])
      (fun h => by rw [octetsC, List.head?_cons, Option.some.injEq, v2] at h; revert h; decide)
    exact ⟨_, Q, e, d, Or.inl ((k 0 2 order3_on).2 (Or.inr List.prefix_rfl) ▸ hg)⟩
  · have eb : UInt8.ofNat (2 + FP.outNat R.y R.y.toF % 2) :: toBE 48 (0 : Fp).val = octetsC 0 (-2) := by
      rw [octetsC, hm, val_neg_parity n2, v2]
    rw [eb] at e
    obtain ⟨Q, g, d, hg, k⟩ := C48_decode (octetsC 0 (-2)) (by rw [octetsC, List.length_cons, length_toBE])
      (fun h => by rw [octetsC, List.head?_cons, Option.some.injEq, val_neg_parity n2, v2] at h; revert h; decide)
    exact ⟨_, Q, e, d, Or.inr ((k 0 (-2) order3_on').2 (Or.inr List.prefix_rfl) ▸ hg)⟩

/-- **C48**, infinity uncompressed: in a representation `(0 : y : 0)` with zero limbs first, the string decodes to
infinity unless `y² = 4`, and to the finite point `(0, y)` then. -/
theorem C48_infinity_uncompressed (P : ECP) (hP : P.OkY (2 ^ 10) 0) (hx : P.x.x.val = 0) :
    ∃ b Q g, P.tobytes = some (b, P) ∧ ECP.frombytes b = some Q ∧ Q.OkY 2 g ∧
      (g = 0 ↔ P.y.toF ^ 2 ≠ 4) ∧ (∀ h, P.y.toF ^ 2 = 4 → g = Pt.mk 0 P.y.toF h) := by
  obtain ⟨⟨b, R⟩, e, rfl, hR⟩ := ECP.tobytes_inf hP (by norm_num)
  dsimp only at hR
  subst hR
  have h0 : FP.outNat R.x 0 = (0 : Fp).val := by rw [FP.outNat, if_neg (by simp [hx])]
  have hy : R.y.toF ≠ 0 := by
    rcases hP.pt with ⟨-, h, -⟩ | ⟨-, x, y, h, -, -, e⟩
    · exact h
    · exact absurd e.symm (Pt.mk_ne h)
  rw [h0, FP.outNat_of_ne hy] at e
  have eb : 4 :: (toBE 48 (0 : Fp).val ++ toBE 48 R.y.toF.val) = octets 0 R.y.toF := by rw [octets]
  rw [eb] at e
  obtain ⟨Q, g, d, hg, k⟩ := C48_decode (octets 0 R.y.toF)
    (by rw [octets, List.length_cons, List.length_append, length_toBE, length_toBE]; omega)
    (fun _ _ => by rw [octets, List.length_cons, List.length_append, length_toBE, length_toBE])
  refine ⟨_, Q, g, e, d, hg, ⟨?_, ?_⟩, fun h _ => (k _ _ h).2 (Or.inl List.prefix_rfl)⟩
  · intro g0 h4
    have hon : R.y.toF ^ 2 = 0 ^ 3 + b1 := by rw [h4, b1]; norm_num
    have := (k _ _ hon).2 (Or.inl List.prefix_rfl)
    exact Pt.mk_ne hon (this.symm.trans g0)
  · intro h4
    rcases Pt.cases g with rfl | ⟨x, y, h, rfl⟩
    · rfl
    · exfalso
      have hz : (0 : Fp).val < 2 ^ 384 := val_lt384 0
      have := (k x y h).1 rfl
      rw [← eb, octetsC_prefix (by rw [List.length_append, length_toBE]; omega),
        octets_prefix (by rw [List.length_append, length_toBE]; omega),
        List.take_append_of_le_length (by rw [length_toBE]), List.take_of_length_le (by rw [length_toBE]),
        List.drop_append_of_le_length (by rw [length_toBE]), List.drop_of_length_le (by rw [length_toBE]),
        List.nil_append, List.take_of_length_le (by rw [length_toBE]), beNat_toBE, beNat_toBE,
        Nat.mod_eq_of_lt (by omega), Nat.mod_eq_of_lt (by have := val_lt384 R.y.toF; omega)] at this
      rcases this with ⟨-, e1, -, e2⟩ | ⟨e1, -⟩
      · have e1 := (ZMod.val_injective p) e1
        have e2 := (ZMod.val_injective p) e2
        rw [← e1, ← e2] at h
        exact h4 (by rw [h, b1]; norm_num)
      · rcases Nat.mod_two_eq_zero_or_one y.val with e | e <;> rw [e] at e1 <;> revert e1 <;> decide

/-- Infinity as `ECP::new` gives it becomes the byte 3 and 48 zeros, which is the point `(0, -2)`. -/
example : ∃ P b Q, ECP.new = some P ∧ P.tobytesC = some (b, P) ∧ b = 3 :: List.replicate 48 0 ∧
    ECP.frombytes b = some Q ∧ Q.OkY 2 (Pt.mk 0 (-2) order3_on') := by
  obtain ⟨P, eP, hP, hx, hy⟩ : Wp ECP.new fun P => P.OkY (2 ^ 10) 0 ∧ P.x.x.val = 0 ∧ P.y.toF = 1 := by
    refine (ECP.new_wp.and (R := fun P => P.x.x.val = 0 ∧ P.y.toF = 1) ?_).mono
      fun P h => ⟨(h.1.mono (by norm_num)).okY, h.2⟩
    unfold ECP.new
    refine Wp.bind (FP.new_int_wp (a := 1) (by norm_num) (by norm_num)) fun y hy => ?_
    exact Wp.ret ⟨BIG.new_val, by rw [hy.res]; norm_num⟩
  obtain ⟨⟨b, R⟩, e, rfl, hR⟩ := ECP.tobytesC_inf hP (by norm_num)
  dsimp only at hR
  subst hR
  have n2 : (2 : Fp) ≠ 0 := Pt.y_ne order3_on
  have v2 : (2 : Fp).val % 2 = 0 := by
    rw [show (2 : Fp) = ((2 : Nat) : Fp) by norm_num, ECP.natCast_val_of_lt (by norm_num [p])]
  have v0 : FP.outNat R.x 0 = 0 := by rw [FP.outNat, if_neg (by simp [hx]), ZMod.val_zero]
  have v1 : FP.outNat R.y R.y.toF = 1 := by
    rw [hy, FP.outNat_of_ne one_ne_zero, ← Nat.cast_one, ECP.natCast_val_of_lt (by norm_num [p])]
  rw [v0, v1] at e
  have eb : UInt8.ofNat (2 + 1 % 2) :: toBE 48 0 = octetsC 0 (-2) := by
    rw [octetsC, val_neg_parity n2, v2, ZMod.val_zero]
  obtain ⟨Q, g, d, hg, k⟩ := C48_decode (octetsC 0 (-2)) (by rw [octetsC, List.length_cons, length_toBE])
    (fun h => by rw [octetsC, List.head?_cons, Option.some.injEq, val_neg_parity n2, v2] at h; revert h; decide)
  exact ⟨R, _, Q, eP, e, by decide +kernel, eb ▸ d, (k 0 (-2) order3_on').2 (Or.inr List.prefix_rfl) ▸ hg⟩

end Props
