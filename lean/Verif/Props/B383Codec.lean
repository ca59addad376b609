import Verif.Proof.B383.Fp12More
import Verif.Props.B383Pairing
/-!
# Property C87: the strings of BLS12-383
-/

set_option exponentiation.threshold 6000

namespace Props.B383

open Amcl.B383 Spec.B383
open Amcl (Wp BIG beNat_lt48)
open Spec (Pt toBE beNat length_toBE beNat_toBE)

seal Spec.B383.finalExp Spec.toBE Spec.B383.octets Spec.B383.octetsC Spec.B383.octets2

/-- **C87**, decoding: for every byte string that is long enough, `frombytes` ends without panic or overflow. The
result represents a given finite point exactly if the bytes start with one of the two strings of that point; in all
other cases it represents infinity. -/
theorem C87_g1_decode (b : List UInt8) (hb : 49 ≤ b.length)
    (h4 : b.head? = some 4 → beNat ((b.drop 1).take 48) < p → 97 ≤ b.length) :
    ∃ P g, ECP.frombytes b = some P ∧ P.OkY 2 g ∧
      ∀ x y h, g = Pt.mk x y h ↔ octets x y <+: b ∨ octetsC x y <+: b := by
  rcases b with _ | ⟨b0, b⟩
  · simp at hb
  rw [List.length_cons] at hb
  simp only [List.head?_cons, Option.some.injEq, List.drop_one, List.tail_cons, List.length_cons] at h4
  obtain ⟨P, e, g, hP, h⟩ := ECP.frombytes_wp (b0 := b0) (b := b) (by omega) (fun h h' => by have := h4 h h'; omega)
  exact ⟨P, g, e, hP, fun x y hxy => (h x y hxy).1⟩

/-- **C87**, panics: `frombytes` fails exactly for strings shorter than 49 bytes, and for strings shorter than 97
bytes that start with 4 and a first coordinate below `p`. -/
theorem C87_g1_panics (b : List UInt8) : ECP.frombytes b = none ↔ b.length < 49 ∨
    (b.length < 97 ∧ b.head? = some 4 ∧ beNat ((b.drop 1).take 48) < p) :=
  ECP.frombytes_none b

/-- **C87**, encoding: for every representation of a finite point, the strings are the ones of the specification,
with one exception. If the abscissa is 0 and the representation is affine with nonzero limbs, `p` is written
for it. -/
theorem C87_g1_encode (P : ECP) (x y : Fp) (h : y ^ 2 = x ^ 3 + b1) (hP : P.OkY (2 ^ 10) (Pt.mk x y h)) :
    ∃ b c Q R, P.tobytes = some (b, Q) ∧ P.tobytesC = some (c, R) ∧ Q.OkY (2 ^ 10) (Pt.mk x y h) ∧
      R.OkY (2 ^ 10) (Pt.mk x y h) ∧
      (¬ (x = 0 ∧ P.z.toF = 1 ∧ P.x.x.val ≠ 0) → b = octets x y ∧ c = octetsC x y) ∧
      (x = 0 ∧ P.z.toF = 1 ∧ P.x.x.val ≠ 0 → b = 4 :: (toBE 48 p ++ toBE 48 y.val) ∧
        c = UInt8.ofNat (2 + y.val % 2) :: toBE 48 p) := by
  obtain ⟨⟨b, Q⟩, e, rfl, hQ⟩ := ECP.tobytes_wpY hP (by norm_num)
  obtain ⟨⟨c, R⟩, e', rfl, hR⟩ := ECP.tobytesC_wp hP (by norm_num)
  refine ⟨_, _, Q, R, e, e', hQ, hR, fun hn => ?_, fun hn => ?_⟩
  · rw [ECP.xOut, if_neg hn]
    exact ⟨by rw [octets], by rw [octetsC]⟩
  · rw [ECP.xOut, if_pos hn]
    exact ⟨rfl, rfl⟩

/-- **C87**, transport: decoding either string of a finite point gives the point back, except for the
representations of `(0, ±√15)` named in `C87_g1_encode`, which come back as infinity. -/
theorem C87_g1_roundtrip (P : ECP) (x y : Fp) (h : y ^ 2 = x ^ 3 + b1) (hP : P.OkY (2 ^ 10) (Pt.mk x y h)) :
    ∃ b c Q R P₁ P₂, P.tobytes = some (b, Q) ∧ P.tobytesC = some (c, R) ∧ ECP.frombytes b = some P₁ ∧
      ECP.frombytes c = some P₂ ∧
      (¬ (x = 0 ∧ P.z.toF = 1 ∧ P.x.x.val ≠ 0) → P₁.OkY 2 (Pt.mk x y h) ∧ P₂.OkY 2 (Pt.mk x y h)) ∧
      (x = 0 ∧ P.z.toF = 1 ∧ P.x.x.val ≠ 0 → P₁.OkY 2 0 ∧ P₂.OkY 2 0) := by
  obtain ⟨b, c, Q, R, e1, e2, -, -, h1, h2⟩ := C87_g1_encode P x y h hP
  have hyl := val_lt384 y
  by_cases hn : x = 0 ∧ P.z.toF = 1 ∧ P.x.x.val ≠ 0
  · obtain ⟨rfl, rfl⟩ := h2 hn
    have hp := p_le_pow
    have t48 : ∀ l : List UInt8, (toBE 48 p ++ l).take 48 = toBE 48 p := fun l => by
      rw [List.take_append_of_le_length (by rw [length_toBE]), List.take_of_length_le (by rw [length_toBE])]
    have hbp : beNat (toBE 48 p) = p := by rw [beNat_toBE, Nat.mod_eq_of_lt (by omega)]
    obtain ⟨P₁, d1, g, hg, k1⟩ := ECP.frombytes_wp (b0 := 4) (b := toBE 48 p ++ toBE 48 y.val)
      (by rw [List.length_append, length_toBE]; omega) (fun _ h => by rw [t48, hbp] at h; omega)
    obtain ⟨P₂, d2, g', hg', k2⟩ := ECP.frombytes_wp (b0 := UInt8.ofNat (2 + y.val % 2)) (b := toBE 48 p)
      (by rw [length_toBE]) (fun _ h => by
        rw [List.take_of_length_le (by rw [length_toBE]), hbp] at h; omega)
    refine ⟨_, _, Q, R, P₁, P₂, e1, e2, d1, d2, fun h => absurd hn h, fun _ => ?_⟩
    have fin : ∀ {g : G1}, (∀ x y h, g ≠ Pt.mk x y h) → g = 0 := by
      intro g hg
      rcases Pt.cases g with rfl | ⟨x, y, h, rfl⟩
      · rfl
      · exact absurd rfl (hg x y h)
    have z1 : g = 0 := fin fun x' y' h' e => by
      rw [(k1 x' y' h').1, octets_prefix (by rw [List.length_append, length_toBE]; omega),
        octetsC_prefix (by rw [List.length_append, length_toBE]; omega), t48, hbp] at e
      have := ZMod.val_lt x'
      rcases e with ⟨-, e, -⟩ | ⟨-, e⟩ <;> omega
    have z2 : g' = 0 := fin fun x' y' h' e => by
      rw [(k2 x' y' h').1, octets_prefix (by rw [length_toBE]), octetsC_prefix (by rw [length_toBE]),
        List.take_of_length_le (by rw [length_toBE]), hbp] at e
      have := ZMod.val_lt x'
      rcases e with ⟨-, e, -⟩ | ⟨-, e⟩ <;> omega
    exact ⟨z1 ▸ hg, z2 ▸ hg'⟩
  · obtain ⟨rfl, rfl⟩ := h1 hn
    obtain ⟨P₁, g, d1, hg, k1⟩ := C87_g1_decode (octets x y)
      (by rw [octets, List.length_cons, List.length_append, length_toBE, length_toBE]; omega)
      (fun _ _ => by rw [octets, List.length_cons, List.length_append, length_toBE, length_toBE])
    obtain ⟨P₂, g', d2, hg', k2⟩ := C87_g1_decode (octetsC x y)
      (by rw [octetsC, List.length_cons, length_toBE])
      (fun h => by
        rw [octetsC, List.head?_cons, Option.some.injEq] at h
        exfalso
        rcases Nat.mod_two_eq_zero_or_one y.val with e | e <;> rw [e] at h <;> revert h <;> decide)
    refine ⟨_, _, Q, R, P₁, P₂, e1, e2, d1, d2, fun _ => ⟨?_, ?_⟩, fun h => absurd h hn⟩
    · exact (k1 x y h).2 (Or.inl List.prefix_rfl) ▸ hg
    · exact (k2 x y h).2 (Or.inr List.prefix_rfl) ▸ hg'

theorem order3_on' : (-root15) ^ 2 = 0 ^ 3 + b1 := by rw [neg_sq]; exact order3_on

theorem root15_odd : root15.val % 2 = 1 := by
  rw [root15, ECP.natCast_val_of_lt (by norm_num [p])]

/-- **C87**, infinity has no compressed string of its own: the string written for infinity, in any representation
whose first coordinate has zero limbs, decodes to one of the finite points `(0, ±√15)`. -/
theorem C87_g1_infinity_compressed (P : ECP) (hP : P.OkY (2 ^ 10) 0) (hx : P.x.x.val = 0) :
    ∃ b Q, P.tobytesC = some (b, P) ∧ ECP.frombytes b = some Q ∧
      (Q.OkY 2 (Pt.mk 0 root15 order3_on) ∨ Q.OkY 2 (Pt.mk 0 (-root15) order3_on')) := by
  obtain ⟨⟨b, R⟩, e, rfl, hR⟩ := ECP.tobytesC_inf hP (by norm_num)
  dsimp only at hR
  subst hR
  have h0 : FP.outNat R.x 0 = (0 : Fp).val := by rw [FP.outNat, if_neg (by simp [hx])]
  have v2 := root15_odd
  have n2 : root15 ≠ 0 := Pt.y_ne order3_on
  rw [h0] at e
  rcases Nat.mod_two_eq_zero_or_one (FP.outNat R.y R.y.toF) with hm | hm
  · have eb : UInt8.ofNat (2 + FP.outNat R.y R.y.toF % 2) :: toBE 48 (0 : Fp).val = octetsC 0 (-root15) := by
      rw [octetsC, hm, val_neg_parity n2, v2]
    rw [eb] at e
    obtain ⟨Q, g, d, hg, k⟩ := C87_g1_decode (octetsC 0 (-root15)) (by rw [octetsC, List.length_cons, length_toBE])
      (fun h => by rw [octetsC, List.head?_cons, Option.some.injEq, val_neg_parity n2, v2] at h; revert h; decide)
    exact ⟨_, Q, e, d, Or.inr ((k 0 (-root15) order3_on').2 (Or.inr List.prefix_rfl) ▸ hg)⟩
  · have eb : UInt8.ofNat (2 + FP.outNat R.y R.y.toF % 2) :: toBE 48 (0 : Fp).val = octetsC 0 root15 := by
      rw [octetsC, hm, v2]
    rw [eb] at e
    obtain ⟨Q, g, d, hg, k⟩ := C87_g1_decode (octetsC 0 root15) (by rw [octetsC, List.length_cons, length_toBE])
      (fun h => by rw [octetsC, List.head?_cons, Option.some.injEq, v2] at h; revert h; decide)
    exact ⟨_, Q, e, d, Or.inl ((k 0 root15 order3_on).2 (Or.inr List.prefix_rfl) ▸ hg)⟩

/-- **C87**, infinity uncompressed: in a representation `(0 : y : 0)` with zero limbs first, the string decodes to
infinity unless `y² = 15`, and to the finite point `(0, y)` then. -/
theorem C87_g1_infinity_uncompressed (P : ECP) (hP : P.OkY (2 ^ 10) 0) (hx : P.x.x.val = 0) :
    ∃ b Q g, P.tobytes = some (b, P) ∧ ECP.frombytes b = some Q ∧ Q.OkY 2 g ∧
      (g = 0 ↔ P.y.toF ^ 2 ≠ 15) ∧ (∀ h, P.y.toF ^ 2 = 15 → g = Pt.mk 0 P.y.toF h) := by
  obtain ⟨⟨b, R⟩, e, rfl, hR⟩ := ECP.tobytes_inf hP (by norm_num)
  dsimp only at hR
  subst hR
  have h0 : FP.outNat R.x 0 = (0 : Fp).val := by rw [FP.outNat, if_neg (by simp [hx])]
  have hy : R.y.toF ≠ 0 := by
    rcases hP.pt with ⟨-, h, -⟩ | ⟨-, x, y, h, -, -, e⟩
    · exact h
    · exact absurd e.symm (Pt.mk_ne h)
  rw [h0, FP.outNat_of_ne hy] at e
  have eb : 4 :: (toBE 48 (0 : Fp).val ++ toBE 48 R.y.toF.val) = octets 0 R.y.toF := by rw [octets]
  rw [eb] at e
  obtain ⟨Q, g, d, hg, k⟩ := C87_g1_decode (octets 0 R.y.toF)
    (by rw [octets, List.length_cons, List.length_append, length_toBE, length_toBE]; omega)
    (fun _ _ => by rw [octets, List.length_cons, List.length_append, length_toBE, length_toBE])
  refine ⟨_, Q, g, e, d, hg, ⟨?_, ?_⟩, fun h _ => (k _ _ h).2 (Or.inl List.prefix_rfl)⟩
  · intro g0 h4
    have hon : R.y.toF ^ 2 = 0 ^ 3 + b1 := by rw [h4, b1]; norm_num
    have := (k _ _ hon).2 (Or.inl List.prefix_rfl)
    exact Pt.mk_ne hon (this.symm.trans g0)
  · intro h4
    rcases Pt.cases g with rfl | ⟨x, y, h, rfl⟩
    · rfl
    · exfalso
      have hz : (0 : Fp).val < 2 ^ 384 := val_lt384 0
      have := (k x y h).1 rfl
      rw [← eb, octetsC_prefix (by rw [List.length_append, length_toBE]; omega),
        octets_prefix (by rw [List.length_append, length_toBE]; omega),
        List.take_append_of_le_length (by rw [length_toBE]), List.take_of_length_le (by rw [length_toBE]),
        List.drop_append_of_le_length (by rw [length_toBE]), List.drop_of_length_le (by rw [length_toBE]),
        List.nil_append, List.take_of_length_le (by rw [length_toBE]), beNat_toBE, beNat_toBE,
        Nat.mod_eq_of_lt (by omega), Nat.mod_eq_of_lt (by have := val_lt384 R.y.toF; omega)] at this
      rcases this with ⟨-, e1, -, e2⟩ | ⟨e1, -⟩
      · have e1 := (ZMod.val_injective p) e1
        have e2 := (ZMod.val_injective p) e2
        rw [← e1, ← e2] at h
        exact h4 (by rw [h, b1]; norm_num)
      · rcases Nat.mod_two_eq_zero_or_one y.val with e | e <;> rw [e] at e1 <;> revert e1 <;> decide

/-- Infinity as `ECP::new` gives it becomes the byte 3 and 48 zeros, which is the point `(0, √15)` for the odd root. -/
example : ∃ P b Q, ECP.new = some P ∧ P.tobytesC = some (b, P) ∧ b = 3 :: List.replicate 48 0 ∧
    ECP.frombytes b = some Q ∧ Q.OkY 2 (Pt.mk 0 root15 order3_on) := by
  obtain ⟨P, eP, hP, hx, hy⟩ : Wp ECP.new fun P => P.OkY (2 ^ 10) 0 ∧ P.x.x.val = 0 ∧ P.y.toF = 1 := by
    refine (ECP.new_wp.and (R := fun P => P.x.x.val = 0 ∧ P.y.toF = 1) ?_).mono
      fun P h => ⟨(h.1.mono (by norm_num)).okY, h.2⟩
    unfold ECP.new
    refine Wp.bind (FP.new_int_wp (a := 1) (by norm_num) (by norm_num)) fun y hy => ?_
    exact Wp.ret ⟨BIG.new_val, by rw [hy.res]; norm_num⟩
  obtain ⟨⟨b, R⟩, e, rfl, hR⟩ := ECP.tobytesC_inf hP (by norm_num)
  dsimp only at hR
  subst hR
  have v0 : FP.outNat R.x 0 = 0 := by rw [FP.outNat, if_neg (by simp [hx]), ZMod.val_zero]
  have v1 : FP.outNat R.y R.y.toF = 1 := by
    rw [hy, FP.outNat_of_ne one_ne_zero, ← Nat.cast_one, ECP.natCast_val_of_lt (by norm_num [p])]
  rw [v0, v1] at e
  have eb : UInt8.ofNat (2 + 1 % 2) :: toBE 48 0 = octetsC 0 root15 := by
    rw [octetsC, root15_odd, ZMod.val_zero]
  obtain ⟨Q, g, d, hg, k⟩ := C87_g1_decode (octetsC 0 root15) (by rw [octetsC, List.length_cons, length_toBE])
    (fun h => by rw [octetsC, List.head?_cons, Option.some.injEq, root15_odd] at h; revert h; decide)
  exact ⟨R, _, Q, eP, e, by decide +kernel, eb ▸ d, (k 0 root15 order3_on).2 (Or.inr List.prefix_rfl) ▸ hg⟩

/-- **C87**, decoding: every string of at least 192 bytes is decoded, without panic or overflow. The four blocks
of 48 bytes are coordinates modulo `p`; the result is the point with these coordinates if they are on the curve,
and infinity otherwise. -/
theorem C87_g2_decode (b : List UInt8) (hb : 192 ≤ b.length) :
    ∃ P g, ECP2.frombytes b = some P ∧ P.Rep g ∧ (g ≠ 0 → P.z.toF = 1) ∧
      (g = 0 ↔ block2 b 96 ^ 2 ≠ block2 b 0 ^ 3 + b2) ∧
      ∀ x y h, g = Pt.mk x y h ↔ x = block2 b 0 ∧ y = block2 b 96 := by
  obtain ⟨P, e, h1, h2⟩ := ECP2.frombytes_wp hb
  by_cases h : block2 b 96 ^ 2 = block2 b 0 ^ 3 + b2
  · obtain ⟨hP, hz⟩ := h1 h
    refine ⟨P, _, e, hP.mono (by norm_num), fun _ => hz, ⟨fun h' => absurd h' (Pt.mk_ne h), fun h' => absurd h h'⟩, ?_⟩
    intro x y h'
    rw [Pt.mk_inj]
    exact ⟨fun e => ⟨e.1.symm, e.2.symm⟩, fun e => ⟨e.1.symm, e.2.symm⟩⟩
  · refine ⟨P, 0, e, (h2 h).mono (by norm_num), fun h => absurd rfl h, ⟨fun _ => h, fun _ => rfl⟩, ?_⟩
    intro x y h'
    constructor
    · intro e
      exact absurd e.symm (Pt.mk_ne h')
    · rintro ⟨rfl, rfl⟩
      exact absurd h' h

/-- **C87**, panics: exactly the strings of fewer than 192 bytes. -/
theorem C87_g2_panics (b : List UInt8) : ECP2.frombytes b = none ↔ b.length < 192 := by
  constructor
  · intro h
    by_contra hb
    obtain ⟨P, g, e, -⟩ := C87_g2_decode b (by omega)
    rw [h] at e
    cases e
  · intro h
    rw [ECP2.frombytes, if_pos h]
    rfl

theorem length_octets2 (x y : Fp2) : (octets2 x y).length = 192 := by
  simp [octets2, length_toBE]

/-- The coordinates that stand in a string of four blocks. -/
theorem block2_four {a b c d : Nat} (ha : a < 2 ^ 384) (hb : b < 2 ^ 384) (hc : c < 2 ^ 384) (hd : d < 2 ^ 384) :
    block2 (toBE 48 a ++ toBE 48 b ++ toBE 48 c ++ toBE 48 d) 0 = ⟨(a : Fp), (b : Fp)⟩ ∧
    block2 (toBE 48 a ++ toBE 48 b ++ toBE 48 c ++ toBE 48 d) 96 = ⟨(c : Fp), (d : Fp)⟩ := by
  have t : ∀ n (l : List UInt8), (toBE 48 n ++ l).take 48 = toBE 48 n := fun n l => by
    rw [List.take_append_of_le_length (by rw [length_toBE]), List.take_of_length_le (by rw [length_toBE])]
  have dr : ∀ n (l : List UInt8), (toBE 48 n ++ l).drop 48 = l := fun n l => by
    rw [List.drop_append_of_le_length (by rw [length_toBE]), List.drop_of_length_le (by rw [length_toBE]),
      List.nil_append]
  have v : ∀ n, n < 2 ^ 384 → beNat (toBE 48 n) = n := fun n hn => by
    rw [beNat_toBE, Nat.mod_eq_of_lt (by simpa using hn)]
  have d0 : ∀ l : List UInt8, l.drop 0 = l := fun _ => rfl
  have d96 : ∀ l : List UInt8, l.drop 96 = (l.drop 48).drop 48 := fun l => by rw [List.drop_drop]
  have d144 : ∀ l : List UInt8, l.drop 144 = ((l.drop 48).drop 48).drop 48 := fun l => by
    rw [List.drop_drop, List.drop_drop]
  constructor
  · rw [block2]
    simp only [List.append_assoc, d0, zero_add, t, dr]
    rw [v _ ha, v _ hb]
  · rw [block2, show 96 + 48 = 144 from rfl]
    simp only [List.append_assoc, d96, d144, dr]
    rw [t, List.take_of_length_le (by rw [length_toBE]), v _ hc, v _ hd]

/-- **C87**, encoding: for every representation of a finite point, the string written is the one of the specification,
with one exception. A coordinate that is 0 in a representation that is affine with nonzero limbs there is written
as `p`. -/
theorem C87_g2_encode (P : ECP2) (x y : Fp2) (h : y ^ 2 = x ^ 3 + b2) (hP : P.Rep (Pt.mk x y h)) :
    ∃ b, P.tobytes = some b ∧ b.length = 192 ∧ block2 b 0 = x ∧ block2 b 96 = y ∧
      ((P.z.toF = 1 → (x.re = 0 → P.x.a.x.val = 0) ∧ (x.im = 0 → P.x.b.x.val = 0) ∧ (y.re = 0 → P.y.a.x.val = 0) ∧
        (y.im = 0 → P.y.b.x.val = 0)) → b = octets2 x y) := by
  obtain ⟨b, e, a, b', c, d, rfl, ha, hb, hc, hd⟩ := ECP2.tobytes_val hP (by norm_num)
  have hp := p_le_pow
  have cast : ∀ (q : Prop) (f : FP) (v : Fp), ((FP.outIf q f v : Nat) : Fp) = v := by
    intro q f v
    rw [FP.outIf]
    split
    · rename_i h
      rw [h.1, CharP.cast_eq_zero]
    · exact ZMod.natCast_zmod_val v
  have le : ∀ (q : Prop) (f : FP) (v : Fp), FP.outIf q f v < 2 ^ 384 := fun q f v => by
    have := FP.outIf_le q f v; omega
  obtain ⟨e1, e2⟩ := block2_four (a := a) (b := b') (c := c) (d := d) (ha ▸ le _ _ _) (hb ▸ le _ _ _)
    (hc ▸ le _ _ _) (hd ▸ le _ _ _)
  refine ⟨_, e, by simp [length_toBE], ?_, ?_, ?_⟩
  · rw [e1, ha, hb, cast, cast]
  · rw [e2, hc, hd, cast, cast]
  · intro hz
    have out : ∀ (f : FP) (v : Fp), (P.z.toF = 1 → v = 0 → f.x.val = 0) → FP.outIf (P.z.toF = 1) f v = v.val := by
      intro f v hf
      rw [FP.outIf, if_neg]
      rintro ⟨h0, h1, h2⟩
      exact h2 (hf h1 h0)
    rw [octets2, ha, hb, hc, hd, out _ _ fun h => (hz h).1, out _ _ fun h => (hz h).2.1,
      out _ _ fun h => (hz h).2.2.1, out _ _ fun h => (hz h).2.2.2]

/-- **C87**, transport: decoding the string of any point of the twist in any representation, infinity included,
gives the point back. -/
theorem C87_g2_roundtrip (P : ECP2) (g : G2) (hP : P.Rep g) :
    ∃ b Q, P.tobytes = some b ∧ ECP2.frombytes b = some Q ∧ Q.Rep g := by
  rcases Pt.cases g with rfl | ⟨x, y, h, rfl⟩
  · obtain ⟨b, e, rfl⟩ := ECP2.tobytes_inf hP (by norm_num)
    have hp := p_le_pow
    have le : ∀ (f : FP) (v : Fp), FP.outNat f v < 2 ^ 384 := fun f v => by have := FP.outNat_le f v; omega
    obtain ⟨e1, e2⟩ := block2_four (le P.x.a 0) (le P.x.b 0) (le P.y.a P.y.toF.re) (le P.y.b P.y.toF.im)
    obtain ⟨Q, g, d, hQ, -, h0, -⟩ := C87_g2_decode _ (le_of_eq (by simp [length_toBE] :
      192 = (toBE 48 (FP.outNat P.x.a 0) ++ toBE 48 (FP.outNat P.x.b 0) ++ toBE 48 (FP.outNat P.y.a P.y.toF.re) ++
        toBE 48 (FP.outNat P.y.b P.y.toF.im)).length))
    refine ⟨_, Q, e, d, ?_⟩
    rw [e1, e2] at h0
    simp only [FP.outNat_cast] at h0
    rw [← h0.2 ?_]
    · exact hQ
    · intro h
      refine b2_not_square P.y.toF ?_
      have hz : (⟨0, 0⟩ : Fp2) = 0 := rfl
      rw [hz, zero_pow (by norm_num), zero_add] at h
      exact h
  · obtain ⟨b, e, hl, e1, e2, -⟩ := C87_g2_encode P x y h hP
    obtain ⟨Q, g, d, hQ, -, -, hg⟩ := C87_g2_decode b hl.ge
    exact ⟨b, Q, e, d, (hg x y h).2 ⟨e1.symm, e2.symm⟩ ▸ hQ⟩

/-- **C87**, the string of a point is not unique: the coordinates of a point may be increased by `p`, the
decoder does not notice. (`p + v` has at most 48 bytes for every coordinate `v`.) -/
theorem C87_g2_malleable (x y : Fp2) (h : y ^ 2 = x ^ 3 + b2) :
    ∃ b P, b ≠ octets2 x y ∧ b.length = 192 ∧ ECP2.frombytes b = some P ∧ P.Rep (Pt.mk x y h) := by
  have hx := ZMod.val_lt x.re
  have hp2 : 2 * p < 2 ^ 384 := by norm_num [p]
  have hv : ∀ v : Fp, v.val < 2 ^ 384 := fun v => by have := ZMod.val_lt v; omega
  obtain ⟨e1, e2⟩ := block2_four (a := x.re.val + p) (by omega) (hv x.im) (hv y.re) (hv y.im)
  have hl : (toBE 48 (x.re.val + p) ++ toBE 48 x.im.val ++ toBE 48 y.re.val ++ toBE 48 y.im.val).length = 192 := by
    simp [length_toBE]
  obtain ⟨Q, g, d, hQ, -, -, hg⟩ := C87_g2_decode _ hl.ge
  refine ⟨_, Q, ?_, hl, d, ?_⟩
  · intro he
    have e3 := congrArg (fun l => beNat (l.take 48)) he
    simp only [octets2, List.append_assoc] at e3
    rw [List.take_append_of_le_length (by rw [length_toBE]), List.take_append_of_le_length (by rw [length_toBE]),
      List.take_of_length_le (by rw [length_toBE]), List.take_of_length_le (by rw [length_toBE]), beNat_toBE, beNat_toBE,
      Nat.mod_eq_of_lt (by have : 256 ^ 48 = 2 ^ 384 := by norm_num
                           omega),
      Nat.mod_eq_of_lt (by have : 256 ^ 48 = 2 ^ 384 := by norm_num
                           omega)] at e3
    have : 0 < p := by norm_num [p]
    omega
  · rw [e1, e2] at hg
    refine (hg x y h).2 ⟨?_, ?_⟩ ▸ hQ
    · ext
      · simp
      · simp
    · ext <;> simp

/-- The generator, written and read back. -/
example : ∃ P b Q, ECP2.Rep P gen2 ∧ P.tobytes = some b ∧ ECP2.frombytes b = some Q ∧ Q.Rep gen2 ∧ gen2 ≠ 0 := by
  obtain ⟨P, hP⟩ := ECP2.exists_rep gen2
  obtain ⟨b, Q, e, d, hQ⟩ := C87_g2_roundtrip P gen2 hP
  exact ⟨P, b, Q, hP, e, d, hQ, gen2_ne⟩

/-- **C87**, decoding: every string of at least 576 bytes is decoded without panic or overflow. The twelve blocks of
48 bytes are coordinates modulo `p`. -/
theorem C87_fp12_decode (w : List UInt8) (hw : 576 ≤ w.length) :
    ∃ f, FP12.frombytes w = some f ∧ f.Ok 1 2 (block12 w) := FP12.frombytes_wp hw

/-- **C87**, panics: exactly the strings of fewer than 576 bytes. -/
theorem C87_fp12_panics (w : List UInt8) : FP12.frombytes w = none ↔ w.length < 576 := by
  constructor
  · intro h
    by_contra hw
    obtain ⟨f, e, -⟩ := C87_fp12_decode w (by omega)
    rw [h] at e
    cases e
  · exact FP12.frombytes_none

theorem length_octets12 (a b c : Fp4) : (octets12 a b c).length = 576 := by
  simp [octets12, length_octets2]

theorem FP2_out_can {f : FP2} {v : Fp2} (h : f.Can v) :
    FP2.out f v = toBE 48 v.re.val ++ toBE 48 v.im.val := by
  rw [FP2.out, h.a.outNat, h.b.outNat]

/-- **C87**, encoding: for every element in every representation the arithmetic hands on, the string written stands
for the element. -/
theorem C87_fp12_encode (f : FP12) (z : Fp12) (hf : f.Ok 8 (2 ^ 23) z) :
    ∃ w, f.tobytes = some w ∧ w.length = 576 ∧ block12 w = z := by
  obtain ⟨a, b, c, ha, hb, hc, rfl⟩ := hf
  obtain ⟨w, e, rfl⟩ := FP12.tobytes_wp ha hb hc (by norm_num)
  refine ⟨_, e, by simp [FP2.length_out], ?_⟩
  obtain ⟨e1, e2, e3, e4, e5, e6⟩ := block2_six (FP2.length_out f.a.a a.re) (FP2.length_out f.a.b a.im)
    (FP2.length_out f.b.a b.re) (FP2.length_out f.b.b b.im) (FP2.length_out f.c.a c.re) (FP2.length_out f.c.b c.im)
  rw [block12, e1, e2, e3, e4, e5, e6]
  simp only [FP2.block2_out]

/-- **C87**, the standard string: the one written for an element whose twelve components are reduced, as they are after
the final exponentiation. -/
theorem C87_fp12_standard (f : FP12) (a b c : Fp4) (hf : f.Can (ι4 a + ι4 b * W + ι4 c * W ^ 2)) :
    f.tobytes = some (octets12 a b c) := by
  obtain ⟨a', b', c', ha, hb, hc, e⟩ := hf
  obtain ⟨rfl, rfl, rfl⟩ := Fp12_ext_iff.1 e
  obtain ⟨w, e, rfl⟩ := FP12.tobytes_wp ha.ok hb.ok hc.ok (by norm_num)
  rw [e, FP2_out_can ha.a, FP2_out_can ha.b, FP2_out_can hb.a, FP2_out_can hb.b, FP2_out_can hc.a, FP2_out_can hc.b]
  simp only [octets12, octets2, List.append_assoc]

/-- **C87**, transport: decoding the string of any element in any representation gives an element that `equals` the
first one. -/
theorem C87_fp12_roundtrip (f : FP12) (z : Fp12) (hf : f.Ok 8 (2 ^ 23) z) :
    ∃ w g, f.tobytes = some w ∧ FP12.frombytes w = some g ∧ g.Ok 1 2 z ∧ FP12.equals f g = some true := by
  obtain ⟨w, e, hl, hz⟩ := C87_fp12_encode f z hf
  obtain ⟨g, d, hg⟩ := C87_fp12_decode w hl.ge
  rw [hz] at hg
  obtain ⟨r, er, hr⟩ := FP12.equals_wp hf hg (by norm_num)
  rw [hr.2 rfl] at er
  exact ⟨w, g, e, d, hg, er⟩

/-- **C87**, the strings of two elements in any representations agree only if the elements do; in reduced form, if and
only if they do. -/
theorem C87_fp12_injective (f f' : FP12) (z z' : Fp12) (hf : f.Ok 8 (2 ^ 23) z) (hf' : f'.Ok 8 (2 ^ 23) z')
    (h : f.tobytes = f'.tobytes) : z = z' := by
  obtain ⟨w, e, -, hz⟩ := C87_fp12_encode f z hf
  obtain ⟨w', e', -, hz'⟩ := C87_fp12_encode f' z' hf'
  rw [h, e'] at e
  cases e
  rw [← hz, ← hz']

theorem C87_fp12_reduced (f f' : FP12) (z z' : Fp12) (hf : f.Can z) (hf' : f'.Can z') :
    f.tobytes = f'.tobytes ↔ z = z' := by
  constructor
  · exact C87_fp12_injective f f' z z' (hf.ok.mono (by norm_num)) (hf'.ok.mono (by norm_num))
  · rintro rfl
    rw [hf.ext hf']

/-- **C87**, the string of an element is not unique: a coordinate may be increased by `p`, the decoder does not
notice. -/
theorem C87_fp12_malleable (z : Fp12) : ∃ w w' f f', w ≠ w' ∧ w.length = 576 ∧ w'.length = 576 ∧
    FP12.frombytes w = some f ∧ FP12.frombytes w' = some f' ∧ f.Ok 1 2 z ∧ f'.Ok 1 2 z := by
  obtain ⟨a, b, c, rfl⟩ := Fp12_exists z
  have hp2 : 2 * p < 2 ^ 384 := by norm_num [p]
  have hv : ∀ v : Fp, v.val < p := fun v => ZMod.val_lt v
  let s : Fp2 → List UInt8 := fun v => toBE 48 v.re.val ++ toBE 48 v.im.val
  let s' : Fp2 → List UInt8 := fun v => toBE 48 (v.re.val + p) ++ toBE 48 v.im.val
  have ls : ∀ v, (s v).length = 96 := fun v => by simp [s, length_toBE]
  have ls' : ∀ v, (s' v).length = 96 := fun v => by simp [s', length_toBE]
  have bs : ∀ v, block2 (s v) 0 = v := fun v => by
    have := hv v.re; have := hv v.im
    simp only [s]
    rw [block2_two (by omega) (by omega), ZMod.natCast_zmod_val, ZMod.natCast_zmod_val]
  have bs' : ∀ v, block2 (s' v) 0 = v := fun v => by
    have := hv v.re; have := hv v.im
    simp only [s']
    rw [block2_two (by omega) (by omega), Nat.cast_add, CharP.cast_eq_zero Fp p, add_zero, ZMod.natCast_zmod_val,
      ZMod.natCast_zmod_val]
  obtain ⟨e1, e2, e3, e4, e5, e6⟩ := block2_six (ls a.re) (ls a.im) (ls b.re) (ls b.im) (ls c.re) (ls c.im)
  obtain ⟨d1, d2, d3, d4, d5, d6⟩ := block2_six (ls' a.re) (ls a.im) (ls b.re) (ls b.im) (ls c.re) (ls c.im)
  have l1 : (s a.re ++ s a.im ++ s b.re ++ s b.im ++ s c.re ++ s c.im).length = 576 := by simp [ls]
  have l2 : (s' a.re ++ s a.im ++ s b.re ++ s b.im ++ s c.re ++ s c.im).length = 576 := by simp [ls, ls']
  obtain ⟨f, ef, hf⟩ := C87_fp12_decode _ l1.ge
  obtain ⟨f', ef', hf'⟩ := C87_fp12_decode _ l2.ge
  rw [block12, e1, e2, e3, e4, e5, e6] at hf
  rw [block12, d1, d2, d3, d4, d5, d6] at hf'
  simp only [bs, bs'] at hf hf'
  refine ⟨_, _, f, f', ?_, l1, l2, ef, ef', hf, hf'⟩
  intro he
  have e := congrArg (fun l => beNat (l.take 48)) he
  have h1 := hv a.re.re
  simp only [s, s', List.append_assoc] at e
  rw [List.take_append_of_le_length (by rw [length_toBE]), List.take_append_of_le_length (by rw [length_toBE]),
    List.take_of_length_le (by rw [length_toBE]), List.take_of_length_le (by rw [length_toBE]), beNat_toBE, beNat_toBE,
    Nat.mod_eq_of_lt (by have : 256 ^ 48 = 2 ^ 384 := by norm_num
                         omega),
    Nat.mod_eq_of_lt (by have : 256 ^ 48 = 2 ^ 384 := by norm_num
                         omega)] at e
  have := p_pos
  omega

/-- The hypotheses are met: every element has a reduced representation. -/
example (z : Fp12) : ∃ f : FP12, f.Ok 8 (2 ^ 23) z := by
  obtain ⟨w, -, f, -, -, -, -, -, -, hf, -⟩ := C87_fp12_malleable z
  exact ⟨f, hf.mono (by norm_num)⟩

end Props.B383
