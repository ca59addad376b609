import Verif.Proof.Ecp2More
import Verif.Proof.Clear
import Verif.Props.Pairing
/-!
# Properties C50 and C51: AMCL's own strings for points of the twist, and its map from strings to the twist
-/

set_option exponentiation.threshold 2000

namespace Props

open Amcl Spec

seal Spec.toBE Spec.octets2

/-- **C50**, decoding: every string of at least 192 bytes is decoded, without panic or overflow. The four blocks
of 48 bytes are coordinates modulo `p`; the result is the point with these coordinates if they are on the curve,
and infinity otherwise. -/
theorem C50_decode (b : List UInt8) (hb : 192 ≤ b.length) :
    ∃ P g, ECP2.frombytes b = some P ∧ P.Rep g ∧ (g ≠ 0 → P.z.toF = 1) ∧
      (g = 0 ↔ block2 b 96 ^ 2 ≠ block2 b 0 ^ 3 + b2) ∧
      ∀ x y h, g = Pt.mk x y h ↔ x = block2 b 0 ∧ y = block2 b 96 := by
  obtain ⟨P, e, h1, h2⟩ := ECP2.frombytes_wp hb
  by_cases h : block2 b 96 ^ 2 = block2 b 0 ^ 3 + b2
  · obtain ⟨hP, hz⟩ := h1 h
    refine ⟨P, _, e, hP.mono (by norm_num), fun _ => hz, ⟨fun h' => absurd h' (Pt.mk_ne h), fun h' => absurd h h'⟩, ?_⟩
    intro x y h'
    rw [Pt.mk_inj]
    exact ⟨fun e => ⟨e.1.symm, e.2.symm⟩, fun e => ⟨e.1.symm, e.2.symm⟩⟩
  · refine ⟨P, 0, e, (h2 h).mono (by norm_num), fun h => absurd rfl h, ⟨fun _ => h, fun _ => rfl⟩, ?_⟩
    intro x y h'
    constructor
    · intro e
      exact absurd e.symm (Pt.mk_ne h')
    · rintro ⟨rfl, rfl⟩
      exact absurd h' h

/-- **C50**, panics: exactly the strings of fewer than 192 bytes. -/
theorem C50_panics (b : List UInt8) : ECP2.frombytes b = none ↔ b.length < 192 := by
  constructor
  · intro h
    by_contra hb
    obtain ⟨P, g, e, -⟩ := C50_decode b (by omega)
    rw [h] at e
    cases e
  · intro h
    rw [ECP2.frombytes, if_pos h]
    rfl

theorem length_octets2 (x y : Fp2) : (octets2 x y).length = 192 := by
  simp [octets2, length_toBE]

/-- The coordinates that stand in a string of four blocks. -/
theorem block2_four {a b c d : Nat} (ha : a < 2 ^ 384) (hb : b < 2 ^ 384) (hc : c < 2 ^ 384) (hd : d < 2 ^ 384) :
    block2 (toBE 48 a ++ toBE 48 b ++ toBE 48 c ++ toBE 48 d) 0 = ⟨(a : Fp), (b : Fp)⟩ ∧
    block2 (toBE 48 a ++ toBE 48 b ++ toBE 48 c ++ toBE 48 d) 96 = ⟨(c : Fp), (d : Fp)⟩ := by
  have t : ∀ n (l : List UInt8), (toBE 48 n ++ l).take 48 = toBE 48 n := fun n l => by
    rw [List.take_append_of_le_length (by rw [length_toBE]), List.take_of_length_le (by rw [length_toBE])]
  have dr : ∀ n (l : List UInt8), (toBE 48 n ++ l).drop 48 = l := fun n l => by
    rw [List.drop_append_of_le_length (by rw [length_toBE]), List.drop_of_length_le (by rw [length_toBE]),
      List.nil_append]
  have v : ∀ n, n < 2 ^ 384 → beNat (toBE 48 n) = n := fun n hn => by
    rw [beNat_toBE, Nat.mod_eq_of_lt (by simpa using hn)]
  have d0 : ∀ l : List UInt8, l.drop 0 = l := fun _ => rfl
  have d96 : ∀ l : List UInt8, l.drop 96 = (l.drop 48).drop 48 := fun l => by rw [List.drop_drop]
  have d144 : ∀ l : List UInt8, l.drop 144 = ((l.drop 48).drop 48).drop 48 := fun l => by
    rw [List.drop_drop, List.drop_drop]
  constructor
  · rw [block2]
    simp only [List.append_assoc, d0, zero_add, t, dr]
    rw [v _ ha, v _ hb]
  · rw [block2, show 96 + 48 = 144 from rfl]
    simp only [List.append_assoc, d96, d144, dr]
    rw [t, List.take_of_length_le (by rw [length_toBE]), v _ hc, v _ hd]

/-- **C50**, encoding: for every representation of a finite point, the string written is the one of the specification,
with one exception. A coordinate that is 0 in a representation that is affine with nonzero limbs there is written
as `p`. -/
theorem C50_encode (P : ECP2) (x y : Fp2) (h : y ^ 2 = x ^ 3 + b2) (hP : P.Rep (Pt.mk x y h)) :
    ∃ b, P.tobytes = some b ∧ b.length = 192 ∧ block2 b 0 = x ∧ block2 b 96 = y ∧
      ((P.z.toF = 1 → (x.re = 0 → P.x.a.x.val = 0) ∧ (x.im = 0 → P.x.b.x.val = 0) ∧ (y.re = 0 → P.y.a.x.val = 0) ∧
        (y.im = 0 → P.y.b.x.val = 0)) → b = octets2 x y) := by
  obtain ⟨b, e, a, b', c, d, rfl, ha, hb, hc, hd⟩ := ECP2.tobytes_val hP (by norm_num)
  have hp := p_le_pow
  have cast : ∀ (q : Prop) (f : FP) (v : Fp), ((FP.outIf q f v : Nat) : Fp) = v := by
    intro q f v
    rw [FP.outIf]
    split
    · rename_i h
      rw [h.1, CharP.cast_eq_zero]
    · exact ZMod.natCast_zmod_val v
  have le : ∀ (q : Prop) (f : FP) (v : Fp), FP.outIf q f v < 2 ^ 384 := fun q f v => by
    have := FP.outIf_le q f v; omega
  obtain ⟨e1, e2⟩ := block2_four (a := a) (b := b') (c := c) (d := d) (ha ▸ le _ _ _) (hb ▸ le _ _ _)
    (hc ▸ le _ _ _) (hd ▸ le _ _ _)
  refine ⟨_, e, by simp [length_toBE], ?_, ?_, ?_⟩
  · rw [e1, ha, hb, cast, cast]
  · rw [e2, hc, hd, cast, cast]
  · intro hz
    have out : ∀ (f : FP) (v : Fp), (P.z.toF = 1 → v = 0 → f.x.val = 0) → FP.outIf (P.z.toF = 1) f v = v.val := by
      intro f v hf
      rw [FP.outIf, if_neg]
      rintro ⟨h0, h1, h2⟩
      exact h2 (hf h1 h0)
    rw [octets2, ha, hb, hc, hd, out _ _ fun h => (hz h).1, out _ _ fun h => (hz h).2.1,
      out _ _ fun h => (hz h).2.2.1, out _ _ fun h => (hz h).2.2.2]

/-- **C50**, transport: decoding the string of any point of the twist in any representation, infinity included,
gives the point back. -/
theorem C50_roundtrip (P : ECP2) (g : G2) (hP : P.Rep g) :
    ∃ b Q, P.tobytes = some b ∧ ECP2.frombytes b = some Q ∧ Q.Rep g := by
  rcases Pt.cases g with rfl | ⟨x, y, h, rfl⟩
  · obtain ⟨b, e, rfl⟩ := ECP2.tobytes_inf hP (by norm_num)
    have hp := p_le_pow
    have le : ∀ (f : FP) (v : Fp), FP.outNat f v < 2 ^ 384 := fun f v => by have := FP.outNat_le f v; omega
    obtain ⟨e1, e2⟩ := block2_four (le P.x.a 0) (le P.x.b 0) (le P.y.a P.y.toF.re) (le P.y.b P.y.toF.im)
    obtain ⟨Q, g, d, hQ, -, h0, -⟩ := C50_decode _ (le_of_eq (by simp [length_toBE] :
      192 = (toBE 48 (FP.outNat P.x.a 0) ++ toBE 48 (FP.outNat P.x.b 0) ++ toBE 48 (FP.outNat P.y.a P.y.toF.re) ++
        toBE 48 (FP.outNat P.y.b P.y.toF.im)).length))
    refine ⟨_, Q, e, d, ?_⟩
    rw [e1, e2] at h0
    simp only [FP.outNat_cast] at h0
    rw [← h0.2 ?_]
    · exact hQ
    · intro h
      refine b2_not_square P.y.toF ?_
      have hz : (⟨0, 0⟩ : Fp2) = 0 := rfl
      rw [hz, zero_pow (by norm_num), zero_add] at h
      exact h
  · obtain ⟨b, e, hl, e1, e2, -⟩ := C50_encode P x y h hP
    obtain ⟨Q, g, d, hQ, -, -, hg⟩ := C50_decode b hl.ge
    exact ⟨b, Q, e, d, (hg x y h).2 ⟨e1.symm, e2.symm⟩ ▸ hQ⟩

/-- **C50**, the string of a point is not unique: the coordinates of a point may be increased by `p`, the
decoder does not notice. (`p + v` has at most 48 bytes for every coordinate `v`.) -/
theorem C50_malleable (x y : Fp2) (h : y ^ 2 = x ^ 3 + b2) :
    ∃ b P, b ≠ octets2 x y ∧ b.length = 192 ∧ ECP2.frombytes b = some P ∧ P.Rep (Pt.mk x y h) := by
  have hx := ZMod.val_lt x.re
  have hp2 : 2 * p < 2 ^ 384 := by norm_num [p]
  have hv : ∀ v : Fp, v.val < 2 ^ 384 := fun v => by have := ZMod.val_lt v; omega
  obtain ⟨e1, e2⟩ := block2_four (a := x.re.val + p) (by omega) (hv x.im) (hv y.re) (hv y.im)
  have hl : (toBE 48 (x.re.val + p) ++ toBE 48 x.im.val ++ toBE 48 y.re.val ++ toBE 48 y.im.val).length = 192 := by
    simp [length_toBE]
  obtain ⟨Q, g, d, hQ, -, -, hg⟩ := C50_decode _ hl.ge
  refine ⟨_, Q, ?_, hl, d, ?_⟩
  · intro he
    have e3 := congrArg (fun l => beNat (l.take 48)) he
    simp only [octets2, List.append_assoc] at e3
    rw [List.take_append_of_le_length (by rw [length_toBE]), List.take_append_of_le_length (by rw [length_toBE]),
      List.take_of_length_le (by rw [length_toBE]), List.take_of_length_le (by rw [length_toBE]), beNat_toBE, beNat_toBE,
      Nat.mod_eq_of_lt (by have : 256 ^ 48 = 2 ^ 384 := by norm_num
                           omega),
      Nat.mod_eq_of_lt (by have : 256 ^ 48 = 2 ^ 384 := by norm_num
                           omega)] at e3
    have : 0 < p := by norm_num [p]
    omega
  · rw [e1, e2] at hg
    refine (hg x y h).2 ⟨?_, ?_⟩ ▸ hQ
    · ext
      · simp
      · simp
    · ext <;> simp

/-- The generator, written and read back. -/
example : ∃ P b Q, ECP2.Rep P gen2 ∧ P.tobytes = some b ∧ ECP2.frombytes b = some Q ∧ Q.Rep gen2 ∧ gen2 ≠ 0 := by
  obtain ⟨P, hP⟩ := ECP2.exists_rep gen2
  obtain ⟨b, Q, e, d, hQ⟩ := C50_roundtrip P gen2 hP
  exact ⟨P, b, Q, hP, e, d, hQ, gen2_ne⟩

/-- **C51**, AMCL's map from strings to the twist: `mapit` ends for every string of at least 48 bytes, without panic
or overflow. The first 48 bytes determine the result. -/
theorem C51_mapit (h : List UInt8) (hl : 48 ≤ h.length) :
    ∃ P g, ECP2.mapit h = some P ∧ MapsTo2 (-0xd201000000010000) (beNat (h.take 48) : Fp) g ∧ P.Rep g ∧
      (g ≠ 0 → P.z.toF = 1) := by
  obtain ⟨P, e, g, hg, hP, hz⟩ := ECP2.mapit_wp hl
  exact ⟨P, g, e, hg, hP.mono (by norm_num), hz⟩

/-- **C51**, short strings panic. -/
theorem C51_short (h : List UInt8) (hl : h.length < 48) : ECP2.mapit h = none := by
  rw [ECP2.mapit, BIG.frombytes, if_pos hl]
  rfl

/-- **C51**, the specification determines the point. -/
theorem C51_unique (u : Int) (x : Fp) (g g' : G2) (h : MapsTo2 u x g) (h' : MapsTo2 u x g') : g = g' := by
  obtain ⟨k, y, e, g₁, g₂, g₃, hn, h0, hs, f1, f2, f3, rfl⟩ := h
  obtain ⟨k', y', e', g₁', g₂', g₃', hn', h0', hs', f1', f2', f3', rfl⟩ := h'
  have hk : k = k' := by
    rcases lt_trichotomy k k' with hlt | he | hlt
    · exact absurd ⟨y, e, h0⟩ (hn' k hlt)
    · exact he
    · exact absurd ⟨y', e', h0'⟩ (hn k' hlt)
  subst hk
  have : y = y' := by
    rcases sq_eq_sq_iff_eq_or_eq_neg.1 (e.trans e'.symm) with h | h
    · exact h
    · exfalso
      obtain ⟨s, hs⟩ := hs
      obtain ⟨t, ht⟩ := hs'
      have ht0 : t ≠ 0 := by
        rintro rfl
        exact h0' (by rw [ht, mul_zero])
      refine FP2.neg_sq_nonsquare ht0 ⟨s, ?_⟩
      rw [← hs, ← ht, h, QuadraticAlgebra.re_neg]
  subst this
  rw [Amcl.TwistFrob.eq f1, Amcl.TwistFrob.eq f1', Amcl.TwistFrob.eq f3, Amcl.TwistFrob.eq f3', Amcl.TwistFrob.eq f2,
    Amcl.TwistFrob.eq f2']

/-- **C51**, what the map multiplies by: `(u²-u-1) + (u-1)ψ + 2ψ²` is multiplication by the published cofactor
times `3(u²-1)`, the standard effective cofactor, at every point of the twist. -/
theorem C51_cofactor (Q g₁ g₂ g₃ : G2) (h₁ : TwistFrob ((-0xd201000000010000 - 1 : Int) • Q) g₁)
    (h₂ : TwistFrob ((2 : Int) • Q) g₂) (h₃ : TwistFrob g₂ g₃) :
    ((-0xd201000000010000 : Int) ^ 2 - (-0xd201000000010000) - 1) • Q + g₁ + g₃ =
      (h2 * (3 * (0xd201000000010000 ^ 2 - 1))) • Q := by
  have := clear_eq Q
  rw [Amcl.TwistFrob.eq h₁, Amcl.TwistFrob.eq h₃, Amcl.TwistFrob.eq h₂]
  exact this

/-- **C51**, the map lands in the subgroup of order `r`: AMCL's shortcut clears the cofactor. -/
theorem C51_subgroup (x : Fp) (g : G2) (h : MapsTo2 (-0xd201000000010000) x g) : r • g = 0 := by
  obtain ⟨k, y, e, g₁, g₂, g₃, hn, h0, hs, f1, f2, f3, eg⟩ := h
  rw [eg, C51_cofactor _ _ _ _ f1 f2 f3]
  exact clear_torsion _

/-- **C51**, the whole: every string of at least 48 bytes is mapped to a point of the subgroup of order `r`. -/
theorem C51_mapit_subgroup (h : List UInt8) (hl : 48 ≤ h.length) :
    ∃ P g, ECP2.mapit h = some P ∧ P.Rep g ∧ r • g = 0 := by
  obtain ⟨P, g, e, hg, hP, -⟩ := C51_mapit h hl
  exact ⟨P, g, e, hP, C51_subgroup _ _ hg⟩

/-- The point over the abscissa `1 + i` is not itself in the subgroup, so there is something to clear. -/
example : r • (Pt.mk _ _ one_on : G2) ≠ 0 := by
  have h : Eval.Is Eval.fp2 ⟨(1, 1), (oneya, oneyb), (1, 0)⟩ (Pt.mk _ _ one_on : G2) := by
    show Proj (⟨((1 : Nat) : Fp), ((1 : Nat) : Fp)⟩ : Fp2) ⟨(oneya : Fp), (oneyb : Fp)⟩ (Eval.fp2.toF Eval.fp2.one) _
    rw [Eval.fp2.one_eq, Nat.cast_one]
    exact Proj.mk one_on
  rw [Ne, ← Eval.smul_zero_iff b2_is h (f := 255) (by norm_num [r])]
  decide +kernel

/-- The string of the number 1 maps to a combination of a point over the abscissa `1 + i`, with no search. -/
example : ∃ P g y h, ECP2.mapit (toBE 48 1) = some P ∧ P.Rep g ∧
    g = ((-0xd201000000010000 : Int) ^ 2 - (-0xd201000000010000) - 1) • Pt.mk (⟨1, 1⟩ : Fp2) y h +
      psi ((-0xd201000000010000 - 1 : Int) • Pt.mk _ _ h) + psi (psi ((2 : Int) • Pt.mk _ _ h)) := by
  obtain ⟨P, g, e, ⟨k, y, h, g₁, g₂, g₃, hn, h0, hs, f1, f2, f3, eg⟩, hP, -⟩ :=
    C51_mapit (toBE 48 1) (by rw [length_toBE])
  have e1 : ((beNat ((toBE 48 1).take 48) : Nat) : Fp) = 1 := by
    rw [List.take_of_length_le (by rw [length_toBE]), beNat_toBE, Nat.mod_eq_of_lt (by norm_num), Nat.cast_one]
  have hk : k = 0 := by
    by_contra hk
    refine hn 0 (by omega) ?_
    rw [e1, Nat.cast_zero, add_zero]
    refine ⟨_, one_on, fun h => ?_⟩
    have h : ((oneya : Nat) : Fp) = ((0 : Nat) : Fp) := by rw [Nat.cast_zero]; exact h
    rw [ZMod.natCast_eq_natCast_iff, Nat.ModEq] at h
    norm_num [oneya, p] at h
  subst hk
  have ex : (⟨1, ((beNat ((toBE 48 1).take 48) : Nat) : Fp) + (0 : Nat)⟩ : Fp2) = ⟨1, 1⟩ := by
    rw [e1, Nat.cast_zero, add_zero]
  have em : ∀ h', (Pt.mk _ _ h : G2) = Pt.mk (⟨1, 1⟩ : Fp2) y h' := by
    intro _
    rw [Pt.mk_inj]
    exact ⟨ex, rfl⟩
  have h' := h
  rw [ex] at h'
  refine ⟨P, g, y, h', e, hP, ?_⟩
  rw [eg, Amcl.TwistFrob.eq f1, Amcl.TwistFrob.eq f3, Amcl.TwistFrob.eq f2, em h']

end Props
