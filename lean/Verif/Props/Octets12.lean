import Verif.Proof.Fp12More
import Verif.Props.Ecp2Codec
/-!
# Property C54: AMCL's strings for the extension of degree 12
-/

set_option exponentiation.threshold 6000

namespace Props

open Amcl Spec

seal Spec.finalExp Spec.toBE Spec.octets2

/-- **C54**, decoding: every string of at least 576 bytes is decoded without panic or overflow. The twelve blocks of
48 bytes are coordinates modulo `p`. -/
theorem C54_decode (w : List UInt8) (hw : 576 ≤ w.length) :
    ∃ f, FP12.frombytes w = some f ∧ f.Ok 1 2 (block12 w) := FP12.frombytes_wp hw

/-- **C54**, panics: exactly the strings of fewer than 576 bytes. -/
theorem C54_panics (w : List UInt8) : FP12.frombytes w = none ↔ w.length < 576 := by
  constructor
  · intro h
    by_contra hw
    obtain ⟨f, e, -⟩ := C54_decode w (by omega)
    rw [h] at e
    cases e
  · exact FP12.frombytes_none

theorem length_octets12 (a b c : Fp4) : (octets12 a b c).length = 576 := by
  simp [octets12, length_octets2]

theorem FP2.out_can {f : FP2} {v : Fp2} (h : f.Can v) :
    FP2.out f v = toBE 48 v.re.val ++ toBE 48 v.im.val := by
  rw [FP2.out, h.a.outNat, h.b.outNat]

/-- **C54**, encoding: for every element in every representation the arithmetic hands on, the string written stands
for the element. -/
theorem C54_encode (f : FP12) (z : Fp12) (hf : f.Ok 8 (2 ^ 25) z) :
    ∃ w, f.tobytes = some w ∧ w.length = 576 ∧ block12 w = z := by
  obtain ⟨a, b, c, ha, hb, hc, rfl⟩ := hf
  obtain ⟨w, e, rfl⟩ := FP12.tobytes_wp ha hb hc (by norm_num)
  refine ⟨_, e, by simp [FP2.length_out], ?_⟩
  obtain ⟨e1, e2, e3, e4, e5, e6⟩ := block2_six (FP2.length_out f.a.a a.re) (FP2.length_out f.a.b a.im)
    (FP2.length_out f.b.a b.re) (FP2.length_out f.b.b b.im) (FP2.length_out f.c.a c.re) (FP2.length_out f.c.b c.im)
  rw [block12, e1, e2, e3, e4, e5, e6]
  simp only [FP2.block2_out]

/-- **C54**, the standard string: the one written for an element whose twelve components are reduced, as they are after
the final exponentiation. -/
theorem C54_standard (f : FP12) (a b c : Fp4) (hf : f.Can (ι4 a + ι4 b * W + ι4 c * W ^ 2)) :
    f.tobytes = some (octets12 a b c) := by
  obtain ⟨a', b', c', ha, hb, hc, e⟩ := hf
  obtain ⟨rfl, rfl, rfl⟩ := Fp12_ext_iff.1 e
  obtain ⟨w, e, rfl⟩ := FP12.tobytes_wp ha.ok hb.ok hc.ok (by norm_num)
  rw [e, FP2.out_can ha.a, FP2.out_can ha.b, FP2.out_can hb.a, FP2.out_can hb.b, FP2.out_can hc.a, FP2.out_can hc.b]
  simp only [octets12, octets2, List.append_assoc]

/-- **C54**, transport: decoding the string of any element in any representation gives an element that `equals` the
first one. -/
theorem C54_roundtrip (f : FP12) (z : Fp12) (hf : f.Ok 8 (2 ^ 25) z) :
    ∃ w g, f.tobytes = some w ∧ FP12.frombytes w = some g ∧ g.Ok 1 2 z ∧ FP12.equals f g = some true := by
  obtain ⟨w, e, hl, hz⟩ := C54_encode f z hf
  obtain ⟨g, d, hg⟩ := C54_decode w hl.ge
  rw [hz] at hg
  obtain ⟨r, er, hr⟩ := FP12.equals_wp hf hg (by norm_num)
  rw [hr.2 rfl] at er
  exact ⟨w, g, e, d, hg, er⟩

/-- **C54**, the strings of two elements in any representations agree only if the elements do; in reduced form, if and
only if they do. -/
theorem C54_injective (f f' : FP12) (z z' : Fp12) (hf : f.Ok 8 (2 ^ 25) z) (hf' : f'.Ok 8 (2 ^ 25) z')
    (h : f.tobytes = f'.tobytes) : z = z' := by
  obtain ⟨w, e, -, hz⟩ := C54_encode f z hf
  obtain ⟨w', e', -, hz'⟩ := C54_encode f' z' hf'
  rw [h, e'] at e
  cases e
  rw [← hz, ← hz']

theorem C54_reduced (f f' : FP12) (z z' : Fp12) (hf : f.Can z) (hf' : f'.Can z') :
    f.tobytes = f'.tobytes ↔ z = z' := by
  constructor
  · exact C54_injective f f' z z' (hf.ok.mono (by norm_num)) (hf'.ok.mono (by norm_num))
  · rintro rfl
    rw [hf.ext hf']

/-- **C54**, the string of an element is not unique: a coordinate may be increased by `p`, the decoder does not
notice. -/
theorem C54_malleable (z : Fp12) : ∃ w w' f f', w ≠ w' ∧ w.length = 576 ∧ w'.length = 576 ∧
    FP12.frombytes w = some f ∧ FP12.frombytes w' = some f' ∧ f.Ok 1 2 z ∧ f'.Ok 1 2 z := by
  obtain ⟨a, b, c, rfl⟩ := Fp12_exists z
  have hp2 : 2 * p < 2 ^ 384 := by norm_num [p]
  have hv : ∀ v : Fp, v.val < p := fun v => ZMod.val_lt v
  let s : Fp2 → List UInt8 := fun v => toBE 48 v.re.val ++ toBE 48 v.im.val
  let s' : Fp2 → List UInt8 := fun v => toBE 48 (v.re.val + p) ++ toBE 48 v.im.val
  have ls : ∀ v, (s v).length = 96 := fun v => by simp [s, length_toBE]
  have ls' : ∀ v, (s' v).length = 96 := fun v => by simp [s', length_toBE]
  have bs : ∀ v, block2 (s v) 0 = v := fun v => by
    have := hv v.re; have := hv v.im
    simp only [s]
    rw [block2_two (by omega) (by omega), ZMod.natCast_zmod_val, ZMod.natCast_zmod_val]
  have bs' : ∀ v, block2 (s' v) 0 = v := fun v => by
    have := hv v.re; have := hv v.im
    simp only [s']
    rw [block2_two (by omega) (by omega), Nat.cast_add, CharP.cast_eq_zero Fp p, add_zero, ZMod.natCast_zmod_val,
      ZMod.natCast_zmod_val]
  obtain ⟨e1, e2, e3, e4, e5, e6⟩ := block2_six (ls a.re) (ls a.im) (ls b.re) (ls b.im) (ls c.re) (ls c.im)
  obtain ⟨d1, d2, d3, d4, d5, d6⟩ := block2_six (ls' a.re) (ls a.im) (ls b.re) (ls b.im) (ls c.re) (ls c.im)
  have l1 : (s a.re ++ s a.im ++ s b.re ++ s b.im ++ s c.re ++ s c.im).length = 576 := by simp [ls]
  have l2 : (s' a.re ++ s a.im ++ s b.re ++ s b.im ++ s c.re ++ s c.im).length = 576 := by simp [ls, ls']
  obtain ⟨f, ef, hf⟩ := C54_decode _ l1.ge
  obtain ⟨f', ef', hf'⟩ := C54_decode _ l2.ge
  rw [block12, e1, e2, e3, e4, e5, e6] at hf
  rw [block12, d1, d2, d3, d4, d5, d6] at hf'
  simp only [bs, bs'] at hf hf'
  refine ⟨_, _, f, f', ?_, l1, l2, ef, ef', hf, hf'⟩
  intro he
  have e := congrArg (fun l => beNat (l.take 48)) he
  have h1 := hv a.re.re
  simp only [s, s', List.append_assoc] at e
  rw [List.take_append_of_le_length (by rw [length_toBE]), List.take_append_of_le_length (by rw [length_toBE]),
    List.take_of_length_le (by rw [length_toBE]), List.take_of_length_le (by rw [length_toBE]), beNat_toBE, beNat_toBE,
    Nat.mod_eq_of_lt (by have : 256 ^ 48 = 2 ^ 384 := by norm_num
                         omega),
    Nat.mod_eq_of_lt (by have : 256 ^ 48 = 2 ^ 384 := by norm_num
                         omega)] at e
  have := p_pos
  omega

/-- The hypotheses are met: every element has a reduced representation. -/
example (z : Fp12) : ∃ f : FP12, f.Ok 8 (2 ^ 25) z := by
  obtain ⟨w, -, f, -, -, -, -, -, -, hf, -⟩ := C54_malleable z
  exact ⟨f, hf.mono (by norm_num)⟩

end Props
