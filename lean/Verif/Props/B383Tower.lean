import Verif.Proof.B383.Fp4More
import Verif.Props.B383Pairing
import Verif.Props.B383Curve
/-!
# Property C83: arithmetic in the extension fields of degree 4 and 12 of BLS12-383

`FP4.Ok f L E v` says that the four prime field components of `f` denote those of `v`, with limb bound `L`
and excess bound `E` as in `Verif/Props/Field.lean`; `FP12.Ok` is the same for twelve components, over the
basis `1, W, W²` with `W³ = V`, `V² = 1 + i`.
-/

set_option exponentiation.threshold 6000

namespace Props.B383

open Amcl.B383 Spec.B383 QuadraticAlgebra
open Amcl (Wp BIG)

seal Spec.B383.finalExp

/-- **C83**, dividing by the element `1 + i` that defines the tower. -/
theorem C83_div_ip (f : FP2) (v : Fp2) (hf : FP2.Ok f 1 (2 ^ 18) v) :
    (∃ r, f.div_ip = some r ∧ FP2.Ok r 1 (3 * 2 ^ 18) (v / (1 + i))) ∧
    (∃ r, f.div_ip2 = some r ∧ FP2.Ok r 1 (3 * 2 ^ 18) (2 * v / (1 + i))) := by
  constructor
  · exact (FP2.div_ip_wp hf (by norm_num)).mono fun _ h => h.mono (by norm_num)
  · exact (FP2.div_ip2_wp hf (by norm_num)).mono fun _ h => (h.mono (by norm_num)).congr (by rw [two_mul])

/-- **C83**, the field with `p⁴` elements: every operation ends without overflow, denotes exactly the
field operation, and keeps the bounds shown. -/
theorem C83_fp4 (f g : FP4) (v w : Fp4) (hf : FP4.Ok f 1 (2 ^ 18) v) (hg : FP4.Ok g 1 (2 ^ 18) w) :
    (∃ r, f.add g = some r ∧ FP4.Ok r 2 (2 ^ 19) (v + w)) ∧
    (∃ r, f.dbl = some r ∧ FP4.Ok r 2 (2 ^ 19) (2 * v)) ∧
    (∃ r, f.sub g = some r ∧ FP4.Ok r 2 (12 * 2 ^ 18) (v - w)) ∧
    (∃ r, f.rsub g = some r ∧ FP4.Ok r 2 (12 * 2 ^ 18) (w - v)) ∧
    (∃ r, f.neg = some r ∧ FP4.Ok r 1 (11 * 2 ^ 18) (-v)) ∧
    (∃ r, f.conj = some r ∧ FP4.Ok r 1 (5 * 2 ^ 18) ⟨v.re, -v.im⟩) ∧
    (∃ r, f.nconj = some r ∧ FP4.Ok r 1 (5 * 2 ^ 18) ⟨-v.re, v.im⟩) ∧
    (∃ r, f.mul g = some r ∧ FP4.Ok r 1 33 (v * w)) ∧
    (∃ r, f.sqr = some r ∧ FP4.Ok r 1 63 (v ^ 2)) ∧
    (∃ r, f.inverse = some r ∧ FP4.Ok r 1 3 v⁻¹) ∧
    (∃ r, f.div2 = some r ∧ FP4.Ok r 1 (2 ^ 18) (v / 2)) ∧
    (∃ r, f.times_i = some r ∧ FP4.Ok r 1 (3 * 2 ^ 18) (v * V)) ∧
    (∃ r, f.div_i = some r ∧ FP4.Ok r 1 (3 * 2 ^ 18) (v / V)) ∧
    (∃ r, f.div_2i = some r ∧ FP4.Ok r 1 (3 * 2 ^ 18) (2 * v / V)) ∧
    (∃ r, f.reduce = some r ∧ FP4.Can r v) := by
  refine ⟨?_, ?_, ?_, ?_, ?_, ?_, ?_, ?_, ?_, ?_, ?_, ?_, ?_, ?_, ?_⟩
  · exact (FP4.add_wp hf hg (by norm_num)).mono fun _ h => h.cast (by norm_num) (by norm_num) rfl
  · exact (FP4.dbl_wp hf (by norm_num)).mono fun _ h => h.cast (by norm_num) (by norm_num) (two_mul v).symm
  · exact (FP4.sub_wp hf hg (by norm_num)).mono fun _ h => h.cast (by norm_num) (by norm_num) rfl
  · exact (FP4.rsub_wp hf hg (by norm_num)).mono fun _ h => h.cast (by norm_num) (by norm_num) rfl
  · exact FP4.neg_wp hf (by norm_num)
  · exact (FP4.conj_wp hf (by norm_num)).mono fun _ h => h.congr (by ext1 <;> simp)
  · exact (FP4.nconj_wp hf (by norm_num)).mono fun _ h => h.congr (by ext1 <;> simp)
  · exact FP4.mul_wp hf hg (by norm_num)
  · rw [pow_two]; exact FP4.sqr_wp hf (by norm_num)
  · exact FP4.inverse_wp hf (by norm_num)
  · exact FP4.div2_wp hf (by norm_num)
  · exact FP4.times_i_wp hf (by norm_num)
  · exact FP4.div_i_wp hf (by norm_num)
  · exact FP4.div_2i_wp hf (by norm_num)
  · exact FP4.reduce_wp hf (by norm_num)

/-- **C83**, the operations of the field with `p⁴` elements that take an element of a subfield. -/
theorem C83_fp4_scalars (f : FP4) (v : Fp4) (s : FP2) (a : Fp2) (t : FP) (b : Fp) (hf : FP4.Ok f 1 (2 ^ 18) v)
    (hs : FP2.Ok s 1 (2 ^ 18) a) (ht : FP.Ok t 1 (2 ^ 18) b) :
    (∃ r, f.padd s = some r ∧ FP4.Ok r 2 (2 ^ 19) ⟨v.re + a, v.im⟩) ∧
    (∃ r, f.pmul s = some r ∧ FP4.Ok r 1 3 ⟨v.re * a, v.im * a⟩) ∧
    (∃ r, f.qmul t = some r ∧ FP4.Ok r 1 2 ⟨v.re * ⟨b, 0⟩, v.im * ⟨b, 0⟩⟩) := by
  refine ⟨?_, ?_, ?_⟩
  · exact (FP4.padd_wp hf hs (by norm_num)).mono fun _ h => h.cast (by norm_num) (by norm_num) (by ext1 <;> simp)
  · exact (FP4.pmul_wp hf hs (by norm_num)).mono fun _ h => h.congr (by ext1 <;> simp)
  · refine (FP4.qmul_wp hf ht (by norm_num)).mono fun _ h => h.congr ?_
    have e : algebraMap Fp Fp2 b = ⟨b, 0⟩ := by ext <;> simp
    rw [e]
    ext1 <;> simp

/-- **C83**, the tests in the field with `p⁴` elements. -/
theorem C83_fp4_tests (f g : FP4) (v w : Fp4) (hf : FP4.Ok f 1 (2 ^ 18) v) (hg : FP4.Ok g 1 (2 ^ 18) w) :
    (∃ e, f.equals g = some e ∧ (e = true ↔ v = w)) ∧
    (∃ e f', f.iszilch = some (e, f') ∧ (e = true ↔ v = 0) ∧ FP4.Can f' v) ∧
    (∃ e f', f.isunity = some (e, f') ∧ (e = true ↔ v = 1) ∧ FP4.Ok f' 1 (2 ^ 18) v) ∧
    (∃ e f', f.isreal = some (e, f') ∧ (e = true ↔ v.im = 0) ∧ FP4.Ok f' 1 (2 ^ 18) v) := by
  refine ⟨FP4.equals_wp hf hg (by norm_num), ?_, ?_, ?_⟩
  · obtain ⟨⟨e, f'⟩, h1, h2, h3⟩ := FP4.iszilch_wp hf (by norm_num)
    exact ⟨e, f', h1, h2, h3⟩
  · obtain ⟨⟨e, f'⟩, h1, h2, h3⟩ := FP4.isunity_wp hf (by norm_num)
    exact ⟨e, f', h1, h2, h3⟩
  · obtain ⟨⟨e, f'⟩, h1, h2, h3⟩ := FP4.isreal_wp hf (by norm_num)
    exact ⟨e, f', h1, h2, h3⟩

/-- **C83**, powers in the field with `p⁴` elements: the exponent may have limbs of up to `2^62`, of either
sign, as long as its value is not negative. -/
theorem C83_fp4_pow (f : FP4) (v : Fp4) (hf : FP4.Ok f 1 (2 ^ 18) v) (e : BIG) (he : e.Lim (2 ^ 62)) (h0 : 0 ≤ e.val) :
    ∃ r, f.pow e = some r ∧ FP4.Can r (v ^ e.val.toNat) :=
  FP4.pow_wp hf (by norm_num) (by norm_num) he h0

/-- **C83**, the Frobenius map of the field with `p⁴` elements, given a representation of
`(1+i)^((p-1)/2)`. -/
theorem C83_fp4_frob (f : FP4) (v : Fp4) (x : FP2) (hf : FP4.Ok f 1 (2 ^ 18) v)
    (hx : FP2.Ok x 1 (2 ^ 18) ((1 + i) ^ ((p - 1) / 2))) :
    ∃ r, f.frob x = some r ∧ FP4.Ok r 1 (2 ^ 19) (v ^ p) := by
  refine (FP4.frob_wp hf hx (by norm_num)).mono fun _ h => h.cast rfl (by norm_num) ?_
  apply ι4.injective
  rw [map_pow, ← φ_eq, φ_ι4, γ_eq, ← pow_mul, show (p - 1) / 6 * 3 = (p - 1) / 2 by norm_num [p]]

/-- The elements of `Fp2` for which `FP2::sqrt` finds a root (property C81). -/
def Rootable (v : Fp2) : Prop := IsSquare v ∧ (v.im = 0 → IsSquare v.re)

/-- **C83**, square roots outside the subfield. The answer `true` comes with a correct root, and the answer
`false` leaves the element as it was. The answer is `true` exactly if `FP2::sqrt` finds a root of the norm
and, for one of its two roots `n`, a root of `(re + n)/2`. -/
theorem C83_fp4_sqrt (f : FP4) (v : Fp4) (hf : FP4.Ok f 1 (2 ^ 18) v) (hv : v.im ≠ 0) :
    ∃ b g, f.sqrt = some (b, g) ∧ (b = true → ∃ u, FP4.Ok g 1 3 u ∧ u ^ 2 = v) ∧ (b = false → FP4.Can g v) ∧
      (b = true ↔ Rootable (v.re ^ 2 - (1 + i) * v.im ^ 2) ∧
        ∃ n, n ^ 2 = v.re ^ 2 - (1 + i) * v.im ^ 2 ∧ Rootable ((v.re + n) / 2)) := by
  obtain ⟨⟨b, g⟩, e, h1, h2, h3⟩ := FP4.sqrt_wp hf (by norm_num) hv
  refine ⟨b, g, e, fun h => ?_, h3, ?_⟩
  · obtain ⟨u, hu, e⟩ := h1 h
    exact ⟨u, hu, by rw [pow_two, e]⟩
  · simp only [pow_two]
    exact h2

/-- **C83**, square roots in the subfield. The routine always says `true`. The result is a root if
`FP2::sqrt` finds one; otherwise the result is 0, although every element of the subfield is a square in the
field with `p⁴` elements. -/
theorem C83_fp4_sqrt_subfield (f : FP4) (v : Fp4) (hf : FP4.Ok f 1 (2 ^ 18) v) (hv : v.im = 0) :
    IsSquare v ∧ ∃ g, f.sqrt = some (true, g) ∧ (Rootable v.re → ∃ u, FP4.Ok g 1 3 u ∧ u ^ 2 = v) ∧
      (¬ Rootable v.re → FP4.Ok g 1 3 0) := by
  constructor
  · by_cases h : IsSquare v.re
    · obtain ⟨s, hs⟩ := h
      refine ⟨⟨s, 0⟩, ?_⟩
      ext1
      · simp [hs]
      · simp [hv]
    · obtain ⟨s, hs⟩ : IsSquare (v.re / (1 + i)) := by
        have h1 : ¬ IsSquare (1 + i : Fp2) := fun ⟨y, hy⟩ => one_add_i_nonsquare y (by simp [hy, pow_two])
        have hF : ringChar Fp2 ≠ 2 := by
          rw [ringChar.eq Fp2 p]
          norm_num [p]
        have h2 : v.re ≠ 0 := fun e => h ⟨0, by rw [e, mul_zero]⟩
        rw [← quadraticChar_one_iff_isSquare (div_ne_zero h2 FP2.one_add_i_ne), div_eq_mul_inv, map_mul,
          quadraticChar_neg_one_iff_not_isSquare.2 h, quadraticChar_neg_one_iff_not_isSquare.2 ?_]
        · norm_num
        · rwa [isSquare_inv]
      refine ⟨⟨0, s⟩, ?_⟩
      ext1
      · simp only [re_mul]
        rw [mul_assoc, ← hs, mul_div_cancel₀ _ FP2.one_add_i_ne, mul_zero, zero_add]
      · simp [hv]
  · obtain ⟨⟨b, g⟩, e, h1, h2, h3⟩ := FP4.sqrt_real hf (by norm_num) hv
    obtain rfl : b = true := h1
    refine ⟨g, e, fun h => ?_, h3⟩
    obtain ⟨u, hu, e⟩ := h2 h
    exact ⟨u, hu, by rw [pow_two, e]⟩

/-- **C83**, the field with `p¹²` elements. Conjugation is the power `p⁶`; `frob` with the constant of
`rom.rs` is the power `p`. -/
theorem C83_fp12 (f g : FP12) (v w : Fp12) (hf : f.Ok 1 (2 ^ 16) v) (hg : g.Ok 1 (2 ^ 16) w) :
    (∃ r, f.mul g = some r ∧ r.Ok 1 (2 ^ 12) (v * w)) ∧
    (∃ r, f.sqr = some r ∧ r.Ok 1 (2 ^ 12) (v ^ 2)) ∧
    (∃ r, f.inverse = some r ∧ r.Ok 1 (2 ^ 12) v⁻¹) ∧
    (∃ r, f.conj = some r ∧ r.Ok 1 (5 * 2 ^ 16) (v ^ (p ^ 6))) ∧
    (∃ x r, FP2.new_bigs rom.FRA rom.FRB = some x ∧ f.frob x = some r ∧ r.Ok 1 (2 ^ 17) (v ^ p)) ∧
    (∃ r, f.reduce = some r ∧ r.Can v) ∧
    (∃ e, f.equals g = some e ∧ (e = true ↔ v = w)) := by
  refine ⟨?_, ?_, ?_, ?_, ?_, ?_, ?_⟩
  · exact FP12.mul_wp (hf.mono (by norm_num)) (hg.mono (by norm_num))
  · exact FP12.sqr_wp hf
  · exact FP12.inverse_wp hf
  · rw [← τ_eq]
    exact FP12.conj_wp hf (by norm_num)
  · obtain ⟨x, ex, hx⟩ := pair.gamma_ok
    obtain ⟨r, er, hr⟩ := FP12.frob_wp hf hx (by norm_num)
    exact ⟨x, r, ex, er, hr.mono (by norm_num)⟩
  · exact FP12.reduce_wp hf (by norm_num)
  · exact FP12.equals_wp hf hg (by norm_num)

/-- **C83**, the short squaring for the elements whose order divides `p⁴ - p² + 1`, such as every value of
the pairing. -/
theorem C83_fp12_usqr (f : FP12) (v : Fp12) (hf : f.Ok 1 (2 ^ 18) v) (hv : v ^ (p ^ 4 - p ^ 2 + 1) = 1) :
    ∃ r, f.usqr = some r ∧ r.Can (v ^ 2) := by
  refine FP12.usqr_wp hf ?_
  unfold Cyc
  simp only [φ_eq, ← pow_mul]
  rw [← pow_succ]
  have e : p * p * p * p + 1 = p ^ 4 - p ^ 2 + 1 + p * p := by
    norm_num [p]
  rw [e, pow_add, hv, one_mul]

/-- A representation of any element. -/
theorem exists_fp4 (v : Fp4) : ∃ f, FP4.Ok f 1 (2 ^ 18) v := by
  obtain ⟨a, ha⟩ := exists_fp v.re.re
  obtain ⟨b, hb⟩ := exists_fp v.re.im
  obtain ⟨c, hc⟩ := exists_fp v.im.re
  obtain ⟨d, hd⟩ := exists_fp v.im.im
  exact ⟨⟨⟨a, b⟩, ⟨c, d⟩⟩, ⟨ha.mono (by norm_num), hb.mono (by norm_num)⟩, ⟨hc.mono (by norm_num), hd.mono (by norm_num)⟩⟩

/-- Roots: a root of `(2 + V)²` is found. For `(1 + V)²` the answer is `false`, because the norm is `-1`. And
`1 + i` is the square of `V`, but the routine returns `true` with 0. -/
example : (∃ f g u, FP4.Ok f 1 (2 ^ 18) ((2 + V) ^ 2) ∧ f.sqrt = some (true, g) ∧ FP4.Ok g 1 3 u ∧ u ^ 2 = (2 + V) ^ 2) ∧
    (∃ f g, FP4.Ok f 1 (2 ^ 18) ((1 + V) ^ 2) ∧ f.sqrt = some (false, g)) ∧
    ∃ f g, FP4.Ok f 1 (2 ^ 18) (V ^ 2) ∧ f.sqrt = some (true, g) ∧ FP4.Ok g 1 3 0 := by
  have ii : (i : Fp2) * i = -1 := by
    ext <;> simp [i, re_one, im_one]
  refine ⟨?_, ?_, ?_⟩
  · obtain ⟨f, hf⟩ := exists_fp4 ((2 + V) ^ 2)
    have hre : ((2 + V) ^ 2).re = 5 + i := by
      rw [pow_two, re_mul]
      simp [V]
      ring
    have him : ((2 + V) ^ 2).im = 4 := by
      rw [pow_two, im_mul]
      simp [V]
      norm_num
    have two := FP2.two_ne
    have four : (4 : Fp2) = 2 * 2 := by norm_num
    obtain ⟨b, g, e, h1, -, h2⟩ := C83_fp4_sqrt f _ hf (by rw [him, four]; exact mul_ne_zero two two)
    have en : ((5 + i) ^ 2 - (1 + i) * 4 ^ 2 : Fp2) = (3 - i) * (3 - i) := by ring
    rw [hre, him, en] at h2
    have hb : b = true := by
      refine h2.2 ⟨⟨⟨3 - i, rfl⟩, fun h => ?_⟩, 3 - i, pow_two _, ?_⟩
      · exfalso
        rw [im_mul] at h
        simp [i] at h
        have h3 : ((6 : Nat) : Fp) = 0 := by
          push_cast
          linear_combination -h
        rw [ZMod.natCast_eq_zero_iff] at h3
        exact absurd (Nat.le_of_dvd (by norm_num) h3) (by norm_num [p])
      · rw [show (5 + i + (3 - i)) / 2 = (2 * 2 : Fp2) by field_simp; ring]
        refine ⟨⟨2, rfl⟩, fun _ => ⟨2, ?_⟩⟩
        simp
    subst hb
    obtain ⟨u, hu, e'⟩ := h1 rfl
    exact ⟨f, g, u, hf, e, hu, e'⟩
  · obtain ⟨f, hf⟩ := exists_fp4 ((1 + V) ^ 2)
    have hre : ((1 + V) ^ 2).re = 2 + i := by
      rw [pow_two, re_mul]
      simp [V]
      ring
    have him : ((1 + V) ^ 2).im = 2 := by
      rw [pow_two, im_mul]
      simp [V]
      norm_num
    obtain ⟨b, g, e, -, -, h2⟩ := C83_fp4_sqrt f _ hf (by rw [him]; exact FP2.two_ne)
    have en : ((2 + i) ^ 2 - (1 + i) * 2 ^ 2 : Fp2) = -1 := by linear_combination ii
    rw [hre, him, en] at h2
    have hb : b = false := by
      rw [← Bool.not_eq_true, h2]
      rintro ⟨⟨-, h⟩, -⟩
      have := h (by simp [im_one])
      rw [re_neg, re_one] at this
      revert this
      rw [ZMod.exists_sq_eq_neg_one_iff]
      norm_num [p]
    subst hb
    exact ⟨f, g, hf, e⟩
  · obtain ⟨f, hf⟩ := exists_fp4 (V ^ 2)
    obtain ⟨-, g, e, -, h⟩ := C83_fp4_sqrt_subfield f _ hf (by rw [pow_two]; simp [V])
    refine ⟨f, g, hf, e, h ?_⟩
    rintro ⟨⟨y, hy⟩, -⟩
    refine one_add_i_nonsquare y ?_
    rw [pow_two] at hy
    simpa [V, pow_two] using hy.symm

/-- Division by `V` in the other direction. -/
example : ∃ f r, FP4.Ok f 1 (2 ^ 18) (V ^ 3) ∧ f.div_i = some r ∧ FP4.Ok r 1 (3 * 2 ^ 18) (V ^ 2) := by
  obtain ⟨f, hf⟩ := exists_fp4 (V ^ 3)
  obtain ⟨r, e, hr⟩ := (C83_fp4 f f _ _ hf hf).2.2.2.2.2.2.2.2.2.2.2.2.1
  exact ⟨f, r, hf, e, hr.congr (by rw [pow_succ, mul_div_cancel_right₀ _ FP4.V_ne])⟩

/-- Two elements of the largest field and their product. -/
example : ∃ f g r, FP12.Ok f 1 (2 ^ 16) W ∧ FP12.Ok g 1 (2 ^ 16) (W ^ 2) ∧ f.mul g = some r ∧
    FP12.Ok r 1 (2 ^ 12) (ι4 V) := by
  obtain ⟨a, -, ha⟩ := FP4.new_int_wp (a := 1) (by norm_num) (by norm_num)
  rw [Int.cast_one] at ha
  have hf : FP12.Ok ⟨FP4.new, a, FP4.new⟩ 1 (2 ^ 16) W :=
    ⟨0, 1, 0, FP4.new_can.ok.mono (by norm_num), ha.mono (by norm_num), FP4.new_can.ok.mono (by norm_num), by simp⟩
  have hg : FP12.Ok ⟨FP4.new, FP4.new, a⟩ 1 (2 ^ 16) (W ^ 2) :=
    ⟨0, 0, 1, FP4.new_can.ok.mono (by norm_num), FP4.new_can.ok.mono (by norm_num), ha.mono (by norm_num), by simp⟩
  obtain ⟨r, e, hr⟩ := (C83_fp12 _ _ _ _ hf hg).1
  exact ⟨_, _, r, hf, hg, e, hr.congr (by rw [← pow_succ', W_cube])⟩

/-- The short squaring of a value of the pairing. -/
example : ∃ d R, FP12.Ok d 1 (2 ^ 18) (pairing gen2 gen1) ∧ d.usqr = some R ∧ R.Can (pairing gen2 gen1 ^ 2) := by
  obtain ⟨P, hP⟩ := exists_aff2 gen2
  obtain ⟨S, hS⟩ := exists_aff1 gen1
  obtain ⟨d, -, hd⟩ := C84_pairing_any_key P gen2 S gen1 hP r_gen2 hS gen2_ne
  have hc : pairing gen2 gen1 ^ (p ^ 4 - p ^ 2 + 1) = 1 := by
    obtain ⟨k, hk⟩ : r ∣ p ^ 4 - p ^ 2 + 1 := by decide +kernel
    rw [hk, pow_mul, pairing_pow_r r_gen2 gen1, one_pow]
  have hd := hd.ok.mono (L' := 1) (E' := 2 ^ 18) (by norm_num)
  obtain ⟨R, e, h⟩ := C83_fp12_usqr d _ hd hc
  exact ⟨d, R, hd, e, h⟩

end Props.B383
