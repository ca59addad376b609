import Verif.Proof.B383.Points
/-!
# Properties C80, C81, C82: the curve BLS12-383

`amcl/src/bls383` repeats the text of `amcl/src/bls381` with other constants. The polynomials of the family BLS12 are those of
Barreto, Lynn and Scott, *Constructing elliptic curves with prescribed embedding degrees*: with the parameter `x`,
`r = x⁴ - x² + 1` and `p = (x - 1)² r / 3 + x`. The groups `G1` and `G2` are the points of `y² = x³ + 15` over the field with `p`
elements and of `y² = x³ + 15 (1 + i)` over the quadratic extension, with the law of `Verif/Spec/Curve.lean`. For `FP.Ok` see
`Verif/Props/Field.lean`.
-/

set_option exponentiation.threshold 2000

namespace Props.B383

open Amcl.B383 Spec.B383
open Amcl (Wp BIG)
open Spec (Pt)

/-! ## C80: the parameters -/

/-- The parameter `x`. -/
def x : Int := 2 ^ 64 + 2 ^ 51 + 2 ^ 24 + 2 ^ 12 + 2 ^ 9

/-- **C80**: the constants of `rom.rs` are those of the curve of the family BLS12 with the parameter `x`, with prime `p` and prime
`r`; `MCONST` and `R2MODP` are the two numbers that the Montgomery reduction needs. -/
theorem C80_constants : rom.CURVE_BNX.val = x ∧ rom.CURVE_ORDER.val = r ∧ rom.MODULUS.val = p ∧
    (r : Int) = x ^ 4 - x ^ 2 + 1 ∧ 3 * (p : Int) = (x - 1) ^ 2 * r + 3 * x ∧ p.Prime ∧ r.Prime ∧
    3 * rom.CURVE_COF.val = (x - 1) ^ 2 ∧ rom.CURVE_B.val = 15 ∧ rom.CURVE_B_I = 15 ∧
    (p * rom.MCONST + 1) % 2 ^ 58 = 0 ∧ rom.R2MODP.val = 2 ^ 812 % (p : Int) := by
  refine ⟨?_, ?_, ?_, ?_, ?_, prime_p, prime_r, ?_, ?_, rfl, ?_, ?_⟩ <;>
    norm_num [rom.CURVE_BNX, rom.CURVE_ORDER, rom.MODULUS, rom.CURVE_COF, rom.CURVE_B, rom.MCONST, rom.R2MODP, BIG.val, p, r, x]

/-- **C80**: `CURVE_CRU` is a primitive cube root of unity in the field. -/
theorem C80_cru : (rom.CURVE_CRU.val : Fp) ^ 3 = 1 ∧ (rom.CURVE_CRU.val : Fp) ≠ 1 := by
  have h1 : (rom.CURVE_CRU.val ^ 3 - 1) % (p : Int) = 0 := by decide +kernel
  have h2 : ¬ (rom.CURVE_CRU.val - 1) % (p : Int) = 0 := by decide +kernel
  rw [← Int.dvd_iff_emod_eq_zero, ← ZMod.intCast_zmod_eq_zero_iff_dvd] at h1 h2
  push_cast at h1 h2
  exact ⟨sub_eq_zero.1 h1, fun h => h2 (sub_eq_zero.2 h)⟩

/-- **C80**: `ECP::generator` and `ECP2::generator` return points of order `r` on the curve and on the twist. -/
theorem C80_generators : (∃ P, ECP.generator = some P ∧ P.Rep gen1) ∧ (∃ P, ECP2.generator = some P ∧ P.Rep gen2) ∧
    addOrderOf gen1 = r ∧ addOrderOf gen2 = r ∧
    (∃ h, gen1 = Pt.mk (rom.CURVE_GX.val : Fp) (rom.CURVE_GY.val : Fp) h) ∧
    (∃ h, gen2 = Pt.mk ⟨(rom.CURVE_PXA.val : Fp), (rom.CURVE_PXB.val : Fp)⟩ ⟨(rom.CURVE_PYA.val : Fp), (rom.CURVE_PYB.val : Fp)⟩ h) := by
  obtain ⟨P, e, h, -⟩ := ECP.generator_wp
  obtain ⟨Q, e', h', -⟩ := ECP2.generator_wp
  refine ⟨⟨P, e, h.mono (by norm_num)⟩, ⟨Q, e', h'.mono (by norm_num)⟩, addOrderOf_gen1, addOrderOf_gen2, ?_, ?_⟩
  · rw [show rom.CURVE_GX.val = (g1x : Int) by decide +kernel, show rom.CURVE_GY.val = (g1y : Int) by decide +kernel,
      Int.cast_natCast, Int.cast_natCast]
    exact ⟨g1_on, rfl⟩
  · rw [show rom.CURVE_PXA.val = (g2xa : Int) by decide +kernel, show rom.CURVE_PXB.val = (g2xb : Int) by decide +kernel,
      show rom.CURVE_PYA.val = (g2ya : Int) by decide +kernel, show rom.CURVE_PYB.val = (g2yb : Int) by decide +kernel,
      Int.cast_natCast, Int.cast_natCast, Int.cast_natCast, Int.cast_natCast]
    exact ⟨g2_on, rfl⟩

/-- The generator is not infinity, nor are 7 times it and `r - 1` times it; `r` times it is. -/
example : gen1 ≠ 0 ∧ 7 • gen1 ≠ 0 ∧ (r - 1) • gen1 ≠ 0 ∧ r • gen1 = 0 := by
  refine ⟨gen1_ne, ?_, ?_, r_gen1⟩ <;> rw [Ne, smul_gen1_zero] <;> norm_num [r]

/-! ## C81: the fields -/

/-- **C81**, the prime field. For every two representations with normalised limbs and an excess of at
most `2^18`, each operation returns without overflow and denotes exactly the field operation, with the
limb and excess bounds shown. -/
theorem C81_fp (f g : FP) (v w : Fp) (hf : FP.Ok f 1 (2 ^ 18) v) (hg : FP.Ok g 1 (2 ^ 18) w) :
    (∃ r, f.add g = some r ∧ FP.Ok r 2 (2 ^ 19) (v + w)) ∧
    (∃ r, f.sub g = some r ∧ FP.Ok r 3 (3 * 2 ^ 18) (v - w)) ∧
    (∃ r, f.neg = some r ∧ FP.Ok r 2 (2 ^ 19) (-v)) ∧
    (∃ r, f.mul g = some r ∧ FP.Ok r 1 2 (v * w)) ∧
    (∃ r, f.sqr = some r ∧ FP.Ok r 1 2 (v ^ 2)) ∧
    (∃ r, f.div2 = some r ∧ FP.Ok r 1 (2 ^ 18) (v / 2)) ∧
    (∃ r, f.inverse = some r ∧ FP.Can r v⁻¹) ∧
    (∃ r, f.reduce = some r ∧ FP.Can r v) ∧
    (∃ e f' g', f.equals g = some (e, f', g') ∧ (e = true ↔ v = w)) := by
  refine ⟨?_, ?_, ?_, ?_, ?_, ?_, ?_, ?_, ?_⟩
  · exact (FP.add_wp hf hg (by norm_num)).mono fun _ h => h.cast (by norm_num) (by norm_num) rfl
  · exact (FP.sub_wp hf hg (by norm_num)).mono fun _ h => h.cast (by norm_num) (by norm_num) rfl
  · exact (FP.neg_wp hf (by norm_num)).mono fun _ h => h.cast (by norm_num) (by norm_num) rfl
  · exact FP.mul_wp hf hg (by norm_num)
  · rw [pow_two]; exact FP.sqr_wp hf (by norm_num)
  · exact FP.div2_wp hf (by norm_num)
  · exact FP.inverse_wp hf (by norm_num)
  · exact FP.reduce_wp hf (by norm_num)
  · obtain ⟨⟨e, f', g'⟩, h1, h2, -⟩ := FP.equals_wp hf hg (by norm_num)
    exact ⟨e, f', g', h1, h2⟩

/-- **C81**, exponents and small factors in the prime field. -/
theorem C81_fp_pow (f : FP) (v : Fp) (hf : FP.Ok f 1 (2 ^ 10) v) (e : BIG) (he : e.Nrm) (h0 : 0 ≤ e.val)
    (h1 : e.val < 2 ^ 400) (c : Int) (hc : 0 < c ∧ c ≤ 2 ^ 10) :
    (∃ r, f.pow e = some r ∧ FP.Can r.1 (v ^ e.val.toNat)) ∧
    (∃ r, f.imul c = some r ∧ FP.Ok r 1 (2 ^ 20) (v * (c : Fp))) := by
  constructor
  · exact (FP.pow_wp hf (by norm_num) he h0 h1).mono fun _ h => h.1
  · have : (2 ^ 10 : Int) * c ≤ 2 ^ 20 := by omega
    exact (FP.imul_wp hf ⟨by norm_num, by norm_num, hc.1, by omega, by omega⟩).mono fun _ h => h.mono ⟨by norm_num, by norm_num, this⟩

/-- **C81**, conversion. Every integer of at most `2^23·p` enters the field as itself, and leaves it as its
residue - `p` instead of 0 for some representations of 0. -/
theorem C81_fp_convert (x : BIG) (hx : x.Nrm) (h0 : 0 ≤ x.val) (h1 : x.val ≤ 2 ^ 23 * p) :
    ∃ f y, FP.nres x = some f ∧ FP.Ok f 1 2 (x.val : Fp) ∧ f.redc = some y ∧ y.Nrm ∧
      (y.val = x.val % p ∨ y.val = p ∧ x.val % p = 0) := by
  have hp := p_lt
  obtain ⟨f, ef, hf⟩ := FP.nres_wp (hx.lim58 h0 (by omega) |>.mono (by norm_num)) h0 h1
  obtain ⟨y, ey, ny, y0, y1, hy, -⟩ := FP.redc_wp hf (by norm_num)
  refine ⟨f, y, ef, hf, ey, ny, ?_⟩
  rw [ZMod.intCast_eq_intCast_iff] at hy
  by_cases h : y.val = p
  · right
    refine ⟨h, ?_⟩
    rw [h] at hy
    rw [← hy]
    exact Int.emod_self
  · left
    rw [← hy]
    exact (Int.emod_eq_of_lt y0 (by omega)).symm

/-- **C81**, the quadratic extension, in the same form. -/
theorem C81_fp2 (f g : FP2) (v w : Fp2) (hf : FP2.Ok f 1 (2 ^ 18) v) (hg : FP2.Ok g 1 (2 ^ 18) w) :
    (∃ r, f.add g = some r ∧ FP2.Ok r 2 (2 ^ 19) (v + w)) ∧
    (∃ r, f.sub g = some r ∧ FP2.Ok r 5 (6 * 2 ^ 18) (v - w)) ∧
    (∃ r, f.neg = some r ∧ FP2.Ok r 4 (5 * 2 ^ 18) (-v)) ∧
    (∃ r, f.conj = some r ∧ FP2.Ok r 1 (2 ^ 19) (star v)) ∧
    (∃ r, f.mul g = some r ∧ FP2.Ok r 1 3 (v * w)) ∧
    (∃ r, f.sqr = some r ∧ FP2.Ok r 1 2 (v ^ 2)) ∧
    (∃ r, f.div2 = some r ∧ FP2.Ok r 1 (2 ^ 18) (v / 2)) ∧
    (∃ r, f.times_i = some r ∧ FP2.Ok r 2 (2 ^ 19) (v * i)) ∧
    (∃ r, f.mul_ip = some r ∧ FP2.Ok r 3 (3 * 2 ^ 18) (v * (1 + i))) ∧
    (∃ r, f.inverse = some r ∧ FP2.Ok r 1 2 v⁻¹) ∧
    (∃ r, f.reduce = some r ∧ FP2.Can r v) ∧
    (∃ e f' g', f.equals g = some (e, f', g') ∧ (e = true ↔ v = w)) := by
  refine ⟨?_, ?_, ?_, ?_, ?_, ?_, ?_, ?_, ?_, ?_, ?_, ?_⟩
  · exact (FP2.add_wp hf hg (by norm_num)).mono fun _ h => h.cast (by norm_num) (by norm_num) rfl
  · exact (FP2.sub_wp hf hg (by norm_num)).mono fun _ h => h.cast (by norm_num) (by norm_num) rfl
  · exact (FP2.neg_wp hf (by norm_num)).mono fun _ h => h.cast (by norm_num) (by norm_num) rfl
  · exact (FP2.conj_wp hf (by norm_num)).mono fun _ h => h.cast (by norm_num) (by norm_num) rfl
  · exact FP2.mul_wp hf hg (by norm_num)
  · rw [pow_two]; exact FP2.sqr_wp hf (by norm_num)
  · exact FP2.div2_wp hf (by norm_num)
  · exact (FP2.times_i_wp hf (by norm_num)).mono fun _ h => h.cast (by norm_num) (by norm_num) rfl
  · exact (FP2.mul_ip_wp hf (by norm_num)).mono fun _ h => h.cast (by norm_num) (by norm_num) rfl
  · exact FP2.inverse_wp hf (by norm_num)
  · exact FP2.reduce_wp hf (by norm_num)
  · obtain ⟨⟨e, f', g'⟩, h1, h2⟩ := FP2.equals_wp hf hg (by norm_num)
    exact ⟨e, f', g', h1, h2.1⟩

/-- Every field element has such a representation. -/
theorem exists_fp (v : Fp) : ∃ f, FP.Ok f 1 (2 ^ 10) v := by
  obtain ⟨x, nx, vx⟩ := exists_of_nat (n := v.val) ((ZMod.val_lt v).trans (by norm_num [p]))
  have hv : (v.val : Int) < p := by exact_mod_cast ZMod.val_lt v
  have hp := p_lt
  obtain ⟨f, -, hf⟩ := FP.nres_wp (nx.lim58 (by omega) (by omega) |>.mono (by norm_num)) (by omega) (by omega)
  refine ⟨f, (hf.mono (by norm_num)).congr ?_⟩
  rw [vx]
  simp

/-- Two elements and their representations, with a product that wraps around the modulus. -/
example : ∃ f g, FP.Ok f 1 (2 ^ 18) (-1 : Fp) ∧ FP.Ok g 1 (2 ^ 18) (2 : Fp) ∧
    ∃ r, f.mul g = some r ∧ FP.Ok r 1 2 (-2) := by
  obtain ⟨f, hf⟩ := exists_fp (-1)
  obtain ⟨g, hg⟩ := exists_fp 2
  have hf := hf.mono (L' := 1) (E' := 2 ^ 18) (by norm_num)
  have hg := hg.mono (L' := 1) (E' := 2 ^ 18) (by norm_num)
  obtain ⟨r, e, hr⟩ := (C81_fp f g _ _ hf hg).2.2.2.1
  exact ⟨f, g, hf, hg, r, e, hr.congr (by norm_num)⟩



/-- **C81.** The symbol routine ends on every field element and returns the quadratic character: 0 at 0,
1 at the other squares, -1 elsewhere. -/
theorem C81_jacobi (f : FP) (v : Fp) (hf : FP.Ok f 1 (2 ^ 18) v) :
    f.jacobi = some (quadraticChar Fp v) ∧
      (quadraticChar Fp v = 0 ↔ v = 0) ∧ (quadraticChar Fp v = 1 ↔ v ≠ 0 ∧ IsSquare v) := by
  obtain ⟨j, e, hj⟩ := FP.jacobi_wp hf (by norm_num)
  obtain ⟨j', e', hj'⟩ := FP.jacobi_one hf (by norm_num)
  rw [e] at e'
  cases e'
  subst hj
  exact ⟨e, quadraticChar_eq_zero_iff, hj'⟩

/-- **C81.** The square root routine returns a square root of every square. -/
theorem C81_sqrt (f : FP) (v : Fp) (hf : FP.Ok f 1 (2 ^ 18) v) (hv : IsSquare v) :
    ∃ r f' u, f.sqrt = some (r, f') ∧ FP.Can r u ∧ u ^ 2 = v := by
  obtain ⟨⟨r, f'⟩, e, h, -⟩ := FP.sqrt_wp hf (by norm_num)
  exact ⟨r, f', _, e, h, FP.sqrt_pow hv⟩

/-- **C81.** In the quadratic extension the routine says `true` only with a correct root. It says `false`
exactly for the elements that are not squares and for the real elements that are not squares in the prime
field, although those are squares in the extension. -/
theorem C81_sqrt2 (f : FP2) (v : Fp2) (hf : FP2.Ok f 1 (2 ^ 18) v) :
    ∃ b g, f.sqrt = some (b, g) ∧ (b = true → ∃ u, FP2.Ok g 1 2 u ∧ u ^ 2 = v) ∧
      (b = false ↔ ¬ IsSquare v ∨ v.im = 0 ∧ ¬ IsSquare v.re) := by
  obtain ⟨⟨b, g⟩, e, h1, h2⟩ := FP2.sqrt_wp hf (by norm_num)
  dsimp only at h1 h2
  refine ⟨b, g, e, ?_, ?_⟩
  · intro hb
    obtain ⟨u, hu, hu', -⟩ := h2 hb
    exact ⟨u, hu, by rw [pow_two, hu']⟩
  · rw [← Bool.not_eq_true, h1]
    tauto

/-- Minus one has no root in the prime field; as a real element of the extension it does, but the routine
answers `false`. -/
example : ¬ IsSquare (-1 : Fp) ∧ IsSquare (-1 : Fp2) ∧
    ∃ f g, FP2.Ok f 1 (2 ^ 18) (-1) ∧ f.sqrt = some (false, g) := by
  have h1 : ¬ IsSquare (-1 : Fp) := by
    rw [ZMod.exists_sq_eq_neg_one_iff]
    norm_num [p]
  obtain ⟨a, ha⟩ := exists_fp (-1)
  obtain ⟨b, hb⟩ := exists_fp 0
  have hf : FP2.Ok ⟨a, b⟩ 1 (2 ^ 18) (-1) := by
    refine ⟨(ha.mono (by norm_num)).congr ?_, (hb.mono (by norm_num)).congr ?_⟩
    · simp [QuadraticAlgebra.re_one]
    · simp [QuadraticAlgebra.im_one]
  refine ⟨h1, ⟨i, ?_⟩, ⟨a, b⟩, ?_⟩
  · ext <;> simp [i, QuadraticAlgebra.re_one, QuadraticAlgebra.im_one]
  · obtain ⟨b, g, e, -, h⟩ := C81_sqrt2 ⟨a, b⟩ _ hf
    have : b = false := by
      rw [h]
      right
      constructor
      · simp [QuadraticAlgebra.im_one]
      · simpa [QuadraticAlgebra.re_one] using h1
    subst this
    exact ⟨g, hf, e⟩

/-! ## C82: the two groups -/

/-- **C82**: addition, doubling, subtraction and negation on the curve, for all points, with infinity and with `P = ±Q`. -/
theorem C82_add (P Q : ECP) (g h : G1) (hP : P.Rep g) (hQ : Q.Rep h) :
    (∃ R, P.add Q = some R ∧ R.Rep (g + h)) ∧ (∃ R, P.dbl = some R ∧ R.Rep (g + g)) ∧
    (∃ R, P.sub Q = some R ∧ R.Rep (g - h)) ∧ ∃ R, P.neg = some R ∧ R.Ok (2 ^ 11) (-g) :=
  ⟨(ECP.add_wp (hP.mono (by norm_num)) (hQ.mono (by norm_num))).mono fun _ h => h.mono (by norm_num),
    (ECP.dbl_wp (hP.mono (by norm_num))).mono fun _ h => h.mono (by norm_num),
    (ECP.sub_wp (hP.mono (by norm_num)) (hQ.mono (by norm_num))).mono fun _ h => h.mono (by norm_num),
    (ECP.neg_wp hP (by norm_num)).mono fun _ h => h.mono (by norm_num)⟩

/-- **C82**: the same on the twist. -/
theorem C82_add2 (P Q : ECP2) (g h : G2) (hP : P.Rep g) (hQ : Q.Rep h) :
    (∃ R, P.add Q = some R ∧ R.Rep (g + h)) ∧ (∃ R, P.dbl = some R ∧ R.Rep (g + g)) ∧
    (∃ R, P.sub Q = some R ∧ R.Rep (g - h)) ∧ ∃ R, P.neg = some R ∧ R.Ok (5 * 2 ^ 10) (-g) :=
  ⟨(ECP2.add_wp (hP.mono (by norm_num)) (hQ.mono (by norm_num))).mono fun _ h => h.mono (by norm_num),
    (ECP2.dbl_wp (hP.mono (by norm_num))).mono fun _ h => h.mono (by norm_num),
    (ECP2.sub_wp (hP.mono (by norm_num)) (hQ.mono (by norm_num))).mono fun _ h => h.mono (by norm_num),
    (ECP2.neg_wp hP (by norm_num)).mono fun _ h => h.mono (by norm_num)⟩

/-- **C82**: the tests for infinity and for equality. -/
theorem C82_tests (P Q : ECP) (g h : G1) (P' Q' : ECP2) (g' h' : G2) (hP : P.Rep g) (hQ : Q.Rep h) (hP' : P'.Rep g') (hQ' : Q'.Rep h') :
    (∃ b, P.is_infinity = some b ∧ (b = true ↔ g = 0)) ∧ (∃ b, P.equals Q = some b ∧ (b = true ↔ g = h)) ∧
    (∃ b, P'.is_infinity = some b ∧ (b = true ↔ g' = 0)) ∧ ∃ b, P'.equals Q' = some b ∧ (b = true ↔ g' = h') :=
  ⟨ECP.is_infinity_wp hP (by norm_num), ECP.equals_wp hP hQ (by norm_num), ECP2.is_infinity_wp hP' (by norm_num),
    ECP2.equals_wp hP' hQ' (by norm_num)⟩

/-- **C82**: `affine` changes the representation only. The new last coordinate is 1, unless the point is infinity. -/
theorem C82_affine (P : ECP) (g : G1) (P' : ECP2) (g' : G2) (hP : P.Rep g) (hP' : P'.Rep g') :
    (∃ R, P.affine = some R ∧ R.Rep g ∧ (g ≠ 0 → FP.Can R.z 1)) ∧
    ∃ R, P'.affine = some R ∧ R.Rep g' ∧ (g' ≠ 0 → R.z.toF = 1) := by
  obtain ⟨R, e, h1, -, h2, -⟩ := ECP.affine_wp hP (by norm_num)
  obtain ⟨S, e', h3, -, h4, -⟩ := ECP2.affine_wp hP' (by norm_num)
  exact ⟨⟨R, e, h1, h2⟩, S, e', h3, h4⟩

/-- **C82**: multiplication by every number below `2^403`, also one that is not reduced modulo `r`; the point need not be in the
subgroup of order `r`. -/
theorem C82_mul (P : ECP) (g : G1) (P' : ECP2) (g' : G2) (hP : P.Rep g) (hP' : P'.Rep g') (e : BIG) (he : e.Nrm) (h0 : 0 ≤ e.val)
    (h1 : e.val < 2 ^ 403) :
    (∃ R, P.mul e = some R ∧ R.Rep (e.val • g)) ∧ ∃ R, P'.mul e = some R ∧ R.Rep (e.val • g') := by
  obtain ⟨R, e1, hR⟩ := ECP.mul_wp hP he h0 h1
  obtain ⟨S, e2, hS⟩ := ECP2.mul_wp hP' he h0 h1
  exact ⟨⟨R, e1, hR.1⟩, S, e2, hS.1⟩

/-- Every point of the two curves has a representation, and only one point has a given one. -/
theorem C82_points (g h : G1) (g' h' : G2) : (∃ P : ECP, P.Rep g) ∧ (∃ P : ECP2, P.Rep g') ∧
    (∀ P : ECP, P.Rep g → P.Rep h → g = h) ∧ ∀ P : ECP2, P.Rep g' → P.Rep h' → g' = h' :=
  ⟨ECP.exists_rep g, ECP2.exists_rep g', fun _ => ECP.Rep.inj, fun _ => ECP2.Rep.inj⟩

/-- With the generator: `r` times it is infinity, and the test says so. -/
example : ∃ P R, ECP.generator = some P ∧ P.mul rom.CURVE_ORDER = some R ∧ R.is_infinity = some true := by
  obtain ⟨P, e, hP⟩ := C80_generators.1
  have hv := C80_constants.2.1
  obtain ⟨P', hP'⟩ := ECP2.exists_rep 0
  obtain ⟨⟨R, e1, hR⟩, -⟩ := C82_mul P gen1 P' 0 hP hP' rom.CURVE_ORDER (by constructor <;> norm_num [rom.CURVE_ORDER])
    (by rw [hv]; norm_num [r]) (by rw [hv]; norm_num [r])
  rw [hv, natCast_zsmul, r_gen1] at hR
  obtain ⟨b, e2, h⟩ := (C82_tests R R 0 0 P' P' 0 0 hR hR hP' hP').1
  rw [h.2 rfl] at e2
  exact ⟨P, R, e, e1, e2⟩

end Props.B383
