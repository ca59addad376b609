import Verif.Proof.Fp2Sqrt
import Verif.Proof.Reach
/-!
# Properties C30, C33: field arithmetic

`FP.Ok f L E v` says that the representation `f` denotes the field element `v` (its limb value is
`v·2^406` modulo `p`), that its limbs are at most `L·2^58` in absolute value (for `L = 1`: that they are
base-`2^58` digits), and that its excess counter is between 1 and `E` and really bounds its value in
multiples of `p`. A result `some r` of the model means that no 64-bit or 128-bit operation on the way
overflowed, so that debug and release builds agree.
-/

set_option exponentiation.threshold 2000

namespace Props

open Amcl Spec

/-! ### C30 -/

/-- **C30**, the prime field. For every two representations with normalised limbs and an excess of at
most `2^20`, each operation returns without overflow and denotes exactly the field operation, with the
limb and excess bounds shown. -/
theorem C30_fp (f g : FP) (v w : Fp) (hf : FP.Ok f 1 (2 ^ 20) v) (hg : FP.Ok g 1 (2 ^ 20) w) :
    (∃ r, f.add g = some r ∧ FP.Ok r 2 (2 ^ 21) (v + w)) ∧
    (∃ r, f.sub g = some r ∧ FP.Ok r 3 (3 * 2 ^ 20) (v - w)) ∧
    (∃ r, f.neg = some r ∧ FP.Ok r 2 (2 ^ 21) (-v)) ∧
    (∃ r, f.mul g = some r ∧ FP.Ok r 1 2 (v * w)) ∧
    (∃ r, f.sqr = some r ∧ FP.Ok r 1 2 (v ^ 2)) ∧
    (∃ r, f.div2 = some r ∧ FP.Ok r 1 (2 ^ 20) (v / 2)) ∧
    (∃ r, f.inverse = some r ∧ FP.Can r v⁻¹) ∧
    (∃ r, f.reduce = some r ∧ FP.Can r v) ∧
    (∃ e f' g', f.equals g = some (e, f', g') ∧ (e = true ↔ v = w)) := by
  refine ⟨?_, ?_, ?_, ?_, ?_, ?_, ?_, ?_, ?_⟩
  · exact (FP.add_wp hf hg (by norm_num)).mono fun _ h => h.cast (by norm_num) (by norm_num) rfl
  · exact (FP.sub_wp hf hg (by norm_num)).mono fun _ h => h.cast (by norm_num) (by norm_num) rfl
  · exact (FP.neg_wp hf (by norm_num)).mono fun _ h => h.cast (by norm_num) (by norm_num) rfl
  · exact FP.mul_wp hf hg (by norm_num)
  · rw [pow_two]; exact FP.sqr_wp hf (by norm_num)
  · exact FP.div2_wp hf (by norm_num)
  · exact FP.inverse_wp hf (by norm_num)
  · exact FP.reduce_wp hf (by norm_num)
  · obtain ⟨⟨e, f', g'⟩, h1, h2, -⟩ := FP.equals_wp hf hg (by norm_num)
    exact ⟨e, f', g', h1, h2⟩

/-- **C30**, exponents and small factors in the prime field. -/
theorem C30_fp_pow (f : FP) (v : Fp) (hf : FP.Ok f 1 (2 ^ 10) v) (e : BIG) (he : e.Nrm) (h0 : 0 ≤ e.val)
    (h1 : e.val < 2 ^ 400) (c : Int) (hc : 0 < c ∧ c ≤ 2 ^ 10) :
    (∃ r, f.pow e = some r ∧ FP.Can r.1 (v ^ e.val.toNat)) ∧
    (∃ r, f.imul c = some r ∧ FP.Ok r 1 (2 ^ 20) (v * (c : Fp))) := by
  constructor
  · exact (FP.pow_wp hf (by norm_num) he h0 h1).mono fun _ h => h.1
  · have : (2 ^ 10 : Int) * c ≤ 2 ^ 20 := by omega
    exact (FP.imul_wp hf ⟨by norm_num, by norm_num, hc.1, by omega, by omega⟩).mono fun _ h => h.mono ⟨by norm_num, by norm_num, this⟩

/-- **C30**, conversion. Every integer of at most `2^25·p` enters the field as itself, and leaves it as its
residue - `p` instead of 0 for some representations of 0. -/
theorem C30_fp_convert (x : BIG) (hx : x.Nrm) (h0 : 0 ≤ x.val) (h1 : x.val ≤ 2 ^ 25 * p) :
    ∃ f y, FP.nres x = some f ∧ FP.Ok f 1 2 (x.val : Fp) ∧ f.redc = some y ∧ y.Nrm ∧
      (y.val = x.val % p ∨ y.val = p ∧ x.val % p = 0) := by
  have hp := p_lt
  obtain ⟨f, ef, hf⟩ := FP.nres_wp (hx.lim58 h0 (by omega) |>.mono (by norm_num)) h0 h1
  obtain ⟨y, ey, ny, y0, y1, hy, -⟩ := FP.redc_wp hf (by norm_num)
  refine ⟨f, y, ef, hf, ey, ny, ?_⟩
  rw [ZMod.intCast_eq_intCast_iff] at hy
  by_cases h : y.val = p
  · right
    refine ⟨h, ?_⟩
    rw [h] at hy
    rw [← hy]
    exact Int.emod_self
  · left
    rw [← hy]
    exact (Int.emod_eq_of_lt y0 (by omega)).symm

/-- **C30**, the quadratic extension, in the same form. -/
theorem C30_fp2 (f g : FP2) (v w : Fp2) (hf : FP2.Ok f 1 (2 ^ 20) v) (hg : FP2.Ok g 1 (2 ^ 20) w) :
    (∃ r, f.add g = some r ∧ FP2.Ok r 2 (2 ^ 21) (v + w)) ∧
    (∃ r, f.sub g = some r ∧ FP2.Ok r 5 (6 * 2 ^ 20) (v - w)) ∧
    (∃ r, f.neg = some r ∧ FP2.Ok r 4 (5 * 2 ^ 20) (-v)) ∧
    (∃ r, f.conj = some r ∧ FP2.Ok r 1 (2 ^ 21) (star v)) ∧
    (∃ r, f.mul g = some r ∧ FP2.Ok r 1 3 (v * w)) ∧
    (∃ r, f.sqr = some r ∧ FP2.Ok r 1 2 (v ^ 2)) ∧
    (∃ r, f.div2 = some r ∧ FP2.Ok r 1 (2 ^ 20) (v / 2)) ∧
    (∃ r, f.times_i = some r ∧ FP2.Ok r 2 (2 ^ 21) (v * i)) ∧
    (∃ r, f.mul_ip = some r ∧ FP2.Ok r 3 (3 * 2 ^ 20) (v * (1 + i))) ∧
    (∃ r, f.inverse = some r ∧ FP2.Ok r 1 2 v⁻¹) ∧
    (∃ r, f.reduce = some r ∧ FP2.Can r v) ∧
    (∃ e f' g', f.equals g = some (e, f', g') ∧ (e = true ↔ v = w)) := by
  refine ⟨?_, ?_, ?_, ?_, ?_, ?_, ?_, ?_, ?_, ?_, ?_, ?_⟩
  · exact (FP2.add_wp hf hg (by norm_num)).mono fun _ h => h.cast (by norm_num) (by norm_num) rfl
  · exact (FP2.sub_wp hf hg (by norm_num)).mono fun _ h => h.cast (by norm_num) (by norm_num) rfl
  · exact (FP2.neg_wp hf (by norm_num)).mono fun _ h => h.cast (by norm_num) (by norm_num) rfl
  · exact (FP2.conj_wp hf (by norm_num)).mono fun _ h => h.cast (by norm_num) (by norm_num) rfl
  · exact FP2.mul_wp hf hg (by norm_num)
  · rw [pow_two]; exact FP2.sqr_wp hf (by norm_num)
  · exact FP2.div2_wp hf (by norm_num)
  · exact (FP2.times_i_wp hf (by norm_num)).mono fun _ h => h.cast (by norm_num) (by norm_num) rfl
  · exact (FP2.mul_ip_wp hf (by norm_num)).mono fun _ h => h.cast (by norm_num) (by norm_num) rfl
  · exact FP2.inverse_wp hf (by norm_num)
  · exact FP2.reduce_wp hf (by norm_num)
  · obtain ⟨⟨e, f', g'⟩, h1, h2⟩ := FP2.equals_wp hf hg (by norm_num)
    exact ⟨e, f', g', h1, h2.1⟩

/-- Every field element has such a representation. -/
theorem exists_fp (v : Fp) : ∃ f, FP.Ok f 1 (2 ^ 10) v := by
  obtain ⟨x, nx, vx⟩ := BIG.exists_of_nat (n := v.val) ((ZMod.val_lt v).trans (by norm_num [p]))
  have hv : (v.val : Int) < p := by exact_mod_cast ZMod.val_lt v
  have hp := p_lt
  obtain ⟨f, -, hf⟩ := FP.nres_wp (nx.lim58 (by omega) (by omega) |>.mono (by norm_num)) (by omega) (by omega)
  refine ⟨f, (hf.mono (by norm_num)).congr ?_⟩
  rw [vx]
  simp

/-- Two elements and their representations, with a product that wraps around the modulus. -/
example : ∃ f g, FP.Ok f 1 (2 ^ 20) (-1 : Fp) ∧ FP.Ok g 1 (2 ^ 20) (2 : Fp) ∧
    ∃ r, f.mul g = some r ∧ FP.Ok r 1 2 (-2) := by
  obtain ⟨f, hf⟩ := exists_fp (-1)
  obtain ⟨g, hg⟩ := exists_fp 2
  have hf := hf.mono (L' := 1) (E' := 2 ^ 20) (by norm_num)
  have hg := hg.mono (L' := 1) (E' := 2 ^ 20) (by norm_num)
  obtain ⟨r, e, hr⟩ := (C30_fp f g _ _ hf hg).2.2.2.1
  exact ⟨f, g, hf, hg, r, e, hr.congr (by norm_num)⟩

/-! ### C33 -/

/-- **C33.** The symbol routine ends on every field element and returns the quadratic character: 0 at 0,
1 at the other squares, -1 elsewhere. -/
theorem C33_jacobi (f : FP) (v : Fp) (hf : FP.Ok f 1 (2 ^ 20) v) :
    f.jacobi = some (quadraticChar Fp v) ∧
      (quadraticChar Fp v = 0 ↔ v = 0) ∧ (quadraticChar Fp v = 1 ↔ v ≠ 0 ∧ IsSquare v) := by
  obtain ⟨j, e, hj⟩ := FP.jacobi_wp hf (by norm_num)
  obtain ⟨j', e', hj'⟩ := FP.jacobi_one hf (by norm_num)
  rw [e] at e'
  cases e'
  subst hj
  exact ⟨e, quadraticChar_eq_zero_iff, hj'⟩

/-- **C33.** The square root routine returns a square root of every square. -/
theorem C33_sqrt (f : FP) (v : Fp) (hf : FP.Ok f 1 (2 ^ 20) v) (hv : IsSquare v) :
    ∃ r f' u, f.sqrt = some (r, f') ∧ FP.Can r u ∧ u ^ 2 = v := by
  obtain ⟨⟨r, f'⟩, e, h, -⟩ := FP.sqrt_wp hf (by norm_num)
  exact ⟨r, f', _, e, h, FP.sqrt_pow hv⟩

/-- **C33.** In the quadratic extension the routine says `true` only with a correct root. It says `false`
exactly for the elements that are not squares and for the real elements that are not squares in the prime
field, although those are squares in the extension. -/
theorem C33_sqrt2 (f : FP2) (v : Fp2) (hf : FP2.Ok f 1 (2 ^ 20) v) :
    ∃ b g, f.sqrt = some (b, g) ∧ (b = true → ∃ u, FP2.Ok g 1 2 u ∧ u ^ 2 = v) ∧
      (b = false ↔ ¬ IsSquare v ∨ v.im = 0 ∧ ¬ IsSquare v.re) := by
  obtain ⟨⟨b, g⟩, e, h1, h2⟩ := FP2.sqrt_wp hf (by norm_num)
  dsimp only at h1 h2
  refine ⟨b, g, e, ?_, ?_⟩
  · intro hb
    obtain ⟨u, hu, hu', -⟩ := h2 hb
    exact ⟨u, hu, by rw [pow_two, hu']⟩
  · rw [← Bool.not_eq_true, h1]
    tauto

/-- Minus one has no root in the prime field; as a real element of the extension it does, but the routine
answers `false`. -/
example : ¬ IsSquare (-1 : Fp) ∧ IsSquare (-1 : Fp2) ∧
    ∃ f g, FP2.Ok f 1 (2 ^ 20) (-1) ∧ f.sqrt = some (false, g) := by
  have h1 : ¬ IsSquare (-1 : Fp) := by
    rw [ZMod.exists_sq_eq_neg_one_iff]
    norm_num [p]
  obtain ⟨a, ha⟩ := exists_fp (-1)
  obtain ⟨b, hb⟩ := exists_fp 0
  have hf : FP2.Ok ⟨a, b⟩ 1 (2 ^ 20) (-1) := by
    refine ⟨(ha.mono (by norm_num)).congr ?_, (hb.mono (by norm_num)).congr ?_⟩
    · simp [QuadraticAlgebra.re_one]
    · simp [QuadraticAlgebra.im_one]
  refine ⟨h1, ⟨i, ?_⟩, ⟨a, b⟩, ?_⟩
  · ext <;> simp [i, QuadraticAlgebra.re_one, QuadraticAlgebra.im_one]
  · obtain ⟨b, g, e, -, h⟩ := C33_sqrt2 ⟨a, b⟩ _ hf
    have : b = false := by
      rw [h]
      right
      constructor
      · simp [QuadraticAlgebra.im_one]
      · simpa [QuadraticAlgebra.re_one] using h1
    subst this
    exact ⟨g, hf, e⟩

end Props
