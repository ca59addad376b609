import Verif.Proof.B383.Fp12
import Verif.Proof.BigMore
/-!
# Squaring and powers in the cyclotomic subgroup
-/

set_option exponentiation.threshold 2000

namespace Spec.B383

/-- The cyclotomic subgroup, and zero: `z^(p⁴) z = z^(p²)`. -/
def Cyc (z : Fp12) : Prop := φ (φ (φ (φ z))) * z = φ (φ z)

theorem Cyc.one : Cyc 1 := by simp [Cyc]

theorem Cyc.mul {z w : Fp12} (h1 : Cyc z) (h2 : Cyc w) : Cyc (z * w) := by
  unfold Cyc at *
  simp only [map_mul]
  linear_combination φ (φ w) * h1 + φ (φ (φ (φ z))) * z * h2

theorem Cyc.inv {z : Fp12} (h1 : Cyc z) : Cyc z⁻¹ := by
  unfold Cyc at *
  simp only [map_inv₀]
  rw [← mul_inv, h1]

theorem Cyc.pow {z : Fp12} (hz : Cyc z) (n : Nat) : Cyc (z ^ n) := by
  induction n with
  | zero => rw [pow_zero]; exact Cyc.one
  | succ n ih => rw [pow_succ]; exact ih.mul hz

theorem Cyc.frob {z : Fp12} (hz : Cyc z) : Cyc (φ z) := by
  unfold Cyc at *
  rw [← map_mul, hz]

/-- Conjugation is inversion. -/
theorem Cyc.conj {z : Fp12} (h1 : Cyc z) : τ z = z⁻¹ := by
  by_cases h0 : z = 0
  · rw [h0, map_zero, inv_zero]
  unfold Cyc at h1
  have h2 := congrArg (fun z => φ (φ z)) h1
  simp only [map_mul] at h2
  apply eq_inv_of_mul_eq_one_left
  change φ (φ (φ (φ (φ (φ z))))) * z = 1
  have hn : φ (φ z) ≠ 0 := (map_ne_zero φ).2 ((map_ne_zero φ).2 h0)
  apply mul_left_cancel₀ hn
  rw [mul_one]
  calc φ (φ z) * (φ (φ (φ (φ (φ (φ z))))) * z) = φ (φ (φ (φ (φ (φ z))))) * φ (φ z) * z := by ring
    _ = φ (φ (φ (φ z))) * z := by rw [h2]
    _ = _ := h1

/-- The power by `(p⁶ - 1)(p² + 1)` lies in the cyclotomic subgroup or is zero. -/
theorem Cyc.easy (v : Fp12) : Cyc (φ (φ (τ v * v⁻¹)) * (τ v * v⁻¹)) := by
  by_cases h0 : v = 0
  · rw [h0]; simp [Cyc]
  have hn : ∀ z : Fp12, z ≠ 0 → φ z ≠ 0 := fun z h => (map_ne_zero φ).2 h
  have ht : φ (φ (φ (φ (φ (φ v))))) = τ v := rfl
  have ht' : φ (φ (φ (φ (φ (φ (τ v)))))) = v := ττ v
  have h1 : τ v ≠ 0 := (map_ne_zero τ).2 h0
  unfold Cyc
  simp only [map_mul, map_inv₀, ht, ht']
  have h2 := hn _ (hn _ h0)
  have h3 := hn _ (hn _ h2)
  field_simp

/-- The coordinates of an element of the cyclotomic subgroup. -/
theorem Cyc.coords {a b c : Fp4} (h : Cyc (ι4 a + ι4 b * W + ι4 c * W ^ 2)) :
    b * c * V = a * a - star a ∧ a * b = star b + c * c * V ∧ a * c = b * b - star c := by
  have h1 : _ = _ := h
  have hz : ι4 (algebraMap Fp Fp4 ζ) = ι1 ζ := rfl
  have hs : (algebraMap Fp Fp4 ζ) ^ 2 = algebraMap Fp Fp4 ζ - 1 := by
    rw [← map_pow, ζ_sq, map_sub, map_one]
  have hn : algebraMap Fp Fp4 ζ ≠ 0 := by
    intro h0
    rw [h0] at hs
    simp at hs
  have hφ : ∀ z, φ (φ (ι1 z)) = ι1 z := fun z => by rw [φ_ι1, φ_ι1]
  simp only [map_add, map_mul, map_pow, φφ_ι4, φφ_W, star_star, hφ] at h1
  rw [← hz] at h1
  generalize algebraMap Fp Fp4 ζ = t at *
  have h2 : ι4 (a * a + (t ^ 2 + t ^ 4) * (b * c * V)) + ι4 (a * b * (1 + t ^ 2) + c * c * V * t ^ 4) * W +
      ι4 (a * c * (1 + t ^ 4) + b * b * t ^ 2) * W ^ 2 =
      ι4 (star a) + ι4 (star b * t) * W + ι4 (star c * t ^ 2) * W ^ 2 := by
    simp only [map_add, map_mul, map_pow, map_one, ← W_cube]
    linear_combination h1
  obtain ⟨e0, e1, e2⟩ := Fp12_ext_iff.1 h2
  refine ⟨?_, ?_, ?_⟩
  · linear_combination -e0 + (b * c * V) * (t ^ 2 + t + 1) * hs
  · apply mul_left_cancel₀ hn
    linear_combination e1 - (a * b + c * c * V * (t ^ 2 + t)) * hs
  · apply mul_left_cancel₀ (pow_ne_zero 2 hn)
    linear_combination -e2 + (a * c * (t ^ 2 + t + 1)) * hs

end Spec.B383

namespace Amcl.B383

open Spec Spec.B383

seal FP4.mul FP4.sqr FP4.norm FP4.add FP4.sub FP4.dbl FP4.neg FP4.conj FP4.nconj FP4.pmul FP4.times_i FP4.inverse FP4.reduce FP4.frob FP4.equals
seal FP12.norm FP12.reduce

namespace FP12

set_option maxHeartbeats 4000000 in
/-- `usqr` squares elements of the cyclotomic subgroup. -/
theorem usqr_wp {f : FP12} {v : Fp12} (hf : Ok f 1 (2 ^ 18) v) (hv : Cyc v) :
    Wp (usqr f) fun r => Can r (v ^ 2) := by
  obtain ⟨a, b, c, ha, hb, hc, rfl⟩ := hf
  obtain ⟨e0, e1, e2⟩ := hv.coords
  unfold usqr
  repeat fp4_step
  refine reduce_wp (L := 16) (E := 2 ^ 22) ⟨_, _, _, FP4.Ok.mono (by assumption) (by norm_num),
    FP4.Ok.mono (by assumption) (by norm_num), FP4.Ok.mono (by assumption) (by norm_num), ?_⟩ (by norm_num)
  have h := W_cube
  have e0 := congrArg ι4 e0
  have e1 := congrArg ι4 e1
  have e2 := congrArg ι4 e2
  simp only [map_add, map_mul, map_neg, map_sub, ← h] at e0 e1 e2 ⊢
  linear_combination 2 * e0 + 2 * W * e1 + 2 * W ^ 2 * e2

/-- The exponent reached after the digits above position `j` of the recoding `3n - n`. -/
def naf (n j : Nat) : Nat := 3 * n / 2 ^ j - n / 2 ^ j

theorem naf_step (n j : Nat) :
    (naf n j : Int) = 2 * naf n (j + 1) + ((3 * n / 2 ^ j % 2 : Nat) - (n / 2 ^ j % 2 : Nat) : Int) := by
  have h1 : n / 2 ^ j ≤ 3 * n / 2 ^ j := Nat.div_le_div_right (by omega)
  have h2 : n / 2 ^ (j + 1) ≤ 3 * n / 2 ^ (j + 1) := Nat.div_le_div_right (by omega)
  rw [naf, naf, Nat.cast_sub h1, Nat.cast_sub h2, pow_succ, ← Nat.div_div_eq_div_mul, ← Nat.div_div_eq_div_mul]
  omega

theorem naf_one (n : Nat) : naf n 1 = n := by rw [naf]; omega

/-- The number of digits `-1` at positions `1, …, i`. -/
def negs (n : Nat) : Nat → Nat
  | 0 => 0
  | i + 1 => (if 3 * n / 2 ^ (i + 1) % 2 = 0 ∧ n / 2 ^ (i + 1) % 2 = 1 then 1 else 0) + negs n i

theorem powLoop_wp {e3 e1 : BIG} {n : Nat} (h1 : e1.Nrm) (v1 : e1.val = n) (h3 : e3.Nrm)
    (v3 : e3.val = (3 * n : Nat)) (hn : 3 * n < 2 ^ 406) {v : Fp12} (hv : Cyc v) :
    ∀ (i : Nat) (w r : FP12) (E : Int), i < 405 → 1 ≤ E → E * 25 ^ negs n i ≤ 2 ^ 16 → Ok r 1 E v →
      Ok w 1 (2 ^ 12) (v ^ naf n (i + 1)) → Wp (powLoop e3 e1 i w r) fun z => Ok z 1 (2 ^ 12) (v ^ n) := by
  intro i
  induction i with
  | zero =>
    intro w r E _ _ _ _ hw
    rw [naf_one] at hw
    exact Wp.ret hw
  | succ i ih =>
    intro w r E hi hE hneg hr hw
    unfold powLoop
    have hpos : (1:Int) ≤ 25 ^ negs n i := one_le_pow₀ (by norm_num)
    have step := naf_step n (i + 1)
    have d3 : ((3 * n : Nat) : Int) / 2 ^ (i + 1) % 2 = ((3 * n / 2 ^ (i + 1) % 2 : Nat) : Int) := by push_cast; rfl
    have d1 : (n : Int) / 2 ^ (i + 1) % 2 = ((n / 2 ^ (i + 1) % 2 : Nat) : Int) := by push_cast; rfl
    refine Wp.bind (usqr_wp (hw.mono (by norm_num)) (hv.pow _)) fun w hw => ?_
    rw [BIG.bit_wp h3 (by omega) (by omega) (by omega), BIG.bit_wp h1 (by omega) (by omega) (by omega), v1, v3,
      d3, d1]
    rw [negs] at hneg
    have b3 : 3 * n / 2 ^ (i + 1) % 2 < 2 := Nat.mod_lt _ (by norm_num)
    have b1 : n / 2 ^ (i + 1) % 2 < 2 := Nat.mod_lt _ (by norm_num)
    generalize hx : 3 * n / 2 ^ (i + 1) % 2 = x at *
    generalize hy : n / 2 ^ (i + 1) % 2 = y at *
    simp only [Option.bind_eq_bind, Option.bind_some]
    have hle : E ≤ E * 25 ^ negs n i := le_mul_of_one_le_right (by omega) hpos
    split
    · next hd =>
      rw [if_neg (by omega), zero_add] at hneg
      refine Wp.bind (mul_wp (hw.ok.mono (by norm_num)) (hr.mono (by omega))) fun w' hw' => ?_
      refine ih w' r E (by omega) hE hneg hr (hw'.congr ?_)
      have : naf n (i + 1) = naf n (i + 1 + 1) * 2 + 1 := by omega
      rw [this, ← pow_mul, ← pow_succ]
    · split
      · next hd =>
        rw [if_pos (by omega), pow_add, pow_one] at hneg
        have hle' : 25 * E ≤ 2 ^ 16 := by nlinarith
        refine Wp.bind (conj_wp hr (by omega)) fun r' hr' => ?_
        refine Wp.bind (mul_wp (hw.ok.mono (by norm_num)) (hr'.mono (by omega))) fun w' hw' => ?_
        refine Wp.bind (conj_wp hr' (by omega)) fun r'' hr'' => ?_
        refine ih w' r'' (5 * (5 * E)) (by omega) (by omega) (by linarith) (hr''.congr (ττ v)) (hw'.congr ?_)
        have : naf n (i + 1 + 1) * 2 = naf n (i + 1) + 1 := by omega
        have h0 : naf n (i + 1) ≠ 0 := by omega
        rw [hv.conj, ← pow_mul, this, pow_succ]
        by_cases hv0 : v = 0
        · rw [hv0, zero_pow h0]; simp
        · rw [mul_assoc, mul_inv_cancel₀ hv0, mul_one]
      · next hd hd' =>
        have hxy : x = y := by omega
        rw [if_neg (by omega), zero_add] at hneg
        refine ih w r E (by omega) hE hneg hr ((hw.ok.mono (by norm_num)).congr ?_)
        have : naf n (i + 1) = naf n (i + 1 + 1) * 2 := by omega
        rw [this, pow_mul]

/-- `pow` in the cyclotomic subgroup, for a nonzero exponent with few digits `-1`. -/
theorem pow_wp {f : FP12} {e : BIG} {n : Nat} {v : Fp12} (hf : Ok f 1 (2 ^ 12) v) (hv : Cyc v) (he : e.Lim (2 ^ 62))
    (ve : e.val = n) (h0 : 0 < n) (h1 : 3 * n < 2 ^ 400) (h2 : 25 ^ negs n ((3 * n).size - 2) ≤ 2 ^ 4) :
    Wp (pow f e) fun r => Can r (v ^ n) := by
  unfold pow
  refine Wp.bind (norm_wp hf (by norm_num)) fun r hr => ?_
  refine Wp.bind (BIG.norm_wp he) ?_
  rintro e1 ⟨n1, v1⟩
  refine Wp.bind (BIG.pmul_wp (n1.lim (by omega) (by omega) (by norm_num)) (c := 3) ⟨by norm_num, by norm_num⟩ (by omega) (by omega)) ?_
  rintro e3 ⟨n3, v3⟩
  refine Wp.bind (BIG.norm_wp (n3.lim (by omega) (by omega) (by norm_num))) ?_
  rintro e3' ⟨n3', v3'⟩
  rw [v3] at v3'
  have v3'' : e3'.val = (3 * n : Nat) := by push_cast; omega
  refine Wp.bind (BIG.nbits_wp (n3'.lim (by omega) (by omega) (by norm_num)) (by omega)) ?_
  rintro nb hnb
  rw [v3'', Int.toNat_natCast] at hnb
  have hs0 : 2 ≤ (3 * n).size := by
    by_contra h
    have : 3 * n < 2 ^ (3 * n).size := Nat.lt_size_self _
    have : 2 ^ (3 * n).size ≤ 2 ^ 1 := Nat.pow_le_pow_right (by norm_num) (by omega)
    omega
  have hs1 : (3 * n).size ≤ 400 := Nat.size_le.2 h1
  subst hnb
  rw [if_neg (by omega)]
  simp only [Option.bind_eq_bind]
  have htop : naf n ((3 * n).size - 2 + 1) = 1 := by
    obtain ⟨s, hs⟩ : ∃ s, (3 * n).size = s + 1 := ⟨(3 * n).size - 1, by omega⟩
    rw [hs, show s + 1 - 2 + 1 = s by omega, naf]
    have h3 : 3 * n < 2 ^ (s + 1) := hs ▸ Nat.lt_size_self _
    have h4 : 2 ^ s ≤ 3 * n := by
      by_contra hc
      have := Nat.size_le.2 (not_le.1 hc)
      omega
    have h5 : 3 * n / 2 ^ s = 1 := by
      rw [pow_succ] at h3
      exact Nat.div_eq_of_lt_le (by omega) (by omega)
    have h6 : n / 2 ^ s = 0 := Nat.div_eq_of_lt (by rw [pow_succ] at h3; omega)
    rw [h5, h6]
  refine Wp.bind (powLoop_wp n1 (v1.trans ve) n3' v3'' (by omega) hv _ _ _ (2 ^ 12) (by omega) (by norm_num) ?_ hr
    ((hr.mono (by norm_num)).congr (by rw [htop, pow_one]))) fun w hw => ?_
  · have h2' : (25 : Int) ^ negs n ((3 * n).size - 2) ≤ 2 ^ 4 := by exact_mod_cast h2
    omega
  · exact reduce_wp hw (by norm_num)

end FP12

end Amcl.B383
