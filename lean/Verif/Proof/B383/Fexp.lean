import Verif.Proof.B383.Cyclotomic
import Verif.Model.B383.Pair
import Verif.Spec.B383.Pairing
/-!
# The final exponentiation

`fexp` raises to the power `3 (p¹² - 1) / r`.
-/

set_option exponentiation.threshold 6000

namespace Spec.B383

/-- The exponent of the hard part. -/
def hardExp : Nat := 3 * ((p ^ 4 - p ^ 2 + 1) / r)

theorem finalExp_eq : finalExp = (p ^ 6 - 1) * (p ^ 2 + 1) * hardExp := by decide +kernel

theorem hardExp_ne : hardExp ≠ 0 := by decide +kernel

theorem finalExp_mul_r : finalExp * r = 3 * (p ^ 12 - 1) := by decide +kernel

theorem hardExp_eq : ((hardExp : Nat) : Int) =
    ((xPar - 1) ^ 2 : Nat) * p ^ 3 + (xPar * (xPar - 1) ^ 2 : Nat) * p ^ 2 +
      ((xPar ^ 2 - 1) * (xPar - 1) ^ 2 : Nat) * p + (xPar * (xPar ^ 2 - 1) * (xPar - 1) ^ 2 : Nat) + 3 := by
  decide +kernel

/-- The chain of `fexp` computes the hard part. -/
theorem hard_chain (s : Fp12) (n m : Nat) (hn : n = xPar) (hm : 2 * m = n) {A1 A2 A3 A4 A5 : Fp12}
    (h1 : A1 = (s ^ 2) ^ n) (h2 : A2 = A1 ^ m) (h3 : A3 = (A1 * s⁻¹)⁻¹ * A2)
    (h4 : A4 = A3 ^ n) (h5 : A5 = A4 ^ n * A3⁻¹) :
    φ (φ (φ A3)) * φ (φ A4) * (A5 ^ n * s ^ 2 * s) * φ A5 = s ^ hardExp := by
  by_cases hs : s = 0
  · rw [hs, zero_pow hardExp_ne]
    simp
  have e1 : A1 = s ^ (2 * n : Int) := by
    rw [h1, ← pow_mul, ← zpow_natCast, Nat.cast_mul, Nat.cast_ofNat]
  have e2 : A2 = s ^ (2 * n * m : Int) := by
    rw [h2, e1, ← zpow_natCast, ← zpow_mul]
  have e3 : A3 = s ^ (2 * n * m - 2 * n + 1 : Int) := by
    rw [h3, e1, e2, ← zpow_neg_one s, ← zpow_add₀ hs, ← zpow_neg, ← zpow_add₀ hs]; congr 1; ring
  have e4 : A4 = s ^ (n * (2 * n * m - 2 * n + 1) : Int) := by
    rw [h4, e3, ← zpow_natCast, ← zpow_mul]; congr 1; ring
  have e5 : A5 = s ^ ((n * n - 1) * (2 * n * m - 2 * n + 1) : Int) := by
    rw [h5, e4, e3, ← zpow_natCast, ← zpow_mul, ← zpow_neg, ← zpow_add₀ hs]; congr 1; ring
  have hφ : ∀ k : Int, φ (s ^ k) = s ^ (k * p) := fun k => by
    rw [φ_eq, ← zpow_natCast, ← zpow_mul]
  rw [e5, e4, e3]
  simp only [hφ]
  rw [← zpow_natCast _ n, ← zpow_mul, mul_assoc (s ^ (_ : Int)) (s ^ 2), ← pow_succ, ← zpow_natCast s 3,
    ← zpow_add₀ hs, ← zpow_add₀ hs, ← zpow_add₀ hs, ← zpow_add₀ hs, ← zpow_natCast s hardExp, hardExp_eq]
  have hx1 : 1 ≤ xPar := by decide +kernel
  have hx : 1 ≤ xPar ^ 2 := Nat.one_le_two_pow.trans (Nat.pow_le_pow_left (by decide +kernel) 2)
  generalize xPar = x at *
  subst hn
  congr 1
  rw [Nat.cast_mul, Nat.cast_mul, Nat.cast_mul, Nat.cast_mul, Nat.cast_sub hx]
  push_cast [Nat.cast_sub hx1]
  have hm' : (2 * m : Int) = n := by exact_mod_cast hm
  linear_combination ((p:Int)^3 * n + (p:Int) ^ 2 * n ^ 2 + ((p:Int) * (n ^ 2 - 1) * n) + n ^ 2 * (n ^ 2 - 1)) * hm'

theorem easy_eq (v : Fp12) : φ (φ (τ v * v⁻¹)) * (τ v * v⁻¹) = v ^ ((p ^ 6 - 1) * (p ^ 2 + 1)) := by
  have h1 : τ v * v⁻¹ = v ^ (p ^ 6 - 1) := by
    by_cases h0 : v = 0
    · rw [h0, zero_pow (by decide +kernel)]; simp
    · have h : 1 + (p ^ 6 - 1) = p ^ 6 := by decide +kernel
      rw [τ_eq, ← h, pow_add, pow_one, mul_comm, ← mul_assoc, inv_mul_cancel₀ h0, one_mul, h]
  rw [h1, φ_eq, φ_eq, ← pow_mul _ p p, ← pow_succ, ← pow_mul]
  congr 2

end Spec.B383

namespace Amcl.B383

open Spec Spec.B383

seal FP4.mul FP4.sqr FP4.norm FP4.add FP4.sub FP4.dbl FP4.neg FP4.conj FP4.nconj FP4.pmul FP4.times_i FP4.inverse FP4.reduce FP4.frob FP4.equals
seal FP12.norm FP12.reduce FP12.mul FP12.sqr FP12.usqr FP12.pow FP12.conj FP12.inverse FP12.frob FP12.smul FP12.equals

namespace pair

/-- Half of `CURVE_BNX`. -/
def halfBNX : BIG := ⟨0x4000000800900, 0x20, 0, 0, 0, 0, 0⟩

theorem fshr_BNX : Wp (rom.CURVE_BNX.fshr 1) fun x => x = halfBNX :=
  Wp.of_eq (by decide +kernel) rfl

theorem fshl_BNX : Wp (halfBNX.fshl 1) fun x => x = rom.CURVE_BNX :=
  Wp.of_eq (by decide +kernel) rfl

theorem negs_BNX : 25 ^ FP12.negs xPar ((3 * xPar).size - 2) ≤ 2 ^ 4 := by decide +kernel

theorem negs_half : 25 ^ FP12.negs (xPar / 2) ((3 * (xPar / 2)).size - 2) ≤ 2 ^ 4 := by decide +kernel

theorem pow_BNX {f : FP12} {v : Fp12} (hf : FP12.Ok f 1 (2 ^ 12) v) (hv : Cyc v) :
    Wp (f.pow rom.CURVE_BNX) fun r => FP12.Can r (v ^ xPar) :=
  FP12.pow_wp hf hv (by constructor <;> norm_num [rom.CURVE_BNX, halfBNX]) (by decide +kernel) (by decide +kernel) (by decide +kernel) negs_BNX

theorem pow_half {f : FP12} {v : Fp12} (hf : FP12.Ok f 1 (2 ^ 12) v) (hv : Cyc v) :
    Wp (f.pow halfBNX) fun r => FP12.Can r (v ^ (xPar / 2)) :=
  FP12.pow_wp hf hv (by constructor <;> norm_num [rom.CURVE_BNX, halfBNX]) (by decide +kernel) (by decide +kernel) (by decide +kernel) negs_half

theorem conj_cyc {f : FP12} {E : Int} {v : Fp12} (hf : FP12.Ok f 1 E v) (hv : Cyc v) (h : 1 ≤ E ∧ 5 * E ≤ 2 ^ 22) :
    Wp f.conj fun r => FP12.Ok r 1 (5 * E) v⁻¹ :=
  (FP12.conj_wp hf h).mono fun _ h => h.congr hv.conj

theorem gamma_ok : Wp (FP2.new_bigs rom.FRA rom.FRB) fun f => FP2.Ok f 1 2 γ :=
  (FP2.new_bigs_wp (by constructor <;> norm_num [rom.FRA]) (by constructor <;> norm_num [rom.FRB]) (by decide +kernel) (by decide +kernel)
    (by decide +kernel) (by decide +kernel)).mono fun _ h => h.1

/-- `fexp` raises to the power `3 (p¹² - 1) / r`. -/
theorem fexp_wp {f : FP12} {v : Fp12} (hf : FP12.Ok f 1 (2 ^ 12) v) :
    Wp (fexp f) fun r => FP12.Can r (v ^ finalExp) := by
  unfold fexp
  refine Wp.bind gamma_ok fun g hg => ?_
  refine Wp.bind (FP12.inverse_wp (hf.mono (by norm_num))) fun lv hlv => ?_
  refine Wp.bind (FP12.conj_wp hf (by norm_num)) fun r hr => ?_
  refine Wp.bind (FP12.mul_wp (hr.mono (by norm_num)) (hlv.mono (by norm_num))) fun r hr => ?_
  refine Wp.bind (FP12.frob_wp hr hg (by norm_num)) fun r1 hr1 => ?_
  refine Wp.bind (FP12.frob_wp hr1 hg (by norm_num)) fun r2 hr2 => ?_
  refine Wp.bind (FP12.mul_wp (hr2.mono (by norm_num)) (hr.mono (by norm_num))) fun r hr => ?_
  have hc := Cyc.easy v
  have hval := easy_eq v
  generalize φ (φ (τ v * v⁻¹)) * (τ v * v⁻¹) = s at *
  refine Wp.bind (FP12.usqr_wp (hr.mono (by norm_num)) hc) fun y0 h0 => ?_
  refine Wp.bind (pow_BNX (h0.ok.mono (by norm_num)) (hc.pow 2)) fun y1 h1 => ?_
  refine Wp.bind fshr_BNX ?_
  rintro _ rfl
  have c1 := (hc.pow 2).pow xPar
  generalize e1 : (s ^ 2) ^ xPar = A1 at *
  refine Wp.bind (pow_half (h1.ok.mono (by norm_num)) c1) fun y2 h2 => ?_
  have c2 := c1.pow (xPar / 2)
  generalize e2 : A1 ^ (xPar / 2) = A2 at *
  refine Wp.bind fshl_BNX ?_
  rintro _ rfl
  refine Wp.bind (conj_cyc hr hc (by norm_num)) fun y3 h3 => ?_
  refine Wp.bind (FP12.mul_wp (h1.ok.mono (by norm_num)) (h3.mono (by norm_num))) fun y1 h1 => ?_
  refine Wp.bind (conj_cyc h1 (c1.mul hc.inv) (by norm_num)) fun y1 h1 => ?_
  refine Wp.bind (FP12.mul_wp (h1.mono (by norm_num)) (h2.ok.mono (by norm_num))) fun y1 h1 => ?_
  have c3 := (c1.mul hc.inv).inv.mul c2
  generalize e3 : (A1 * s⁻¹)⁻¹ * A2 = A3 at *
  refine Wp.bind (pow_BNX h1 c3) fun y2 h2 => ?_
  have c4 := c3.pow xPar
  generalize e4 : A3 ^ xPar = A4 at *
  refine Wp.bind (pow_BNX (h2.ok.mono (by norm_num)) c4) fun y3 h3 => ?_
  refine Wp.bind (conj_cyc h1 c3 (by norm_num)) fun y1 h1 => ?_
  refine Wp.bind (FP12.mul_wp (h3.ok.mono (by norm_num)) (h1.mono (by norm_num))) fun y3 h3 => ?_
  refine Wp.bind (conj_cyc h1 c3.inv (by norm_num)) fun y1 h1 => ?_
  rw [inv_inv] at h1
  have c5 := (c4.pow xPar).mul c3.inv
  generalize e5 : A4 ^ xPar * A3⁻¹ = A5 at *
  refine Wp.bind (FP12.frob_wp h1 hg (by norm_num)) fun y1 h1 => ?_
  refine Wp.bind (FP12.frob_wp h1 hg (by norm_num)) fun y1 h1 => ?_
  refine Wp.bind (FP12.frob_wp h1 hg (by norm_num)) fun y1 h1 => ?_
  refine Wp.bind (FP12.frob_wp (h2.ok.mono (by norm_num) : FP12.Ok y2 1 (2 ^ 12) A4) hg (by norm_num)) fun y2 h2 => ?_
  refine Wp.bind (FP12.frob_wp h2 hg (by norm_num)) fun y2 h2 => ?_
  refine Wp.bind (FP12.mul_wp (h1.mono (by norm_num)) (h2.mono (by norm_num))) fun y1 h1 => ?_
  refine Wp.bind (pow_BNX h3 c5) fun y2 h2 => ?_
  refine Wp.bind (FP12.mul_wp (h2.ok.mono (by norm_num)) (h0.ok.mono (by norm_num))) fun y2 h2 => ?_
  refine Wp.bind (FP12.mul_wp (h2.mono (by norm_num)) (hr.mono (by norm_num))) fun y2 h2 => ?_
  refine Wp.bind (FP12.mul_wp (h1.mono (by norm_num)) (h2.mono (by norm_num))) fun y1 h1 => ?_
  refine Wp.bind (FP12.frob_wp h3 hg (by norm_num)) fun y2 h2 => ?_
  refine Wp.bind (FP12.mul_wp (h1.mono (by norm_num)) (h2.mono (by norm_num))) fun y1 h1 => ?_
  refine (FP12.reduce_wp h1 (by norm_num)).mono fun z hz => ?_
  rw [hard_chain s xPar (xPar / 2) rfl (by decide +kernel) e1.symm e2.symm e3.symm e4.symm e5.symm, hval,
    ← pow_mul, ← finalExp_eq] at hz
  exact hz

end pair

end Amcl.B383
