import Verif.Proof.GtpowExact
import Verif.Props.Tower
import Verif.Props.Endo
/-!
# Properties C43 - C45: the points at which multiplication with endomorphisms is right

`g1mul` and `g2mul` are right for all scalars at the points of order dividing `r`, and at no other point; `gtpow` likewise.
-/

set_option exponentiation.threshold 6000

namespace Props

open Amcl Spec

seal Spec.finalExp

/-- **C43**, exactly: at a point of the curve `g1mul` is right for all scalars below `2^403` if and only if the order of the point
divides `r`. -/
theorem C43_exact (P : ECP) (g : G1) (hP : P.Rep g) :
    (∀ e : BIG, e.Nrm → 0 ≤ e.val → e.val < 2 ^ 403 → ∃ R, pair.g1mul P e = some R ∧ R.Rep (e.val • g)) ↔ r • g = 0 := by
  constructor
  · intro h
    obtain ⟨e, he, ve⟩ := BIG.exists_of_nat (n := xAbs * xAbs) (by rw [xAbs_val]; norm_num)
    obtain ⟨R, eq, hR⟩ := h e he (by omega) (by rw [ve, xAbs_val]; norm_num)
    obtain ⟨R', eq', k, -⟩ := pair.g1mul_outside (hP.mono (by norm_num)) he ve
    rw [eq] at eq'
    obtain rfl := Option.some.inj eq'
    have k : R.Rep _ := k.mono (by norm_num)
    have := hR.inj k
    rw [ve, natCast_zsmul] at this
    exact (glv_iff g).1 this
  · intro hg e he h0 h1
    obtain ⟨R, eq, hR, -⟩ := C43_g1mul P g hP hg e he h0 h1
    exact ⟨R, eq, hR⟩

/-- **C43**, one scalar shows it: with the scalar `xAbs²` the result is right if and only if the order of the point divides `r`. -/
theorem C43_exact_one (P : ECP) (g : G1) (hP : P.Rep g) (e : BIG) (he : e.Nrm) (ve : e.val = (xAbs * xAbs : Nat)) :
    ∃ R, pair.g1mul P e = some R ∧ (R.Rep (e.val • g) ↔ r • g = 0) := by
  obtain ⟨R, eq, k, -⟩ := pair.g1mul_outside (hP.mono (by norm_num)) he ve
  have k : R.Rep _ := k.mono (by norm_num)
  rw [ve, natCast_zsmul]
  refine ⟨R, eq, fun h => (glv_iff g).1 (h.inj k), fun h => ?_⟩
  rw [(glv_iff g).2 h]
  exact k

/-- The point `(0, 2)` is outside, the generator inside. -/
example : r • (Pt.mk 0 2 order3_on : G1) ≠ 0 ∧ r • gen1 = 0 := by
  refine ⟨fun h => ?_, r_gen1⟩
  have h3 := Pt.three_smul_zero order3_on
  have : r = r / 3 * 3 + 1 := by decide +kernel
  rw [this, add_smul, mul_smul, h3, smul_zero, zero_add, one_smul] at h
  exact Pt.mk_ne _ h

/-- **C44**, the characteristic equation `ψ² - (u+1)ψ + p = 0` of the Frobenius endomorphism, `u = -0xd201000000010000`, at every
point of the twist. -/
theorem C44_frobenius_char (x y : Fp2) (h : y ^ 2 = x ^ 3 + b2) : ∃ h₁ h₂,
    (Pt.mk (star (star x / γ ^ 2) / γ ^ 2) (star (star y / γ ^ 3) / γ ^ 3) h₂ : G2) + p • Pt.mk x y h =
      (-0xd201000000010000 + 1 : Int) • Pt.mk (star x / γ ^ 2) (star y / γ ^ 3) h₁ := by
  refine ⟨psi_on h, psi_on (psi_on h), ?_⟩
  have := Frob.char_eq (Pt.mk x y h)
  rw [psi_mk, psi_mk] at this
  rw [this]
  congr 1

/-- **C44**, the eigenvalue, exactly: the endomorphism is multiplication by the curve parameter at the points of order dividing `r`
and at no other point. -/
theorem C44_eigenvalue_iff (x y : Fp2) (h : y ^ 2 = x ^ 3 + b2) : ∃ h',
    xAbs • (Pt.mk x y h : G2) = -Pt.mk (star x / γ ^ 2) (star y / γ ^ 3) h' ↔ r • (Pt.mk x y h : G2) = 0 :=
  ⟨psi_on h, psi_iff _⟩

/-- **C44**, exactly: at a point of the twist `g2mul` is right for all scalars below `2^403` if and only if the order of the point
divides `r`. -/
theorem C44_exact (P : ECP2) (g : G2) (hP : P.Ok (2 ^ 8) g) :
    (∀ e : BIG, e.Nrm → 0 ≤ e.val → e.val < 2 ^ 403 → ∃ R, pair.g2mul P e = some R ∧ R.Rep (e.val • g)) ↔ r • g = 0 := by
  constructor
  · intro h
    obtain ⟨e, he, ve⟩ := BIG.exists_of_nat (n := xAbs) (by rw [xAbs_val]; norm_num)
    obtain ⟨R, eq, hR⟩ := h e he (by omega) (by rw [ve, xAbs_val]; norm_num)
    obtain ⟨R', eq', k, -⟩ := pair.g2mul_one hP he ve
    rw [eq] at eq'
    obtain rfl := Option.some.inj eq'
    have k : R.Rep _ := k.mono (by norm_num)
    have := hR.inj k
    rw [ve, natCast_zsmul] at this
    exact (psi_iff g).1 this
  · intro hg e he h0 h1
    obtain ⟨R, eq, hR, -⟩ := C44_g2mul P g hP hg e he h0 h1
    exact ⟨R, eq, hR⟩

/-- **C44**, one scalar shows it: with the scalar `xAbs` the result is right if and only if the order of the point divides `r`. -/
theorem C44_exact_one (P : ECP2) (g : G2) (hP : P.Ok (2 ^ 8) g) (e : BIG) (he : e.Nrm) (ve : e.val = (xAbs : Nat)) :
    ∃ R, pair.g2mul P e = some R ∧ (R.Rep (e.val • g) ↔ r • g = 0) := by
  obtain ⟨R, eq, k, -⟩ := pair.g2mul_one hP he ve
  have k : R.Rep _ := k.mono (by norm_num)
  rw [ve, natCast_zsmul]
  refine ⟨R, eq, fun h => (psi_iff g).1 (h.inj k), fun h => ?_⟩
  rw [(psi_iff g).2 h]
  exact k

/-- The point over the abscissa 2 is outside: `g2mul` with the scalar `xAbs` gives another point. -/
example : ∃ P e R, ECP2.Rep P (Pt.mk _ _ two_on) ∧ BIG.Nrm e ∧ e.val = (xAbs : Nat) ∧ pair.g2mul P e = some R ∧
    ¬ R.Rep (e.val • Pt.mk _ _ two_on) := by
  obtain ⟨P, hP⟩ := exists_ok2 (Pt.mk _ _ two_on)
  obtain ⟨e, he, ve⟩ := BIG.exists_of_nat (n := xAbs) (by rw [xAbs_val]; norm_num)
  obtain ⟨R, eq, h⟩ := C44_exact_one P _ hP e he ve
  exact ⟨P, e, R, hP.mono (by norm_num), he, ve, eq, fun k => two_order (h.1 k)⟩

/-! ### C45 -/

/-- **C45**, exactly: at an element of the cyclotomic subgroup (order dividing `p⁴ - p² + 1`) `gtpow` is right for all exponents below
`2^403` if and only if the order of the element divides `r`. -/
theorem C45_exact (d : FP12) (v : Fp12) (hd : d.Ok 1 (2 ^ 12) v) (hc : v ^ (p ^ 4 - p ^ 2 + 1) = 1) :
    (∀ e : BIG, e.Nrm → 0 ≤ e.val → e.val < 2 ^ 403 → ∃ R, pair.gtpow d e = some R ∧ R.Can (v ^ e.val)) ↔ v ^ r = 1 := by
  constructor
  · intro h
    obtain ⟨g, rfl⟩ := CycG.exists_v (Cyc.of_cyclotomic hc) (Cyc.ne_zero hc)
    obtain ⟨e, he, ve⟩ := BIG.exists_of_nat (n := xAbs) (by rw [xAbs_val]; norm_num)
    obtain ⟨R, eq, hR⟩ := h e he (by omega) (by rw [ve, xAbs_val]; norm_num)
    obtain ⟨R', eq', k⟩ := pair.gtpow_one hd he ve
    rw [eq] at eq'
    obtain rfl := Option.some.inj eq'
    have := FP12.Can.inj hR k
    rw [ve, zpow_natCast, ← CycG.v_nsmul] at this
    rw [← CycG.v_nsmul, (CycG.frob_iff g (CycG.v_inj (by rw [CycG.v_nsmul, hc, CycG.v_zero]))).1 (CycG.v_inj this), CycG.v_zero]
  · intro hv e he h0 h1
    exact C45_gtpow d v hd hv e he h0 h1

/-- There are elements of the cyclotomic subgroup at which it is wrong. -/
theorem exists_cyclotomic : ∃ v : Fp12, v ^ (p ^ 4 - p ^ 2 + 1) = 1 ∧ v ^ r ≠ 1 := by
  obtain ⟨g, hg⟩ := IsCyclic.exists_ofOrder_eq_natCard (α := Fp12ˣ)
  rw [Nat.card_units, card_Fp12] at hg
  have e : p ^ 12 - 1 = (p ^ 12 - 1) / (p ^ 4 - p ^ 2 + 1) * (p ^ 4 - p ^ 2 + 1) := by decide +kernel
  refine ⟨((g ^ ((p ^ 12 - 1) / (p ^ 4 - p ^ 2 + 1)) : Fp12ˣ) : Fp12), ?_, fun h => ?_⟩
  · rw [← Units.val_pow_eq_pow_val, ← pow_mul, ← e, ← hg, pow_orderOf_eq_one, Units.val_one]
  · rw [← Units.val_pow_eq_pow_val, ← pow_mul, Units.val_eq_one] at h
    have := orderOf_dvd_of_pow_eq_one h
    rw [hg] at this
    revert this
    decide +kernel

/-- So some element of the cyclotomic subgroup, in canonical form, and some exponent give a wrong power or none. -/
example : ∃ d v e, FP12.Can d v ∧ v ^ (p ^ 4 - p ^ 2 + 1) = 1 ∧ BIG.Nrm e ∧ 0 ≤ e.val ∧ e.val < 2 ^ 403 ∧
    ¬ ∃ R, pair.gtpow d e = some R ∧ R.Can (v ^ e.val) := by
  obtain ⟨v, hv, hr⟩ := exists_cyclotomic
  obtain ⟨a, b, c, e⟩ := Fp12_exists v
  obtain ⟨fa, ha⟩ := exists_fp4 a
  obtain ⟨fb, hb⟩ := exists_fp4 b
  obtain ⟨fc, hc⟩ := exists_fp4 c
  obtain ⟨d, -, hd⟩ := FP12.reduce_wp (f := ⟨fa, fb, fc⟩) (L := 1) (E := 2 ^ 20) (v := v) ⟨a, b, c, ha, hb, hc, e⟩ (by norm_num)
  have h := (C45_exact d v (hd.ok.mono (by norm_num)) hv).not.2 hr
  push Not at h
  obtain ⟨e, he, h0, h1, h⟩ := h
  exact ⟨d, v, e, hd, hv, he, h0, h1, fun ⟨R, k1, k2⟩ => h R k1 k2⟩

end Props
