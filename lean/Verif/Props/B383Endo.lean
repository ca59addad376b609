import Verif.Proof.B383.Gtpow
import Verif.Props.B383Pairing
import Verif.Props.B383Curve
/-!
# Property C85: joint multiplication and multiplication with endomorphisms on BLS12-383
-/

set_option exponentiation.threshold 6000

namespace Props.B383

open Amcl.B383 Spec.B383
open Amcl (Wp BIG)
open Spec (Pt)

seal Spec.B383.finalExp

/-! ### C85: joint multiplication -/

/-- **C85**, `ECP::mul2`: for all points of the curve, of any order, and all scalars below `2^402`, the
result represents `e•g + f•h`, and it is in affine form unless it is infinity. -/
theorem C85_mul2 (P Q : ECP) (g h : G1) (hP : P.Rep g) (hQ : Q.Rep h) (e f : BIG) (he : e.Nrm) (e0 : 0 ≤ e.val)
    (e1 : e.val < 2 ^ 402) (hf : f.Nrm) (f0 : 0 ≤ f.val) (f1 : f.val < 2 ^ 402) :
    ∃ R, P.mul2 e Q f = some R ∧ R.Rep (e.val • g + f.val • h) ∧
      (e.val • g + f.val • h ≠ 0 → R.z.toF = 1) := by
  obtain ⟨R, eq, h1, h2⟩ := ECP.mul2_wp (hP.mono (by norm_num)) (hQ.mono (by norm_num)) he e0 e1 hf f0 f1
  exact ⟨R, eq, h1.mono (by norm_num), fun h => (h2 h).res⟩

/-- **C85**, `ECP2::mul4`: the same for four points of the twist and scalars below `2^404`. -/
theorem C85_mul4 (q0 q1 q2 q3 : ECP2) (g0 g1 g2 g3 : G2) (h0 : q0.Rep g0) (h1 : q1.Rep g1) (h2 : q2.Rep g2)
    (h3 : q3.Rep g3) (u0 u1 u2 u3 : BIG) (n0 : u0.Nrm) (n1 : u1.Nrm) (n2 : u2.Nrm) (n3 : u3.Nrm)
    (a0 : 0 ≤ u0.val ∧ u0.val < 2 ^ 404) (a1 : 0 ≤ u1.val ∧ u1.val < 2 ^ 404)
    (a2 : 0 ≤ u2.val ∧ u2.val < 2 ^ 404) (a3 : 0 ≤ u3.val ∧ u3.val < 2 ^ 404) :
    ∃ R, ECP2.mul4 q0 q1 q2 q3 u0 u1 u2 u3 = some R ∧
      R.Rep (u0.val • g0 + u1.val • g1 + u2.val • g2 + u3.val • g3) ∧
      (u0.val • g0 + u1.val • g1 + u2.val • g2 + u3.val • g3 ≠ 0 → R.z.toF = 1) := by
  have l : ∀ {u : BIG}, u.Nrm → 0 ≤ u.val ∧ u.val < 2 ^ 404 → u.Lim (2 ^ 62) :=
    fun n h => (n.lim58 h.1 (by omega)).mono (by norm_num)
  obtain ⟨R, eq, k1, k2⟩ := ECP2.mul4_wp (h0.mono (by norm_num)) (h1.mono (by norm_num)) (h2.mono (by norm_num))
    (h3.mono (by norm_num)) (l n0 a0) a0.1 a0.2 (l n1 a1) a1.1 a1.2 (l n2 a2) a2.1 a2.2 (l n3 a3) a3.1 a3.2
  exact ⟨R, eq, k1.mono (by norm_num), k2⟩

/-- **C85**, `FP12::pow4`: for four elements of the cyclotomic subgroup (the one of order `p⁴ - p² + 1`)
and exponents below `2^404`, the result is the canonical form of the product of the powers. -/
theorem C85_pow4 (q0 q1 q2 q3 : FP12) (v0 v1 v2 v3 : Fp12) (h0 : q0.Ok 1 (2 ^ 12) v0) (h1 : q1.Ok 1 (2 ^ 12) v1)
    (h2 : q2.Ok 1 (2 ^ 12) v2) (h3 : q3.Ok 1 (2 ^ 12) v3) (c0 : v0 ^ (p ^ 4 - p ^ 2 + 1) = 1)
    (c1 : v1 ^ (p ^ 4 - p ^ 2 + 1) = 1) (c2 : v2 ^ (p ^ 4 - p ^ 2 + 1) = 1) (c3 : v3 ^ (p ^ 4 - p ^ 2 + 1) = 1)
    (u0 u1 u2 u3 : BIG) (n0 : u0.Nrm) (n1 : u1.Nrm) (n2 : u2.Nrm) (n3 : u3.Nrm)
    (a0 : 0 ≤ u0.val ∧ u0.val < 2 ^ 404) (a1 : 0 ≤ u1.val ∧ u1.val < 2 ^ 404)
    (a2 : 0 ≤ u2.val ∧ u2.val < 2 ^ 404) (a3 : 0 ≤ u3.val ∧ u3.val < 2 ^ 404) :
    ∃ R, FP12.pow4 q0 q1 q2 q3 u0 u1 u2 u3 = some R ∧
      R.Can (v0 ^ u0.val * v1 ^ u1.val * v2 ^ u2.val * v3 ^ u3.val) := by
  have l : ∀ {u : BIG}, u.Nrm → 0 ≤ u.val ∧ u.val < 2 ^ 404 → u.Lim (2 ^ 62) :=
    fun n h => (n.lim58 h.1 (by omega)).mono (by norm_num)
  obtain ⟨g0, rfl⟩ := CycG.exists_v (Cyc.of_cyclotomic c0) (Cyc.ne_zero c0)
  obtain ⟨g1, rfl⟩ := CycG.exists_v (Cyc.of_cyclotomic c1) (Cyc.ne_zero c1)
  obtain ⟨g2, rfl⟩ := CycG.exists_v (Cyc.of_cyclotomic c2) (Cyc.ne_zero c2)
  obtain ⟨g3, rfl⟩ := CycG.exists_v (Cyc.of_cyclotomic c3) (Cyc.ne_zero c3)
  obtain ⟨R, eq, hR⟩ := FP12.pow4_wp (h0.mono (by norm_num)) (h1.mono (by norm_num)) (h2.mono (by norm_num))
    (h3.mono (by norm_num)) (l n0 a0) a0.1 a0.2 (l n1 a1) a1.1 a1.2 (l n2 a2) a2.1 a2.2 (l n3 a3) a3.1 a3.2
  refine ⟨R, eq, ?_⟩
  simpa only [CycG.v_add, CycG.v_zsmul] using hR

/-- A point of order 3 and the generator: `5•(0,√15) + 7•gen1`. -/
example : ∃ P Q R, ECP.Rep P (Pt.mk 0 root15 order3_on) ∧ ECP.Rep Q gen1 ∧
    P.mul2 (BIG.new_int 5) Q (BIG.new_int 7) = some R ∧ R.Rep ((5 : Int) • Pt.mk 0 root15 order3_on + (7 : Int) • gen1) := by
  obtain ⟨P, hP⟩ := ECP.exists_rep (Pt.mk 0 root15 order3_on)
  obtain ⟨Q, hQ⟩ := ECP.exists_rep gen1
  obtain ⟨R, e, h, -⟩ := C85_mul2 P Q _ _ hP hQ (BIG.new_int 5) (BIG.new_int 7)
    (BIG.new_int_nrm (by norm_num) (by norm_num)) (by norm_num [BIG.new_int_val]) (by norm_num [BIG.new_int_val])
    (BIG.new_int_nrm (by norm_num) (by norm_num)) (by norm_num [BIG.new_int_val]) (by norm_num [BIG.new_int_val])
  exact ⟨P, Q, R, hP, hQ, e, by simpa only [BIG.new_int_val] using h⟩

/-- Four times the generator, the exponents even, odd and zero. -/
example : ∃ P R, ECP2.Rep P gen2 ∧
    ECP2.mul4 P P P P (BIG.new_int 4) (BIG.new_int 0) (BIG.new_int 3) (BIG.new_int 6) = some R ∧
      R.Rep (13 • gen2) := by
  obtain ⟨P, hP⟩ := ECP2.exists_rep gen2
  have n : ∀ k : Nat, k < 100 → (BIG.new_int k).Nrm := fun k h => BIG.new_int_nrm (by omega) (by omega)
  have b : ∀ k : Nat, k < 100 → 0 ≤ (BIG.new_int k).val ∧ (BIG.new_int k).val < 2 ^ 404 := fun k h => by
    rw [BIG.new_int_val]; omega
  obtain ⟨R, e, h, -⟩ := C85_mul4 P P P P _ _ _ _ hP hP hP hP _ _ _ _ (n 4 (by norm_num)) (n 0 (by norm_num))
    (n 3 (by norm_num)) (n 6 (by norm_num)) (b 4 (by norm_num)) (b 0 (by norm_num)) (b 3 (by norm_num))
    (b 6 (by norm_num))
  refine ⟨P, R, hP, e, ?_⟩
  simp only [BIG.new_int_val] at h
  convert h using 1
  module

/-! ### C85: the first group -/

/-- **C85**, the decomposition: the two parts of a scalar below `2^384` are below `xPar²` and at most `r`, and
`u0 - xPar²·u1` is congruent to the scalar modulo `r`. -/
theorem C85_glv (e : BIG) (he : e.Nrm) (h0 : 0 ≤ e.val) (h1 : e.val < 2 ^ 384) :
    ∃ u, pair.glv e = some u ∧ 0 ≤ u.1.val ∧ u.1.val < (xPar * xPar : Nat) ∧ 0 ≤ u.2.val ∧ u.2.val ≤ r ∧
      (u.1.val - (xPar * xPar : Nat) * u.2.val) ≡ e.val [ZMOD r] := by
  obtain ⟨u, eq, -, v0, -, v1, p1⟩ := pair.glv_wp he h0 h1
  have hx : (0 : Int) < (xPar * xPar : Nat) := by rw [xPar_val]; norm_num
  have hq := Int.ediv_nonneg h0 hx.le
  refine ⟨u, eq, ?_, ?_, p1, by omega, ?_⟩
  · rw [v0]; exact Int.emod_nonneg _ hx.ne'
  · rw [v0]; exact Int.emod_lt_of_pos _ hx
  · rw [v0, v1, Int.modEq_iff_dvd]
    refine ⟨(xPar * xPar : Nat), ?_⟩
    have := Int.emod_add_mul_ediv e.val (xPar * xPar : Nat)
    linear_combination -this

/-- **C85.** For every point of order dividing `r` and every scalar below `2^403`, `g1mul` ends without panic
or overflow in a representation of the multiple, in affine form unless it is infinity. -/
theorem C85_g1mul (P : ECP) (g : G1) (hP : P.Rep g) (hg : r • g = 0) (e : BIG) (he : e.Nrm) (h0 : 0 ≤ e.val)
    (h1 : e.val < 2 ^ 403) :
    ∃ R, pair.g1mul P e = some R ∧ R.Rep (e.val • g) ∧ (e.val • g ≠ 0 → R.z.toF = 1) := by
  obtain ⟨R, eq, k1, k2⟩ := pair.g1mul_wp (hP.mono (by norm_num)) hg he h0 h1
  exact ⟨R, eq, k1.mono (by norm_num), fun h => (k2 h).res⟩

/-- **C85**, agreement: `g1mul` and `mul` give the same point. -/
theorem C85_agrees (P : ECP) (g : G1) (hP : P.Rep g) (hg : r • g = 0) (e : BIG) (he : e.Nrm) (h0 : 0 ≤ e.val)
    (h1 : e.val < 2 ^ 403) :
    ∃ R R', pair.g1mul P e = some R ∧ P.mul e = some R' ∧ R.equals R' = some true := by
  obtain ⟨R, eq, k1, -⟩ := C85_g1mul P g hP hg e he h0 h1
  obtain ⟨R', eq', k2, -⟩ := ECP.mul_wp (hP.mono (by norm_num)) he h0 (by omega)
  obtain ⟨b, e3, h3⟩ := ECP.equals_wp k1 k2 (by norm_num)
  rw [h3.2 rfl] at e3
  exact ⟨R, R', eq, eq', e3⟩

/-- **C85**, the condition on the order is needed: for the point `(0, √15)`, of order 3, and the scalar
`xPar²`, the result is the negative of the right one. -/
theorem C85_outside (P : ECP) (hP : P.Rep (Pt.mk 0 root15 order3_on)) (e : BIG) (he : e.Nrm)
    (ve : e.val = (xPar * xPar : Nat)) :
    ∃ R, pair.g1mul P e = some R ∧ R.Rep (-(e.val • Pt.mk 0 root15 order3_on)) ∧
      ¬ R.Rep (e.val • Pt.mk 0 root15 order3_on) := by
  have h3 : (3 : Int) • (Pt.mk 0 root15 order3_on : G1) = 0 := by
    have := Pt.three_smul_zero order3_on
    exact_mod_cast this
  have h1 : e.val • (Pt.mk 0 root15 order3_on : G1) = Pt.mk 0 root15 order3_on := by
    have : e.val = (xPar * xPar : Nat) / 3 * 3 + 1 := by rw [ve]; decide +kernel
    rw [this, add_smul, mul_smul, h3, smul_zero, zero_add, one_smul]
  have hm : glvMap (Pt.mk 0 root15 order3_on) = Pt.mk 0 root15 order3_on := by
    rw [glvMap_mk]
    simp only [mul_zero]
  obtain ⟨R, eq, k, -⟩ := pair.g1mul_outside (hP.mono (by norm_num)) he ve
  rw [hm, ← h1] at k
  have k : R.Rep _ := k.mono (by norm_num)
  refine ⟨R, eq, k, fun k' => ?_⟩
  have := k.inj k'
  rw [h1, Pt.neg_mk, Pt.mk_inj] at this
  have h4 : (2 : Fp) * root15 = 0 := by linear_combination -this.2
  exact mul_ne_zero fp_two_ne (Pt.y_ne order3_on) h4

/-- The generator times `2^381 + 5`. -/
example : ∃ P e R, ECP.Rep P gen1 ∧ BIG.Nrm e ∧ e.val = 2 ^ 381 + 5 ∧ pair.g1mul P e = some R ∧
    R.Rep ((2 ^ 381 + 5 : Int) • gen1) := by
  obtain ⟨P, hP⟩ := ECP.exists_rep gen1
  obtain ⟨e, he, ve⟩ := exists_of_nat (n := 2 ^ 381 + 5) (by norm_num)
  have ve : e.val = 2 ^ 381 + 5 := by rw [ve]; norm_num
  obtain ⟨R, eq, h, -⟩ := C85_g1mul P _ hP r_gen1 e he (by rw [ve]; norm_num) (by rw [ve]; norm_num)
  exact ⟨P, e, R, hP, he, ve, eq, by rwa [ve] at h⟩

/-- The generator times `2^388`, a scalar for which the second part of the decomposition is negative. -/
example : ∃ P e R, ECP.Rep P gen1 ∧ BIG.Nrm e ∧ e.val = 2 ^ 388 ∧ pair.g1mul P e = some R ∧
    R.Rep ((2 ^ 388 : Int) • gen1) ∧ (r : Int) - 2 ^ 388 / (xPar * xPar : Nat) < 0 := by
  obtain ⟨P, hP⟩ := ECP.exists_rep gen1
  have he : BIG.Nrm ⟨0, 0, 0, 0, 0, 0, 2 ^ 40⟩ := by constructor <;> norm_num
  have ve : BIG.val ⟨0, 0, 0, 0, 0, 0, 2 ^ 40⟩ = 2 ^ 388 := by norm_num [BIG.val]
  obtain ⟨R, eq, h, -⟩ := C85_g1mul P _ hP r_gen1 _ he (by rw [ve]; norm_num) (by rw [ve]; norm_num)
  exact ⟨P, _, R, hP, he, ve, eq, by rwa [ve] at h, by decide +kernel⟩

/-! ### C85: the twist -/

/-- **C85**, the decomposition: the parts of a scalar below `2^403` are between 0 and `2^256`, and
the scalar is `u0 + x·u1 + x²·u2 + x³·u3`. -/
theorem C85_gs (e : BIG) (he : e.Nrm) (h0 : 0 ≤ e.val) (h1 : e.val < 2 ^ 403) :
    ∃ u0 u1 u2 u3, pair.gs e = some (u0, u1, u2, u3) ∧ 0 ≤ u0.val ∧ u0.val < 2 ^ 256 ∧ 0 ≤ u1.val ∧
      u1.val < 2 ^ 256 ∧ 0 ≤ u2.val ∧ u2.val < 2 ^ 256 ∧ 0 ≤ u3.val ∧ u3.val < 2 ^ 256 ∧
      u0.val + xPar * u1.val + xPar ^ 2 * u2.val + xPar ^ 3 * u3.val = e.val := by
  obtain ⟨⟨u0, u1, u2, u3⟩, eq, -, a0, b0, -, a1, b1, -, a2, b2, -, a3, b3, h⟩ := pair.gs_wp he h0 h1
  exact ⟨u0, u1, u2, u3, eq, a0, b0, a1, b1, a2, b2, a3, b3, h⟩

/-- **C85**, `frob` with the constant of `g2mul` is the endomorphism `(x, y) ↦ (x̄ / γ², ȳ / γ³)`, where
`x̄` is the conjugate and `γ = (1+i)^((p-1)/6)`, for every point of the twist. -/
theorem C85_frob (P : ECP2) (x y : Fp2) (h : y ^ 2 = x ^ 3 + b2) (hP : P.Rep (Pt.mk x y h)) (f : FP2)
    (hf : f.Ok 1 2 γ⁻¹) : ∃ R h', P.frob f = some R ∧ R.Rep (Pt.mk (star x / γ ^ 2) (star y / γ ^ 3) h') := by
  obtain ⟨R, eq, k⟩ := ECP2.frob_wp hP (by norm_num) hf
  exact ⟨R, psi_on h, eq, k.mono (by norm_num)⟩

/-- **C85**, on points of order dividing `r` that endomorphism is multiplication by the curve parameter. -/
theorem C85_eigenvalue (x y : Fp2) (h : y ^ 2 = x ^ 3 + b2) (hr : r • (Pt.mk x y h : G2) = 0) :
    ∃ h', xPar • (Pt.mk x y h : G2) = Pt.mk (star x / γ ^ 2) (star y / γ ^ 3) h' :=
  ⟨psi_on h, psi_torsion hr⟩

/-- **C85.** For every point of order dividing `r` with excess at most `2^8` (all results of `add`, `dbl`,
`mul`, `affine` and the constructors have it) and every scalar below `2^403`, `g2mul` ends without panic or
overflow in a representation of the multiple, in affine form unless it is infinity. -/
theorem C85_g2mul (P : ECP2) (g : G2) (hP : P.Ok (2 ^ 8) g) (hg : r • g = 0) (e : BIG) (he : e.Nrm) (h0 : 0 ≤ e.val)
    (h1 : e.val < 2 ^ 403) :
    ∃ R, pair.g2mul P e = some R ∧ R.Rep (e.val • g) ∧ (e.val • g ≠ 0 → R.z.toF = 1) := by
  obtain ⟨R, eq, k1, k2⟩ := pair.g2mul_wp hP hg he h0 h1
  exact ⟨R, eq, k1.mono (by norm_num), k2⟩

theorem exists_ok2 (g : G2) : ∃ P : ECP2, P.Ok (2 ^ 8) g := by
  obtain ⟨P, hP⟩ := ECP2.exists_rep g
  obtain ⟨O, hO⟩ := ECP2.exists_rep 0
  obtain ⟨R, -, hR⟩ := ECP2.add_wp (hP.mono (by norm_num)) (hO.mono (by norm_num))
  rw [add_zero] at hR
  exact ⟨R, hR.mono (by norm_num)⟩

/-- The generator times `r + 1` is the generator. -/
example : ∃ P e R, ECP2.Rep P gen2 ∧ BIG.Nrm e ∧ e.val = r + 1 ∧ pair.g2mul P e = some R ∧ R.Rep gen2 := by
  obtain ⟨P, hP⟩ := exists_ok2 gen2
  obtain ⟨e, he, ve⟩ := exists_of_nat (n := r + 1) (by rw [r_val]; norm_num)
  obtain ⟨R, eq, h, -⟩ := C85_g2mul P _ hP r_gen2 e he (by omega) (by rw [ve, r_val]; norm_num)
  refine ⟨P, e, R, hP.mono (by norm_num), he, ve, eq, ?_⟩
  rwa [ve, natCast_zsmul, add_smul, r_gen2, one_smul, zero_add] at h

/-! ### C85: powers of pairing values -/

/-- **C85.** For every element of order dividing `r` and every exponent below `2^403`, `gtpow` ends without
panic or overflow in the canonical form of the power. -/
theorem C85_gtpow (d : FP12) (v : Fp12) (hd : d.Ok 1 (2 ^ 12) v) (hv : v ^ r = 1) (e : BIG) (he : e.Nrm)
    (h0 : 0 ≤ e.val) (h1 : e.val < 2 ^ 403) : ∃ R, pair.gtpow d e = some R ∧ R.Can (v ^ e.val) :=
  pair.gtpow_wp hd hv he h0 h1

/-- **C85**, with the pairing: multiplying either argument with `g1mul` or `g2mul`, or the value with `gtpow`,
gives the same limbs. -/
theorem C85_compatible (P : ECP2) (Q : G2) (S : ECP) (g : G1) (hP : P.Aff Q) (hP' : P.Ok (2 ^ 8) Q)
    (hQ : r • Q = 0) (hQ0 : Q ≠ 0) (hS : S.Aff g) (hg : r • g = 0) (e : BIG) (he : e.Nrm) (h0 : 0 ≤ e.val)
    (h1 : e.val < 2 ^ 403) (hnz : e.val • Q ≠ 0) :
    ∃ z P2 S2, ((pair.ate P S >>= pair.fexp) >>= fun w => pair.gtpow w e) = some z ∧
      pair.g2mul P e = some P2 ∧ (pair.ate P2 S >>= pair.fexp) = some z ∧
      pair.g1mul S e = some S2 ∧ (pair.ate P S2 >>= pair.fexp) = some z ∧ z.Can (pairing Q g ^ e.val) := by
  obtain ⟨n, hn⟩ := Int.eq_ofNat_of_zero_le h0
  obtain ⟨w, ew, hw⟩ := C84_pairing_any_key P Q S g hP hQ hS hQ0
  obtain ⟨z, ez, hz⟩ := C85_gtpow w _ (hw.ok.mono (by norm_num)) (pairing_pow_r hQ g) e he h0 (by omega)
  obtain ⟨P2, eP, hP2, aP⟩ := C85_g2mul P Q hP' hQ e he h0 (by omega)
  obtain ⟨S2, eS, hS2, aS⟩ := C85_g1mul S g hS.1 hg e he h0 h1
  have hz' := hz
  rw [hn] at hP2 aP hS2 aS hnz hz'
  rw [natCast_zsmul] at hP2 aP hS2 aS hnz
  rw [zpow_natCast] at hz'
  obtain ⟨z1, e1, h1⟩ := C84_pairing_any_key P2 _ S g ⟨hP2, fun h => aP h⟩
    (by rw [smul_comm, hQ, smul_zero]) hS hnz
  obtain ⟨z2, e2, h2⟩ := C84_pairing_any_key P _ S2 _ hP hQ ⟨hS2, fun h => aS h⟩ hQ0
  rw [pairing_nsmul_left hQ] at h1
  rw [pairing_nsmul_right hQ] at h2
  refine ⟨z, P2, S2, by rw [ew]; exact ez, eP, ?_, eS, ?_, hz⟩
  · rw [e1, h1.ext hz']
  · rw [e2, h2.ext hz']

/-- The pairing of the generators to the power `r + 2` is its square, which is not 1. -/
example : ∃ d e R, FP12.Ok d 1 (2 ^ 12) (pairing gen2 gen1) ∧ BIG.Nrm e ∧ e.val = r + 2 ∧
    pair.gtpow d e = some R ∧ R.Can (pairing gen2 gen1 ^ 2) ∧ pairing gen2 gen1 ^ 2 ≠ 1 := by
  obtain ⟨P, hP⟩ := exists_aff2 gen2
  obtain ⟨S, hS⟩ := exists_aff1 gen1
  obtain ⟨d, -, hd⟩ := C84_pairing_any_key P gen2 S gen1 hP r_gen2 hS gen2_ne
  obtain ⟨e, he, ve⟩ := exists_of_nat (n := r + 2) (by rw [r_val]; norm_num)
  have hr := pairing_pow_r r_gen2 gen1
  obtain ⟨R, eq, h⟩ := C85_gtpow d _ (hd.ok.mono (by norm_num)) hr e he (by omega) (by rw [ve, r_val]; norm_num)
  refine ⟨d, e, R, hd.ok.mono (by norm_num), he, ve, eq, ?_, ?_⟩
  · rwa [ve, zpow_natCast, pow_add, hr, one_mul] at h
  · intro h2
    have := orderOf_dvd_of_pow_eq_one h2
    rw [orderOf_pairing] at this
    exact absurd (Nat.le_of_dvd (by norm_num) this) (by rw [r_val]; norm_num)

/-- `pow4` with a pairing value. -/
example : ∃ d R, FP12.Ok d 1 (2 ^ 12) (pairing gen2 gen1) ∧
    FP12.pow4 d d d d (BIG.new_int 4) (BIG.new_int 0) (BIG.new_int 3) (BIG.new_int 6) = some R ∧
      R.Can (pairing gen2 gen1 ^ 13) := by
  obtain ⟨P, hP⟩ := exists_aff2 gen2
  obtain ⟨S, hS⟩ := exists_aff1 gen1
  obtain ⟨d, -, hd⟩ := C84_pairing_any_key P gen2 S gen1 hP r_gen2 hS gen2_ne
  have hc : pairing gen2 gen1 ^ (p ^ 4 - p ^ 2 + 1) = 1 := by
    obtain ⟨k, hk⟩ : r ∣ p ^ 4 - p ^ 2 + 1 := by decide +kernel
    rw [hk, pow_mul, pairing_pow_r r_gen2 gen1, one_pow]
  have hd := hd.ok.mono (L' := 1) (E' := 2 ^ 12) (by norm_num)
  have n : ∀ k : Nat, k < 100 → (BIG.new_int k).Nrm := fun k h => BIG.new_int_nrm (by omega) (by omega)
  have b : ∀ k : Nat, k < 100 → 0 ≤ (BIG.new_int k).val ∧ (BIG.new_int k).val < 2 ^ 404 := fun k h => by
    rw [BIG.new_int_val]; omega
  obtain ⟨R, e, h⟩ := C85_pow4 d d d d _ _ _ _ hd hd hd hd hc hc hc hc _ _ _ _ (n 4 (by norm_num))
    (n 0 (by norm_num)) (n 3 (by norm_num)) (n 6 (by norm_num)) (b 4 (by norm_num)) (b 0 (by norm_num))
    (b 3 (by norm_num)) (b 6 (by norm_num))
  refine ⟨d, R, hd, e, ?_⟩
  simp only [BIG.new_int_val, zpow_natCast, ← pow_add] at h
  exact h

end Props.B383
