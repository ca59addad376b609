import Verif.Proof.Endo
import Verif.Proof.Frob
/-!
# Where the multiplications with endomorphisms are right

The endomorphisms of the two curves act as multiplication by their eigenvalue at the points of order dividing `r` only. One scalar
each, `xAbs²` for `g1mul` and `xAbs` for `g2mul`, shows this.
-/

set_option exponentiation.threshold 6000

namespace Spec

open Amcl

theorem cru_poly : cru ^ 2 + cru + 1 = 0 := by
  have h1 : cru ≠ 1 := by
    rw [cru_eq]
    intro h
    have h : ((rom.CURVE_CRU.val.toNat : Nat) : Fp) = ((1 : Nat) : Fp) := by rw [h, Nat.cast_one]
    rw [ZMod.natCast_eq_natCast_iff, Nat.ModEq] at h
    revert h
    decide +kernel
  have h := cru_cube
  refine (mul_eq_zero.1 (?_ : (cru - 1) * (cru ^ 2 + cru + 1) = 0)).resolve_left (sub_ne_zero.2 h1)
  linear_combination h

theorem glvMap_om (P : G1) : glvMap P = Manin.om cru_poly P := by
  rcases Pt.cases P with rfl | ⟨x, y, h, rfl⟩
  · rw [map_zero, glvMap_zero]
  · rfl

/-- The endomorphism of the first curve has its eigenvalue at the points of order dividing `r` only. -/
theorem glv_iff (P : G1) : (xAbs * xAbs) • P = -glvMap P ↔ r • P = 0 := by
  refine ⟨fun h => ?_, glv_torsion⟩
  have h1 : glvMap P = -((xAbs * xAbs) • P) := by rw [h, neg_neg]
  have h2 := Manin.om_om cru_poly P
  rw [← glvMap_om P, h1, map_neg, map_nsmul, ← glvMap_om P, h1] at h2
  have hr : r + xAbs * xAbs = xAbs * xAbs * (xAbs * xAbs) + 1 := by decide +kernel
  have h3 : (r + xAbs * xAbs) • P = (xAbs * xAbs) • P := by
    rw [hr, add_smul, mul_smul, one_smul]
    rw [smul_neg, neg_neg] at h2
    rw [h2]
    abel
  rw [add_smul] at h3
  exact left_eq_add.1 (by rw [add_comm]; exact h3.symm)

theorem coprime_torsion {G : Type} [AddCommGroup G] {g : G} {a b n : Nat} (hab : Nat.Coprime a b) (ha : (a * n) • g = 0)
    (hb : (b * n) • g = 0) : n • g = 0 := by
  have h := Nat.dvd_gcd (addOrderOf_dvd_of_nsmul_eq_zero ha) (addOrderOf_dvd_of_nsmul_eq_zero hb)
  rw [Nat.gcd_mul_right, hab, one_mul] at h
  exact addOrderOf_dvd_iff_nsmul_eq_zero.1 h

/-- The Frobenius endomorphism of the twist has its eigenvalue at the points of order dividing `r` only. -/
theorem psi_iff (Q : G2) : xAbs • Q = -psi Q ↔ r • Q = 0 := by
  refine ⟨fun h => ?_, psi_torsion⟩
  have e1 : psi Q = -(xAbs : Int) • Q := by rw [neg_smul, natCast_zsmul, h, neg_neg]
  have e2 := Frob.char_eq Q
  have hz : ∀ (n : Int) (A : G2), psi (n • A) = n • psi A := fun n A => map_zsmul psiHom n A
  rw [e1, hz, e1, ← natCast_zsmul, ← sub_eq_zero] at e2
  have h3 : (h1 * r) • Q = 0 := by
    have e : ((h1 * r : Nat) : Int) = p + xAbs := by decide +kernel
    rw [← natCast_zsmul, e, ← e2]
    module
  obtain ⟨hf, hc⟩ := card_G2
  have h4 : (h2 * r) • Q = 0 := by
    rw [← hc]
    exact card_nsmul_eq_zero'
  exact coprime_torsion (by decide +kernel) h3 h4

end Spec

namespace Amcl

open Spec

namespace pair

/-- The parts of the scalar `xAbs`. -/
theorem gs_one {e : BIG} (he : e.Nrm) (ve : e.val = (xAbs : Nat)) :
    Wp (gs e) fun u => u.1.Lim (2 ^ 59) ∧ u.1.val = 0 ∧ u.2.1.Lim (2 ^ 59) ∧ u.2.1.val = r - 1 ∧
      u.2.2.1.Lim (2 ^ 59) ∧ u.2.2.1.val = 0 ∧ u.2.2.2.Lim (2 ^ 59) ∧ u.2.2.2.val = r := by
  unfold gs
  dsimp only
  have x0 : rom.CURVE_BNX.val = 15132376222941642752 := by decide +kernel
  have q0 : rom.CURVE_ORDER.val = 52435875175126190479447740508185965837690552500527637822603658699938581184513 := by
    decide +kernel
  rw [xAbs_val] at ve
  refine Wp.bind (BIG.rmod_wp (he.lim58 (by omega) (by omega) |>.mono (by norm_num)) (by omega) (by omega) bnx_nrm (by omega)) ?_
  rintro u0 ⟨n0, v0⟩
  refine Wp.bind (BIG.div_wp (he.lim58 (by omega) (by omega) |>.mono (by norm_num)) (by omega) (by omega) bnx_nrm (by omega)
    (by omega)) ?_
  rintro w1 ⟨m1, y1⟩
  rw [x0] at v0 y1
  refine Wp.bind (BIG.rmod_wp (m1.lim58 (by omega) (by omega) |>.mono (by norm_num)) (by omega) (by omega) bnx_nrm
    (by omega)) ?_
  rintro u1 ⟨n1, v1⟩
  refine Wp.bind (BIG.div_wp (m1.lim58 (by omega) (by omega) |>.mono (by norm_num)) (by omega) (by omega) bnx_nrm
    (by omega) (by omega)) ?_
  rintro w2 ⟨m2, y2⟩
  rw [x0] at v1 y2
  refine Wp.bind (BIG.rmod_wp (m2.lim58 (by omega) (by omega) |>.mono (by norm_num)) (by omega) (by omega) bnx_nrm
    (by omega)) ?_
  rintro u2 ⟨n2, v2⟩
  refine Wp.bind (BIG.div_wp (m2.lim58 (by omega) (by omega) |>.mono (by norm_num)) (by omega) (by omega) bnx_nrm
    (by omega) (by omega)) ?_
  rintro w3 ⟨m3, y3⟩
  rw [x0] at v2 y3
  refine Wp.bind (BIG.modneg_wp (n1.lim58 (by omega) (by omega) |>.mono (by norm_num)) (by omega) (by omega)
    order_nrm (by omega) (by omega)) ?_
  rintro ⟨t1, s1⟩ ⟨l1, z1, -, -⟩
  refine Wp.bind (BIG.modneg_wp (m3.lim58 (by omega) (by omega) |>.mono (by norm_num)) (by omega) (by omega)
    order_nrm (by omega) (by omega)) ?_
  rintro ⟨t3, s3⟩ ⟨l3, z3, -, -⟩
  dsimp only at l1 z1 l3 z3 ⊢
  rw [q0] at z1 z3
  refine Wp.ret ?_
  dsimp only
  have hr : ((r : Nat) : Int) = 52435875175126190479447740508185965837690552500527637822603658699938581184513 := by
    rw [r_val]; norm_num
  refine ⟨n0.lim58 (by omega) (by omega) |>.mono (by norm_num), by omega, l1, by omega,
    n2.lim58 (by omega) (by omega) |>.mono (by norm_num), by omega, l3, by omega⟩

/-- `g2mul` with the scalar `xAbs` gives `-ψ(g)`, at every point. -/
theorem g2mul_one {P : ECP2} {g : G2} (hP : ECP2.Ok P (2 ^ 8) g) {e : BIG} (he : e.Nrm)
    (ve : e.val = (xAbs : Nat)) : Wp (g2mul P e) fun R => ECP2.Post4 R (-psi g) := by
  unfold g2mul
  refine Wp.bind gamma_ok fun f hf => ?_
  refine Wp.bind (gs_one he ve) ?_
  rintro ⟨u0, u1, u2, u3⟩ ⟨l0, v0, l1, v1, l2, v2, l3, v3⟩
  dsimp only at *
  refine Wp.bind (FP2.inverse_wp hf (by norm_num)) fun f hf => ?_
  refine Wp.bind (FP2.norm_ok hf (by norm_num)) fun f hf => ?_
  refine Wp.bind (ECP2.frob_wp hP (by norm_num) hf) fun Q1 hQ1 => ?_
  refine Wp.bind (ECP2.frob_wp hQ1 (by norm_num) hf) fun Q2 hQ2 => ?_
  refine Wp.bind (ECP2.frob_wp hQ2 (by norm_num) hf) fun Q3 hQ3 => ?_
  have hup : ∀ {a : ECP2} {g : G2}, ECP2.Ok a (2 ^ 8) g → ECP2.Ok a (2 ^ 11) g := fun h => h.mono (by norm_num)
  have hneg : ∀ {a : ECP2} {g : G2}, ECP2.Ok a (2 ^ 8) g → Wp (ECP2.neg a) fun b => ECP2.Ok b (2 ^ 11) (-g) :=
    fun h => (ECP2.neg_wp h (by norm_num)).mono fun _ h => h.mono (by norm_num)
  have hr : ((r : Nat) : Int) < 2 ^ 300 ∧ 1 < ((r : Nat) : Int) := by decide +kernel
  refine Wp.bind (shorter_exact (Rep := fun P g => ECP2.Ok P (2 ^ 8) g) (Rep' := fun P g => ECP2.Ok P (2 ^ 11) g) hup hneg hP l0 (by omega) (by omega)) ?_
  rintro ⟨w0, R0⟩ ⟨nw0, -, k0⟩
  refine Wp.bind (shorter_exact (Rep := fun P g => ECP2.Ok P (2 ^ 8) g) (Rep' := fun P g => ECP2.Ok P (2 ^ 11) g) hup hneg (hQ1.mono (by norm_num)) l1 (by omega) (by omega)) ?_
  rintro ⟨w1, R1⟩ ⟨nw1, k1, -⟩
  refine Wp.bind (shorter_exact (Rep := fun P g => ECP2.Ok P (2 ^ 8) g) (Rep' := fun P g => ECP2.Ok P (2 ^ 11) g) hup hneg (hQ2.mono (by norm_num)) l2 (by omega) (by omega)) ?_
  rintro ⟨w2, R2⟩ ⟨nw2, -, k2⟩
  refine Wp.bind (shorter_exact (Rep := fun P g => ECP2.Ok P (2 ^ 8) g) (Rep' := fun P g => ECP2.Ok P (2 ^ 11) g) hup hneg (hQ3.mono (by norm_num)) l3 (by omega) (by omega)) ?_
  rintro ⟨w3, R3⟩ ⟨nw3, -, k3⟩
  dsimp only at *
  rw [v0] at k0
  rw [v1] at k1
  rw [v2] at k2
  rw [v3] at k3
  obtain ⟨z0, hR0⟩ := k0 (by decide +kernel)
  obtain ⟨z1, hR1⟩ := k1 (by decide +kernel)
  obtain ⟨z2, hR2⟩ := k2 (by decide +kernel)
  obtain ⟨z3, hR3⟩ := k3 (by decide +kernel)
  have z0 : w0.val = 0 := by rw [z0]; decide +kernel
  have z1 : w1.val = 1 := by rw [z1]; decide +kernel
  have z2 : w2.val = 0 := by rw [z2]; decide +kernel
  have z3 : w3.val = 0 := by rw [z3]; decide +kernel
  refine (ECP2.mul4_wp hR0 hR1 hR2 hR3
    (nw0.lim58 (by omega) (by omega) |>.mono (by norm_num)) (by omega) (by omega)
    (nw1.lim58 (by omega) (by omega) |>.mono (by norm_num)) (by omega) (by omega)
    (nw2.lim58 (by omega) (by omega) |>.mono (by norm_num)) (by omega) (by omega)
    (nw3.lim58 (by omega) (by omega) |>.mono (by norm_num)) (by omega) (by omega)).mono fun T hT => ?_
  rwa [z0, z1, z2, z3, zero_smul, one_smul, zero_smul, zero_smul, zero_add, add_zero, add_zero] at hT

end pair

end Amcl
