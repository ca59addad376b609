import Verif.Proof.B383.EndoExact
import Verif.Proof.B383.Gtpow
import Verif.Proof.B383.Ate2
/-!
# Where powers with the Frobenius endomorphism of BLS12-383 are right
-/

set_option exponentiation.threshold 6000

namespace Amcl.B383

open Spec.B383
open Spec (coprime_torsion)

seal Spec.B383.finalExp

/-- `gtpow` with the exponent `xPar` gives `v ^ p`, at every element of the cyclotomic subgroup. -/
theorem pair.gtpow_one {d : FP12} {g : CycG} (hd : FP12.Ok d 1 (2 ^ 12) g.v) {e : BIG} (he : e.Nrm)
    (ve : e.val = (xPar : Nat)) : Wp (gtpow d e) fun R => FP12.Can R (p • g).v := by
  unfold gtpow
  refine Wp.bind gamma_ok fun f hf => ?_
  refine Wp.bind (gs_one he ve) ?_
  rintro ⟨u0, u1, u2, u3⟩ ⟨l0, v0, l1, v1, l2, v2, l3, v3⟩
  dsimp only at *
  have fr : ∀ {f x : _} {E : Int} {g : CycG}, FP12.Ok f 1 E g.v → FP2.Ok x 1 2 γ → 2 ≤ E ∧ E ≤ 2 ^ 21 →
      Wp (FP12.frob f x) fun r => FP12.Ok r 1 (2 * E) (p • g).v := fun h h' hE =>
    (FP12.frob_wp h h' hE).mono fun _ h => h.congr (by rw [CycG.v_nsmul, φ_eq])
  refine Wp.bind (fr hd hf (by norm_num)) fun Q1 hQ1 => ?_
  refine Wp.bind (fr hQ1 hf (by norm_num)) fun Q2 hQ2 => ?_
  refine Wp.bind (fr hQ2 hf (by norm_num)) fun Q3 hQ3 => ?_
  have hr : ((r : Nat) : Int) < 2 ^ 300 ∧ 1 < ((r : Nat) : Int) := by decide +kernel
  refine Wp.bind (shorter_exact (Rep := fun f (g : CycG) => FP12.Ok f 1 (2 ^ 12) g.v)
    (Rep' := fun f (g : CycG) => FP12.Ok f 1 (2 ^ 15) g.v) (fun h => h.mono (by norm_num))
    (fun h => (FP12.conj_v h (by norm_num)).mono fun _ h => h.mono (by norm_num)) hd l0 (by omega) (by omega)) ?_
  rintro ⟨w0, R0⟩ ⟨nw0, -, k0⟩
  have hup : ∀ {a : FP12} {g : CycG}, FP12.Ok a 1 (2 ^ 15) g.v → FP12.Ok a 1 (2 ^ 18) g.v :=
    fun h => h.mono (by norm_num)
  have hneg : ∀ {a : FP12} {g : CycG}, FP12.Ok a 1 (2 ^ 15) g.v →
      Wp (FP12.conj a) fun b => FP12.Ok b 1 (2 ^ 18) (-g).v :=
    fun h => (FP12.conj_v h (by norm_num)).mono fun _ h => h.mono (by norm_num)
  refine Wp.bind (shorter_exact (Rep := fun f (g : CycG) => FP12.Ok f 1 (2 ^ 15) g.v)
    (Rep' := fun f (g : CycG) => FP12.Ok f 1 (2 ^ 18) g.v) hup hneg (hQ1.mono (by norm_num)) l1 (by omega) (by omega)) ?_
  rintro ⟨w1, R1⟩ ⟨nw1, -, k1⟩
  refine Wp.bind (shorter_exact (Rep := fun f (g : CycG) => FP12.Ok f 1 (2 ^ 15) g.v)
    (Rep' := fun f (g : CycG) => FP12.Ok f 1 (2 ^ 18) g.v) hup hneg (hQ2.mono (by norm_num)) l2 (by omega) (by omega)) ?_
  rintro ⟨w2, R2⟩ ⟨nw2, -, k2⟩
  refine Wp.bind (shorter_exact (Rep := fun f (g : CycG) => FP12.Ok f 1 (2 ^ 15) g.v)
    (Rep' := fun f (g : CycG) => FP12.Ok f 1 (2 ^ 18) g.v) hup hneg (hQ3.mono (by norm_num)) l3 (by omega) (by omega)) ?_
  rintro ⟨w3, R3⟩ ⟨nw3, -, k3⟩
  dsimp only at *
  rw [v0] at k0
  rw [v1] at k1
  rw [v2] at k2
  rw [v3] at k3
  obtain ⟨z0, hR0⟩ := k0 (by decide +kernel)
  obtain ⟨z1, hR1⟩ := k1 (by decide +kernel)
  obtain ⟨z2, hR2⟩ := k2 (by decide +kernel)
  obtain ⟨z3, hR3⟩ := k3 (by decide +kernel)
  have z0 : w0.val = 0 := by rw [z0]; decide +kernel
  have z1 : w1.val = 1 := by rw [z1]; decide +kernel
  have z2 : w2.val = 0 := by rw [z2]; decide +kernel
  have z3 : w3.val = 0 := by rw [z3]; decide +kernel
  refine (FP12.pow4_wp hR0 hR1 hR2 hR3
    (nw0.lim58 (by omega) (by omega) |>.mono (by norm_num)) (by omega) (by omega)
    (nw1.lim58 (by omega) (by omega) |>.mono (by norm_num)) (by omega) (by omega)
    (nw2.lim58 (by omega) (by omega) |>.mono (by norm_num)) (by omega) (by omega)
    (nw3.lim58 (by omega) (by omega) |>.mono (by norm_num)) (by omega) (by omega)).mono fun T hT => ?_
  rwa [z0, z1, z2, z3, zero_smul, one_smul, zero_smul, zero_smul, zero_add, add_zero, add_zero] at hT

/-- Multiplication by `xPar` is the Frobenius map at the elements of order dividing `r` only. -/
theorem CycG.frob_iff (g : CycG) (hg : (p ^ 4 - p ^ 2 + 1) • g = 0) : xPar • g = p • g ↔ r • g = 0 := by
  have e : p = xPar + h1 * r := by decide +kernel
  have e' : p • g = xPar • g + (h1 * r) • g := by rw [← add_smul, ← e]
  rw [e', left_eq_add]
  constructor
  · intro h
    obtain ⟨k, hk⟩ : r ∣ p ^ 4 - p ^ 2 + 1 := by decide +kernel
    have hk' : p ^ 4 - p ^ 2 + 1 = (p ^ 4 - p ^ 2 + 1) / r * r := (Nat.div_mul_cancel ⟨k, hk⟩).symm
    rw [hk'] at hg
    exact coprime_torsion (by decide +kernel) h hg
  · intro h
    rw [mul_smul, h, smul_zero]

end Amcl.B383
