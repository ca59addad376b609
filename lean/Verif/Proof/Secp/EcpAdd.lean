import Verif.Proof.Secp.Jacobi
import Verif.Proof.Rcb
import Verif.Spec.Secp.Groups
import Verif.Model.Secp.Ecp
/-!
# `ECP::dbl` and `ECP::add` compute the group law of `y² = x³ + 7`
-/

set_option exponentiation.threshold 2000

namespace Amcl.Secp

open Spec.Secp
open Spec (Pt)

namespace FP

theorem norm_ok {f : FP} {L E : Int} {v : Fp} (hf : Ok f L E v) (h : L ≤ 16 ∧ E ≤ 2 ^ 24) :
    Wp (norm f) fun r => Ok r 1 E v := (norm_wp hf h).mono fun _ h => h.1

end FP

/-- One step of straight-line `FP` code. -/
macro "secp_step" : tactic => `(tactic| first
  | refine Wp.bind (FP.mul_wp (by assumption) (by assumption) (by norm_num)) (fun _ _ => ?_)
  | refine Wp.bind (FP.sqr_wp (by assumption) (by norm_num)) (fun _ _ => ?_)
  | refine Wp.bind (FP.norm_ok (by assumption) (by norm_num)) (fun _ _ => ?_)
  | refine Wp.bind (FP.add_wp (by assumption) (by assumption) (by norm_num)) (fun _ _ => ?_)
  | refine Wp.bind (FP.sub_wp (by assumption) (by assumption) (by norm_num)) (fun _ _ => ?_)
  | refine Wp.bind (FP.rsub_wp (by assumption) (by assumption) (by norm_num)) (fun _ _ => ?_)
  | refine Wp.bind (FP.dbl_wp (by assumption) (by norm_num)) (fun _ _ => ?_)
  | refine Wp.bind (FP.neg_wp (by assumption) (by norm_num)) (fun _ _ => ?_)
  | refine Wp.bind (FP.imul_wp (by assumption) (by norm_num)) (fun _ _ => ?_))

seal FP.mul FP.sqr FP.norm FP.add FP.sub FP.rsub FP.dbl FP.neg FP.imul

namespace ECP

/-- `P` is a well-formed representation of the group element `g`, with excesses at most `E`. -/
structure Ok (P : ECP) (E : Int) (g : G1) : Prop where
  x : FP.Ok P.x 1 E P.x.toF
  y : FP.Ok P.y 1 E P.y.toF
  z : FP.Ok P.z 1 E P.z.toF
  pt : Proj P.x.toF P.y.toF P.z.toF g

theorem Ok.mono {P : ECP} {E E' : Int} {g : G1} (h : Ok P E g) (hE : E ≤ E') : Ok P E' g :=
  ⟨h.x.mono (by omega), h.y.mono (by omega), h.z.mono (by omega), h.pt⟩

theorem Ok.congr {P : ECP} {E : Int} {g g' : G1} (h : Ok P E g) (e : g = g') : Ok P E g' := e ▸ h

theorem ok_of {P : ECP} {E : Int} {g : G1} {X Y Z : Fp} (x : FP.Ok P.x 1 E X) (y : FP.Ok P.y 1 E Y)
    (z : FP.Ok P.z 1 E Z) (pt : Proj X Y Z g) : Ok P E g := by
  have ex := x.res
  have ey := y.res
  have ez := z.res
  subst ex ey ez
  exact ⟨x, y, z, pt⟩

theorem dbl_wp {P : ECP} {g : G1} (hP : Ok P (2 ^ 14) g) :
    Wp (dbl P) fun r => Ok r 32 (g + g) := by
  unfold dbl
  rw [show 3 * rom.CURVE_B_I = 21 from rfl]
  obtain ⟨hx, hy, hz, pt⟩ := hP
  repeat secp_step
  refine Wp.ret (ok_of (FP.Ok.mono (by assumption) (by norm_num)) (FP.Ok.mono (by assumption) (by norm_num))
    (FP.Ok.mono (by assumption) (by norm_num)) (pt.dbl.congr ?_ ?_ ?_ rfl))
  all_goals (try simp only [b1]); push_cast; ring

set_option maxHeartbeats 4000000 in
theorem add_wp {P Q : ECP} {g h : G1} (hP : Ok P (2 ^ 14) g) (hQ : Ok Q (2 ^ 14) h) :
    Wp (add P Q) fun r => Ok r 32 (g + h) := by
  unfold add
  rw [show 3 * rom.CURVE_B_I = 21 from rfl]
  obtain ⟨hx, hy, hz, pt⟩ := hP
  obtain ⟨hx', hy', hz', pt'⟩ := hQ
  repeat secp_step
  refine Wp.ret (ok_of (FP.Ok.mono (by assumption) (by norm_num)) (FP.Ok.mono (by assumption) (by norm_num))
    (FP.Ok.mono (by assumption) (by norm_num)) ((pt.add pt').congr ?_ ?_ ?_ rfl))
  all_goals (try simp only [b1]); push_cast; ring

end ECP

end Amcl.Secp
