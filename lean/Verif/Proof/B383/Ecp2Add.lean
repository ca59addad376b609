import Verif.Proof.B383.Fp2
import Verif.Proof.Rcb
import Verif.Spec.B383.Groups
import Verif.Model.B383.Ecp2
/-!
# `ECP2::dbl` and `ECP2::add` compute the group law of the twist `y² = x³ + 15(1+i)`
-/

set_option exponentiation.threshold 2000

namespace Amcl.B383

open Spec Spec.B383

namespace FP2

/-- The field element a representation denotes. -/
def toF (f : FP2) : Fp2 := ⟨f.a.toF, f.b.toF⟩

theorem Ok.res {f : FP2} {L E : Int} {v : Fp2} (h : Ok f L E v) : f.toF = v := by
  rw [toF, h.a.res, h.b.res]

theorem norm_ok {f : FP2} {L E : Int} {v : Fp2} (hf : Ok f L E v) (h : L ≤ 16 ∧ E ≤ 2 ^ 23) :
    Wp (norm f) fun r => Ok r 1 E v := (norm_wp hf h).mono fun _ h => h.1

end FP2

/-- One step of straight-line `FP2` code. -/
macro "fp2_step" : tactic => `(tactic| first
  | refine Wp.bind (FP2.mul_wp (by assumption) (by assumption) (by norm_num)) (fun _ _ => ?_)
  | refine Wp.bind (FP2.sqr_wp (by assumption) (by norm_num)) (fun _ _ => ?_)
  | refine Wp.bind (FP2.norm_ok (by assumption) (by norm_num)) (fun _ _ => ?_)
  | refine Wp.bind (FP2.add_wp (by assumption) (by assumption) (by norm_num)) (fun _ _ => ?_)
  | refine Wp.bind (FP2.sub_wp (by assumption) (by assumption) (by norm_num)) (fun _ _ => ?_)
  | refine Wp.bind (FP2.rsub_wp (by assumption) (by assumption) (by norm_num)) (fun _ _ => ?_)
  | refine Wp.bind (FP2.dbl_wp (by assumption) (by norm_num)) (fun _ _ => ?_)
  | refine Wp.bind (FP2.neg_wp (by assumption) (by norm_num)) (fun _ _ => ?_)
  | refine Wp.bind (FP2.mul_ip_wp (by assumption) (by norm_num)) (fun _ _ => ?_)
  | refine Wp.bind (FP2.imul_wp (by assumption) (by norm_num)) (fun _ _ => ?_))

seal FP2.mul FP2.sqr FP2.norm FP2.add FP2.sub FP2.rsub FP2.dbl FP2.neg FP2.imul FP2.mul_ip

namespace ECP2

/-- `P` is a well-formed representation of the group element `g`, with excesses at most `E`. -/
structure Ok (P : ECP2) (E : Int) (g : G2) : Prop where
  x : FP2.Ok P.x 1 E P.x.toF
  y : FP2.Ok P.y 1 E P.y.toF
  z : FP2.Ok P.z 1 E P.z.toF
  pt : Proj P.x.toF P.y.toF P.z.toF g

theorem Ok.mono {P : ECP2} {E E' : Int} {g : G2} (h : Ok P E g) (hE : E ≤ E') : Ok P E' g :=
  ⟨h.x.mono (by omega), h.y.mono (by omega), h.z.mono (by omega), h.pt⟩

theorem Ok.congr {P : ECP2} {E : Int} {g g' : G2} (h : Ok P E g) (e : g = g') : Ok P E g' := e ▸ h

theorem ok_of {P : ECP2} {E : Int} {g : G2} {X Y Z : Fp2} (x : FP2.Ok P.x 1 E X) (y : FP2.Ok P.y 1 E Y)
    (z : FP2.Ok P.z 1 E Z) (pt : Proj X Y Z g) : Ok P E g := by
  have ex := x.res
  have ey := y.res
  have ez := z.res
  subst ex ey ez
  exact ⟨x, y, z, pt⟩

set_option maxHeartbeats 4000000 in
theorem dbl_wp {P : ECP2} {g : G2} (hP : Ok P (2 ^ 14) g) :
    Wp (dbl P) fun r => Ok r 32 (g + g) := by
  unfold dbl
  rw [show 3 * rom.CURVE_B_I = 45 from rfl]
  obtain ⟨hx, hy, hz, pt⟩ := hP
  repeat fp2_step
  refine Wp.ret (ok_of (FP2.Ok.mono (by assumption) (by norm_num)) (FP2.Ok.mono (by assumption) (by norm_num))
    (FP2.Ok.mono (by assumption) (by norm_num)) (pt.dbl.congr ?_ ?_ ?_ rfl))
  all_goals (try simp only [b2]); push_cast; ring

set_option maxHeartbeats 8000000 in
theorem add_wp {P Q : ECP2} {g h : G2} (hP : Ok P (2 ^ 14) g) (hQ : Ok Q (2 ^ 14) h) :
    Wp (add P Q) fun r => Ok r 32 (g + h) := by
  unfold add
  rw [show 3 * rom.CURVE_B_I = 45 from rfl]
  obtain ⟨hx, hy, hz, pt⟩ := hP
  obtain ⟨hx', hy', hz', pt'⟩ := hQ
  repeat fp2_step
  refine Wp.ret (ok_of (FP2.Ok.mono (by assumption) (by norm_num)) (FP2.Ok.mono (by assumption) (by norm_num))
    (FP2.Ok.mono (by assumption) (by norm_num)) ((pt.add pt').congr ?_ ?_ ?_ rfl))
  all_goals (try simp only [b2]); push_cast; ring

end ECP2

end Amcl.B383
