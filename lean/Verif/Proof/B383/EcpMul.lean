import Verif.Proof.B383.Ecp
import Verif.Proof.Window
/-!
# `ECP::mul` computes scalar multiples
-/

set_option exponentiation.threshold 2000

namespace Amcl.B383

open Spec Spec.B383

namespace ECP

/-- What `mul` returns: a representation of `g`, affine unless `g = 0`. -/
def Post (P : ECP) (g : G1) : Prop := Ok P (2 ^ 10) g ∧ (g ≠ 0 → FP.Can P.z 1)

theorem laws : Window.Laws ops (fun P g => Ok P (2 ^ 10) g) (fun P g => Ok P (2 ^ 13) g) Post where
  up h := h.mono (by norm_num)
  add h h' := (add_wp (h.mono (by norm_num)) (h'.mono (by norm_num))).mono fun _ h => h.mono (by norm_num)
  dbl h := (dbl_wp (h.mono (by norm_num))).mono fun _ h => h.mono (by norm_num)
  neg h := (neg_wp h (by norm_num)).mono fun _ h => h.mono (by norm_num)
  cmove h h' hd := cmove_eq h h' (by norm_num) hd
  affine h := (affine_wp h (by norm_num)).mono fun _ h => ⟨h.1, h.2.2.1⟩

theorem mul_wp {P : ECP} {g : G1} (hP : Ok P (2 ^ 10) g) {e : BIG} (he : e.Nrm) (h0 : 0 ≤ e.val)
    (h1 : e.val < 2 ^ 403) : Wp (mul P e) fun r => Post r (e.val • g) := by
  unfold mul
  split
  · rename_i hz
    rw [BIG.iszilch_spec he] at hz
    rw [hz, zero_smul]
    exact new_wp.mono fun r h => ⟨h.mono (by norm_num), fun h => absurd rfl h⟩
  · refine Wp.bind (is_infinity_wp hP (by norm_num)) fun b hb => ?_
    split
    · rename_i ht
      rw [hb.1 ht, smul_zero]
      exact new_wp.mono fun r h => ⟨h.mono (by norm_num), fun h => absurd rfl h⟩
    · exact Window.mul_wp laws hP he h0 h1

end ECP

end Amcl.B383
