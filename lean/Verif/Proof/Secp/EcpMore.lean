import Verif.Proof.Secp.EcpMul
import Verif.Proof.Secp.BigArith
import Verif.Proof.Secp.Codec1
import Verif.Proof.Secp.Orders
import Verif.Model.Secp.EcpMore
/-!
# Points with a larger ordinate, as `new_bigint` makes them

`new_bigint` negates the ordinate without normalising it. The operations are proved here for points whose
ordinate is not normalised.
-/

set_option exponentiation.threshold 2000

namespace Amcl.Secp

open Spec.Secp
open Spec (Pt)

seal FP.mul FP.sqr FP.norm FP.add FP.sub FP.rsub FP.dbl FP.neg FP.imul

namespace ECP

/-- `P` represents `g`, with excesses at most `E`; the ordinate need not be normalised. -/
structure OkY (P : ECP) (E : Int) (g : G1) : Prop where
  x : FP.Ok P.x 1 E P.x.toF
  y : FP.Ok P.y 2 E P.y.toF
  z : FP.Ok P.z 1 E P.z.toF
  pt : Proj P.x.toF P.y.toF P.z.toF g

theorem Ok.okY {P : ECP} {E : Int} {g : G1} (h : Ok P E g) : OkY P E g :=
  ⟨h.x, h.y.mono (by omega), h.z, h.pt⟩

theorem OkY.mono {P : ECP} {E E' : Int} {g : G1} (h : OkY P E g) (hE : E ≤ E') : OkY P E' g :=
  ⟨h.x.mono (by omega), h.y.mono (by omega), h.z.mono (by omega), h.pt⟩

theorem OkY.one_le {P : ECP} {E : Int} {g : G1} (h : OkY P E g) : 1 ≤ E := h.x.x1.trans h.x.xE

theorem okY_of {P : ECP} {E : Int} {g : G1} {X Y Z : Fp} (x : FP.Ok P.x 1 E X) (y : FP.Ok P.y 2 E Y)
    (z : FP.Ok P.z 1 E Z) (pt : Proj X Y Z g) : OkY P E g := by
  have ex := x.res
  have ey := y.res
  have ez := z.res
  subst ex ey ez
  exact ⟨x, y, z, pt⟩

theorem dbl_wpY {P : ECP} {g : G1} (hP : OkY P (2 ^ 14) g) :
    Wp (dbl P) fun r => Ok r 32 (g + g) := by
  unfold dbl
  rw [show 3 * rom.CURVE_B_I = 21 from rfl]
  obtain ⟨hx, hy, hz, pt⟩ := hP
  repeat secp_step
  refine Wp.ret (ok_of (FP.Ok.mono (by assumption) (by norm_num)) (FP.Ok.mono (by assumption) (by norm_num))
    (FP.Ok.mono (by assumption) (by norm_num)) (pt.dbl.congr ?_ ?_ ?_ rfl))
  all_goals (try simp only [b1]); push_cast; ring

set_option maxHeartbeats 4000000 in
theorem add_wpY {P Q : ECP} {g h : G1} (hP : OkY P (2 ^ 14) g) (hQ : OkY Q (2 ^ 14) h) :
    Wp (add P Q) fun r => Ok r 32 (g + h) := by
  unfold add
  rw [show 3 * rom.CURVE_B_I = 21 from rfl]
  obtain ⟨hx, hy, hz, pt⟩ := hP
  obtain ⟨hx', hy', hz', pt'⟩ := hQ
  repeat secp_step
  refine Wp.ret (ok_of (FP.Ok.mono (by assumption) (by norm_num)) (FP.Ok.mono (by assumption) (by norm_num))
    (FP.Ok.mono (by assumption) (by norm_num)) ((pt.add pt').congr ?_ ?_ ?_ rfl))
  all_goals (try simp only [b1]); push_cast; ring

theorem neg_wpY {P : ECP} {E : Int} {g : G1} (hP : OkY P E g) (hE : E ≤ 2 ^ 20) :
    Wp (neg P) fun r => Ok r (2 * E) (-g) := by
  unfold neg
  have h1 := hP.one_le
  refine Wp.bind (FP.neg_wp hP.y (by omega)) fun a ha => ?_
  refine Wp.bind (FP.norm_ok ha (by omega)) fun b hb => ?_
  exact Wp.ret (ok_of (hP.x.mono (by omega)) (hb.mono (by omega)) (hP.z.mono (by omega)) hP.pt.neg)

theorem cmove_eqY {P Q : ECP} {E E' : Int} {g h : G1} (hP : OkY P E g) (hQ : OkY Q E' h)
    (hE : E ≤ 2 ^ 26 ∧ E' ≤ 2 ^ 26) {d : Int} (hd : d = 0 ∨ d = 1) :
    cmove P Q d = if d = 0 then P else Q := by
  rw [cmove, FP.cmove_eq hP.x hQ.x (by omega) hd, FP.cmove_eq hP.y hQ.y (by omega) hd,
    FP.cmove_eq hP.z hQ.z (by omega) hd]
  split <;> rfl

theorem is_infinity_wpY {P : ECP} {E : Int} {g : G1} (hP : OkY P E g) (hE : E ≤ 2 ^ 24) :
    Wp (is_infinity P) fun r => r = true ↔ g = 0 := by
  unfold is_infinity
  refine Wp.bind (FP.iszilch_wp hP.x (by omega)) ?_
  rintro ⟨zx, x⟩ ⟨hx, -⟩
  dsimp only at hx ⊢
  split
  · refine Wp.bind (FP.iszilch_wp hP.z (by omega)) ?_
    rintro ⟨zz, z⟩ ⟨hz, -⟩
    refine Wp.ret ?_
    dsimp only at hz ⊢
    rw [hz, ← hP.pt.inf_iff]
    tauto
  · refine Wp.ret ?_
    rw [← hP.pt.inf_iff]
    simp only [Bool.false_eq_true, false_iff]
    tauto

theorem affine_wpY {P : ECP} {E : Int} {g : G1} (hP : OkY P E g) (hE : E ≤ 2 ^ 24) :
    Wp (affine P) fun r => OkY r E g ∧ (g = 0 → r = P) ∧ (g ≠ 0 → FP.Can r.z 1) ∧
      (P.z.toF = 1 → r.x = P.x ∧ r.y = P.y) ∧
      (g ≠ 0 → P.z.toF ≠ 1 → FP.Can r.x r.x.toF ∧ FP.Can r.y r.y.toF) := by
  unfold affine
  have h1 := hP.one_le
  refine Wp.bind (is_infinity_wpY hP hE) fun e he => ?_
  split
  · rename_i ht
    have hg := he.1 ht
    exact Wp.ret ⟨hP, fun _ => rfl, fun h => absurd hg h, fun _ => ⟨rfl, rfl⟩, fun h => absurd hg h⟩
  rename_i hf
  have hg : g ≠ 0 := fun h => hf (he.2 h)
  refine Wp.bind (FP.new_int_wp (a := 1) (by norm_num) (by norm_num)) fun one ho => ?_
  refine Wp.bind (FP.equals_wp hP.z ho (by omega)) ?_
  rintro ⟨e', z, one⟩ ⟨he', hz, ho⟩
  rw [Int.cast_one] at he' ho
  dsimp only at he' hz ho ⊢
  split
  · rename_i ht
    have e1 := he'.1 ht
    refine Wp.ret ⟨okY_of hP.x hP.y (hz.ok.mono (by omega)) hP.pt, fun h => absurd h hg, fun _ => ?_,
      fun _ => ⟨rfl, rfl⟩, fun _ h => absurd e1 h⟩
    rw [e1] at hz
    exact hz
  rename_i hn
  have e1 : P.z.toF ≠ 1 := fun h => hn (he'.2 h)
  refine Wp.bind (FP.inverse_wp hz.ok (by norm_num)) fun zi hzi => ?_
  refine Wp.bind (FP.mul_wp hP.x hzi.ok (by omega)) fun x hx => ?_
  refine Wp.bind (FP.reduce_wp hx (by norm_num)) fun x hx => ?_
  refine Wp.bind (FP.mul_wp hP.y hzi.ok (by omega)) fun y hy => ?_
  refine Wp.bind (FP.reduce_wp hy (by norm_num)) fun y hy => ?_
  obtain ⟨-, h', e⟩ := hP.pt.aff hg
  refine Wp.ret ⟨okY_of (hx.ok.mono (by omega)) (hy.ok.mono (by omega)) (ho.ok.mono (by omega))
    ((Proj.mk h').congr rfl rfl rfl e.symm), fun h => absurd h hg, fun _ => ho,
    fun h => absurd h e1, fun _ _ => ⟨?_, ?_⟩⟩
  · exact hx.res ▸ hx
  · exact hy.res ▸ hy

theorem lawsY : Window.Laws ops (fun P g => OkY P (2 ^ 10) g) (fun P g => OkY P (2 ^ 13) g)
    (fun P g => OkY P (2 ^ 10) g) where
  up h := h.mono (by norm_num)
  add h h' := (add_wpY (h.mono (by norm_num)) (h'.mono (by norm_num))).mono fun _ h =>
    (h.mono (by norm_num)).okY
  dbl h := (dbl_wpY (h.mono (by norm_num))).mono fun _ h => (h.mono (by norm_num)).okY
  neg h := (neg_wpY h (by norm_num)).mono fun _ h => (h.mono (by norm_num)).okY
  cmove h h' hd := cmove_eqY h h' (by norm_num) hd
  affine h := (affine_wpY h (by norm_num)).mono fun _ h => h.1

/-- The result is normalised. -/
theorem mul_wpY {P : ECP} {g : G1} (hP : OkY P (2 ^ 10) g) {e : BIG} (he : e.Nrm) (h0 : 0 ≤ e.val)
    (h1 : e.val < 2 ^ 275) : Wp (mul P e) fun r => Post r (e.val • g) := by
  unfold mul
  split
  · rename_i hz
    rw [BIG.iszilch_spec he] at hz
    rw [hz, zero_smul]
    exact new_wp.mono fun r h => ⟨h.mono (by norm_num), fun h => absurd rfl h⟩
  · refine Wp.bind (is_infinity_wpY hP (by norm_num)) fun b hb => ?_
    split
    · rename_i ht
      rw [hb.1 ht, smul_zero]
      exact new_wp.mono fun r h => ⟨h.mono (by norm_num), fun h => absurd rfl h⟩
    · exact Window.mul_core lawsY (Sum := fun P g => Ok P (2 ^ 10) g)
        (fun h h' => (add_wpY (h.mono (by norm_num)) (h'.mono (by norm_num))).mono fun _ h => h.mono (by norm_num))
        (fun h => (affine_wp h (by norm_num)).mono fun _ h => ⟨h.1, h.2.2.1⟩) hP he h0 h1

end ECP

end Amcl.Secp
