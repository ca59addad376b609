import Verif.Proof.B383.Codec1
import Verif.Proof.B383.Ecp2
/-!
# Encoding of points of the twist
-/

set_option exponentiation.threshold 2000

namespace Amcl.B383

open Spec Spec.B383

seal Spec.toBE

open Classical in
/-- The number written for a coordinate `v`, stored in `f` when the point is already affine. -/
noncomputable def FP.outIf (aff : Prop) (f : FP) (v : Fp) : Nat :=
  if v = 0 ∧ aff ∧ f.x.val ≠ 0 then p else v.val

theorem FP.outIf_le (a : Prop) (f : FP) (v : Fp) : FP.outIf a f v ≤ p := by
  unfold FP.outIf
  split
  · exact le_rfl
  · exact (ZMod.val_lt v).le

theorem FP.outIf_of_ne {a : Prop} {f : FP} {v : Fp} (h : v ≠ 0) : FP.outIf a f v = v.val := by
  rw [FP.outIf, if_neg (by simp [h])]

theorem FP.outIf_eq {a : Prop} {f r : FP} {v : Fp} (h1 : a → r = f) (h2 : ¬ a → FP.Can r v) :
    FP.outNat r v = FP.outIf a f v := by
  by_cases ha : a
  · rw [h1 ha, FP.outNat, FP.outIf]
    simp only [ha, true_and]
  · rw [(h2 ha).outNat, FP.outIf, if_neg (by simp [ha])]

namespace ECP2

/-- The coordinates the encoders write for a representation `P`. -/
noncomputable def xaOut (P : ECP2) (x : Fp2) : Nat := FP.outIf (P.z.toF = 1) P.x.a x.re
@[inherit_doc xaOut] noncomputable def xbOut (P : ECP2) (x : Fp2) : Nat := FP.outIf (P.z.toF = 1) P.x.b x.im
@[inherit_doc xaOut] noncomputable def ybOut (P : ECP2) (y : Fp2) : Nat := FP.outIf (P.z.toF = 1) P.y.b y.im

theorem affine_coords {P : ECP2} {E : Int} {x y : Fp2} {h : y ^ 2 = x ^ 3 + b2} (hP : Ok P E (Pt.mk x y h))
    (hE : 2 ≤ E ∧ E ≤ 2 ^ 18) :
    Wp P.affine fun r => Ok r E (Pt.mk x y h) ∧ FP2.Ok r.x 1 E x ∧ FP2.Ok r.y 1 E y ∧ r.z.toF = 1 ∧
      FP.outNat r.x.a x.re = P.xaOut x ∧ FP.outNat r.x.b x.im = P.xbOut x ∧
      FP.outNat r.y.b y.im = P.ybOut y ∧ (P.z.toF = 1 → r.x = P.x ∧ r.y = P.y) := by
  refine (affine_wp hP hE).mono ?_
  rintro r ⟨hr, -, hz, h1, h2⟩
  have hz := hz (Pt.mk_ne h)
  have h2 := h2 (Pt.mk_ne h)
  obtain ⟨h', e⟩ := hr.pt.coords hz
  rw [Pt.mk_inj] at e
  refine ⟨hr, e.1 ▸ hr.x, e.2 ▸ hr.y, hz, FP.outIf_eq (fun h => by rw [(h1 h).1]) fun h => ?_,
    FP.outIf_eq (fun h => by rw [(h1 h).1]) fun h => ?_, FP.outIf_eq (fun h => by rw [(h1 h).2]) fun h => ?_, h1⟩
  · rw [e.1]; exact (h2 h).1.a
  · rw [e.1]; exact (h2 h).1.b
  · rw [e.2]; exact (h2 h).2.b

theorem tobytes_wp {P : ECP2} {E : Int} {x y : Fp2} {h : y ^ 2 = x ^ 3 + b2} (hP : Ok P E (Pt.mk x y h))
    (hE : 2 ≤ E ∧ E ≤ 2 ^ 18) :
    Wp P.tobytes fun r => ∃ ya, r = toBE 48 (P.xaOut x) ++ toBE 48 (P.xbOut x) ++ toBE 48 ya ++
      toBE 48 (P.ybOut y) := by
  unfold tobytes FP2.geta FP2.getb
  have hp := p_le_pow
  refine Wp.bind (affine_coords hP hE) ?_
  rintro Q ⟨hQ, hx, hy, hz, e1, e2, e3, -⟩
  refine Wp.bind (FP.redc_nat hx.a (by omega)) ?_
  rintro X ⟨nX, vX⟩
  have := FP.outNat_le Q.x.a x.re
  refine Wp.bind (Wp.eq (nX.tobytes vX (by omega))) ?_
  rintro _ rfl
  refine Wp.bind (FP.redc_nat hx.b (by omega)) ?_
  rintro X ⟨nX, vX⟩
  have := FP.outNat_le Q.x.b x.im
  refine Wp.bind (Wp.eq (nX.tobytes vX (by omega))) ?_
  rintro _ rfl
  refine Wp.bind (FP.redc_nat hy.a (by omega)) ?_
  rintro X ⟨nX, vX⟩
  have := FP.outNat_le Q.y.a y.re
  refine Wp.bind (Wp.eq (nX.tobytes vX (by omega))) ?_
  rintro _ rfl
  refine Wp.bind (FP.redc_nat hy.b (by omega)) ?_
  rintro X ⟨nX, vX⟩
  have := FP.outNat_le Q.y.b y.im
  refine Wp.bind (Wp.eq (nX.tobytes vX (by omega))) ?_
  rintro _ rfl
  rw [e1, e2, e3]
  exact Wp.ret ⟨_, rfl⟩

end ECP2

end Amcl.B383
