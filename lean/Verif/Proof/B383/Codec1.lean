import Verif.Proof.B383.Ecp
import Verif.Proof.Bytes48
/-!
# Encoding of points of the first curve
-/

set_option exponentiation.threshold 2000

namespace Amcl.B383

open Spec Spec.B383

seal Spec.toBE

/-- The number `redc` returns: the least residue, except that a nonzero representation of 0 gives `p`. -/
def FP.outNat (f : FP) (v : Fp) : Nat := if v = 0 ∧ f.x.val ≠ 0 then p else v.val

theorem FP.outNat_le (f : FP) (v : Fp) : FP.outNat f v ≤ p := by
  unfold FP.outNat
  split
  · exact le_rfl
  · exact (ZMod.val_lt v).le

theorem FP.outNat_of_ne {f : FP} {v : Fp} (h : v ≠ 0) : FP.outNat f v = v.val := by
  rw [FP.outNat, if_neg (by simp [h])]

theorem FP.Can.outNat {f : FP} {v : Fp} (h : FP.Can f v) : FP.outNat f v = v.val := by
  rw [FP.outNat, if_neg]
  rintro ⟨h0, h1⟩
  exact h1 (h.zero_iff.2 h0)

theorem FP.redc_nat {f : FP} {L E : Int} {v : Fp} (hf : FP.Ok f L E v) (h : 1 ≤ L ∧ L ≤ 8 ∧ E ≤ 2 ^ 23) :
    Wp f.redc fun r => r.Nrm ∧ r.val = (FP.outNat f v : Int) := by
  refine (FP.redc_wp hf h).mono ?_
  rintro r ⟨hn, h0, h1, hv, hz⟩
  refine ⟨hn, ?_⟩
  rw [FP.outNat]
  have hp := p_val
  split
  · rename_i hc
    obtain ⟨hc, hc'⟩ := hc
    have hr : r.val ≠ 0 := fun e => hc' (hz.1 e)
    rw [hc, ZMod.intCast_zmod_eq_zero_iff_dvd] at hv
    obtain ⟨k, hk⟩ := hv
    have : k = 1 := by
      rw [hk] at h0 h1 hr
      have hp0 := p_pos
      have : 0 < k := by
        rcases lt_trichotomy k 0 with h | h | h
        · nlinarith
        · simp [h] at hr
        · exact h
      nlinarith
    rw [hk, this, mul_one]
  · rename_i hc
    have hlt : r.val < p := by
      rcases h1.lt_or_eq with h | h
      · exact h
      · exfalso
        have hv0 : v = 0 := by rw [← hv, h]; simp
        refine hc ⟨hv0, fun e => ?_⟩
        have := hz.2 e
        have := p_pos
        omega
    have : r.val.toNat = v.val := by
      rw [← hv, ← Int.toNat_of_nonneg h0, Int.cast_natCast, Int.toNat_natCast, ZMod.val_natCast,
        Nat.mod_eq_of_lt (by omega)]
    omega

namespace ECP

/-- The first coordinate the encoders write for a representation `P` of a point with abscissa `x`. -/
def xOut (P : ECP) (x : Fp) : Nat := if x = 0 ∧ P.z.toF = 1 ∧ P.x.x.val ≠ 0 then p else x.val

theorem xOut_le (P : ECP) (x : Fp) : P.xOut x ≤ p := by
  unfold xOut
  split
  · exact le_rfl
  · exact (ZMod.val_lt x).le

theorem xOut_of_ne {P : ECP} {x : Fp} (h : x ≠ 0) : P.xOut x = x.val := by
  rw [xOut, if_neg (by simp [h])]

theorem affine_coords {P : ECP} {E : Int} {x y : Fp} {h : y ^ 2 = x ^ 3 + b1} (hP : Ok P E (Pt.mk x y h))
    (hE : E ≤ 2 ^ 23) :
    Wp P.affine fun r => Ok r E (Pt.mk x y h) ∧ FP.Ok r.x 1 E x ∧ FP.Ok r.y 1 E y ∧ r.z.toF = 1 ∧
      FP.outNat r.x x = P.xOut x := by
  refine (affine_wp hP hE).mono ?_
  rintro r ⟨hr, -, hz, h1, h2⟩
  have hz := (hz (Pt.mk_ne h)).res
  obtain ⟨h', e⟩ := hr.coords hz
  rw [Pt.mk_inj] at e
  refine ⟨hr, e.1 ▸ hr.x, e.2 ▸ hr.y, hz, ?_⟩
  rw [FP.outNat, xOut]
  by_cases hc : P.z.toF = 1
  · rw [(h1 hc).1]; simp [hc]
  · have := (h2 (Pt.mk_ne h) hc).1.zero_iff
    rw [← e.1] at this
    rw [if_neg, if_neg]
    · simp [hc]
    · rintro ⟨e0, e1⟩
      exact e1 (this.2 e0)

theorem getx_wp {P : ECP} {E : Int} {x y : Fp} {h : y ^ 2 = x ^ 3 + b1} (hP : Ok P E (Pt.mk x y h))
    (hE : E ≤ 2 ^ 23) :
    Wp P.getx fun r => r.1.Nrm ∧ r.1.val = (P.xOut x : Int) ∧ Ok r.2 E (Pt.mk x y h) := by
  unfold getx
  refine Wp.bind (affine_coords hP hE) ?_
  rintro Q ⟨hQ, hx, hy, hz, eo⟩
  refine Wp.bind (FP.redc_nat hx (by omega)) ?_
  rintro r ⟨hn, hv⟩
  exact Wp.ret ⟨hn, by rw [hv, eo], hQ⟩

theorem gety_wp {P : ECP} {E : Int} {x y : Fp} {h : y ^ 2 = x ^ 3 + b1} (hP : Ok P E (Pt.mk x y h))
    (hE : E ≤ 2 ^ 23) :
    Wp P.gety fun r => r.1.Nrm ∧ r.1.val = (y.val : Int) ∧ Ok r.2 E (Pt.mk x y h) ∧ r.2.z.toF = 1 ∧
      (P.z.toF = 1 → r.2.x = P.x) := by
  unfold gety
  refine Wp.bind ((affine_coords hP hE).and (affine_wp hP hE)) ?_
  rintro Q ⟨⟨hQ, hx, hy, hz, eo⟩, -, -, -, hq, -⟩
  refine Wp.bind (FP.redc_nat hy (by omega)) ?_
  rintro r ⟨hn, hv⟩
  exact Wp.ret ⟨hn, by rw [hv, FP.outNat_of_ne (Pt.y_ne h)], hQ, hz, fun h => (hq h).1⟩

end ECP

theorem ECP.neg_xz {P : ECP} {E : Int} {g : G1} (hP : ECP.Ok P E g) (hE : E ≤ 2 ^ 20) :
    Wp P.neg fun r => r.x = P.x ∧ r.z = P.z := by
  unfold ECP.neg
  have h1 := hP.one_le
  refine Wp.bind (FP.neg_wp hP.y (by omega)) fun a ha => ?_
  refine Wp.bind (FP.norm_ok ha (by omega)) fun b hb => ?_
  exact Wp.ret ⟨rfl, rfl⟩

theorem p_le_pow : p ≤ 2 ^ 383 := by norm_num [p]

theorem ECP.tobytes_wp {P : ECP} {E : Int} {x y : Fp} {h : y ^ 2 = x ^ 3 + b1}
    (hP : ECP.Ok P E (Pt.mk x y h)) (hE : E ≤ 2 ^ 23) :
    Wp P.tobytes fun r => r.1 = 4 :: (toBE 48 (P.xOut x) ++ toBE 48 y.val) := by
  unfold ECP.tobytes
  have hp := p_le_pow
  have hx1 := P.xOut_le x
  have hyl := ZMod.val_lt y
  refine Wp.bind (ECP.affine_coords hP hE) ?_
  rintro Q ⟨hQ, hx, hy, hz, eo⟩
  refine Wp.bind (FP.redc_nat hx (by omega)) ?_
  rintro X ⟨nX, vX⟩
  rw [eo] at vX
  refine Wp.bind (Wp.eq (nX.tobytes vX (by omega))) ?_
  rintro _ rfl
  refine Wp.bind (FP.redc_nat hy (by omega)) ?_
  rintro Y ⟨nY, vY⟩
  rw [FP.outNat_of_ne (Pt.y_ne h)] at vY
  refine Wp.bind (Wp.eq (nY.tobytes vY (by omega))) ?_
  rintro _ rfl
  exact Wp.ret rfl

end Amcl.B383
