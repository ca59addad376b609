import Verif.Proof.Codec1
import Verif.Proof.Ecp2
/-!
# Encoding and decoding of points of the twist
-/

set_option exponentiation.threshold 2000

namespace Amcl

open Spec

seal Spec.toBE Spec.signBit Spec.enc1

open Classical in
/-- The number written for a coordinate `v`, stored in `f` when the point is already affine. -/
noncomputable def FP.outIf (aff : Prop) (f : FP) (v : Fp) : Nat :=
  if v = 0 ∧ aff ∧ f.x.val ≠ 0 then p else v.val

theorem FP.outIf_le (a : Prop) (f : FP) (v : Fp) : FP.outIf a f v ≤ p := by
  unfold FP.outIf
  split
  · exact le_rfl
  · exact (ZMod.val_lt v).le

theorem FP.outIf_of_ne {a : Prop} {f : FP} {v : Fp} (h : v ≠ 0) : FP.outIf a f v = v.val := by
  rw [FP.outIf, if_neg (by simp [h])]

theorem FP.outIf_eq {a : Prop} {f r : FP} {v : Fp} (h1 : a → r = f) (h2 : ¬ a → FP.Can r v) :
    FP.outNat r v = FP.outIf a f v := by
  by_cases ha : a
  · rw [h1 ha, FP.outNat, FP.outIf]
    simp only [ha, true_and]
  · rw [(h2 ha).outNat, FP.outIf, if_neg (by simp [ha])]

namespace ECP2

/-- The coordinates the encoders write for a representation `P`. -/
noncomputable def xaOut (P : ECP2) (x : Fp2) : Nat := FP.outIf (P.z.toF = 1) P.x.a x.re
@[inherit_doc xaOut] noncomputable def xbOut (P : ECP2) (x : Fp2) : Nat := FP.outIf (P.z.toF = 1) P.x.b x.im
@[inherit_doc xaOut] noncomputable def ybOut (P : ECP2) (y : Fp2) : Nat := FP.outIf (P.z.toF = 1) P.y.b y.im

theorem affine_coords {P : ECP2} {E : Int} {x y : Fp2} {h : y ^ 2 = x ^ 3 + b2} (hP : Ok P E (Pt.mk x y h))
    (hE : 2 ≤ E ∧ E ≤ 2 ^ 20) :
    Wp P.affine fun r => Ok r E (Pt.mk x y h) ∧ FP2.Ok r.x 1 E x ∧ FP2.Ok r.y 1 E y ∧ r.z.toF = 1 ∧
      FP.outNat r.x.a x.re = P.xaOut x ∧ FP.outNat r.x.b x.im = P.xbOut x ∧
      FP.outNat r.y.b y.im = P.ybOut y ∧ (P.z.toF = 1 → r.x = P.x ∧ r.y = P.y) := by
  refine (affine_wp hP hE).mono ?_
  rintro r ⟨hr, -, hz, h1, h2⟩
  have hz := hz (Pt.mk_ne h)
  have h2 := h2 (Pt.mk_ne h)
  obtain ⟨h', e⟩ := hr.pt.coords hz
  rw [Pt.mk_inj] at e
  refine ⟨hr, e.1 ▸ hr.x, e.2 ▸ hr.y, hz, FP.outIf_eq (fun h => by rw [(h1 h).1]) fun h => ?_,
    FP.outIf_eq (fun h => by rw [(h1 h).1]) fun h => ?_, FP.outIf_eq (fun h => by rw [(h1 h).2]) fun h => ?_, h1⟩
  · rw [e.1]; exact (h2 h).1.a
  · rw [e.1]; exact (h2 h).1.b
  · rw [e.2]; exact (h2 h).2.b

theorem tobytes_wp {P : ECP2} {E : Int} {x y : Fp2} {h : y ^ 2 = x ^ 3 + b2} (hP : Ok P E (Pt.mk x y h))
    (hE : 2 ≤ E ∧ E ≤ 2 ^ 20) :
    Wp P.tobytes fun r => ∃ ya, r = toBE 48 (P.xaOut x) ++ toBE 48 (P.xbOut x) ++ toBE 48 ya ++
      toBE 48 (P.ybOut y) := by
  unfold tobytes FP2.geta FP2.getb
  have hp := p_le_pow
  refine Wp.bind (affine_coords hP hE) ?_
  rintro Q ⟨hQ, hx, hy, hz, e1, e2, e3, -⟩
  refine Wp.bind (FP.redc_nat hx.a (by omega)) ?_
  rintro X ⟨nX, vX⟩
  have := FP.outNat_le Q.x.a x.re
  refine Wp.bind (Wp.eq (nX.tobytes vX (by omega))) ?_
  rintro _ rfl
  refine Wp.bind (FP.redc_nat hx.b (by omega)) ?_
  rintro X ⟨nX, vX⟩
  have := FP.outNat_le Q.x.b x.im
  refine Wp.bind (Wp.eq (nX.tobytes vX (by omega))) ?_
  rintro _ rfl
  refine Wp.bind (FP.redc_nat hy.a (by omega)) ?_
  rintro X ⟨nX, vX⟩
  have := FP.outNat_le Q.y.a y.re
  refine Wp.bind (Wp.eq (nX.tobytes vX (by omega))) ?_
  rintro _ rfl
  refine Wp.bind (FP.redc_nat hy.b (by omega)) ?_
  rintro X ⟨nX, vX⟩
  have := FP.outNat_le Q.y.b y.im
  refine Wp.bind (Wp.eq (nX.tobytes vX (by omega))) ?_
  rintro _ rfl
  rw [e1, e2, e3]
  exact Wp.ret ⟨_, rfl⟩

theorem neg_xz {P : ECP2} {E : Int} {g : G2} (hP : Ok P E g) (hE : E ≤ 2 ^ 20) :
    Wp P.neg fun r => r.x = P.x ∧ r.z = P.z := by
  unfold neg
  refine Wp.bind (FP2.norm_ok hP.y (by omega)) fun a ha => ?_
  have := hP.one_le
  refine Wp.bind (FP2.neg_wp ha (by omega)) fun a ha => ?_
  refine Wp.bind (FP2.norm_ok ha (by omega)) fun b hb => ?_
  exact Wp.ret ⟨rfl, rfl⟩

end ECP2

theorem compress_g2_inf {P : ECP2} {E : Int} (hP : ECP2.Ok P E 0) (hE : E ≤ 2 ^ 20) :
    utils.compress_g2 P = some (encInf 96) := by
  obtain ⟨r, e, hr⟩ := ECP2.is_infinity_wp hP (by omega)
  rw [utils.compress_g2, e, hr.2 rfl]
  rfl

theorem lt_pow_of_le_p {n : Nat} (h : n ≤ p) : n < 2 ^ 381 := by
  have : p < 2 ^ 381 := by norm_num [p]
  omega

theorem compress_g2_eq {P : ECP2} {E : Int} {x y : Fp2} {h : y ^ 2 = x ^ 3 + b2}
    (hP : ECP2.Ok P E (Pt.mk x y h)) (hE : 2 ≤ E ∧ E ≤ 2 ^ 20) :
    utils.compress_g2 P = some (enc2 (P.xaOut x) (P.xbOut x) (signBit (P.ybOut y))) := by
  suffices Wp (utils.compress_g2 P) fun r => r = enc2 (P.xaOut x) (P.xbOut x) (signBit (P.ybOut y)) by
    obtain ⟨r, e, rfl⟩ := this
    exact e
  unfold utils.compress_g2
  refine Wp.bind (ECP2.is_infinity_wp hP (by omega)) fun r hr => ?_
  rw [if_neg (fun e => Pt.mk_ne h (hr.1 e))]
  refine Wp.bind (ECP2.tobytes_wp hP hE) ?_
  rintro _ ⟨ya, rfl⟩
  dsimp only
  have l1 : (toBE 48 (P.xaOut x) ++ toBE 48 (P.xbOut x) ++ toBE 48 ya ++ toBE 48 (P.ybOut y)).take 48 =
      toBE 48 (P.xaOut x) := by
    simp only [List.append_assoc]
    rw [List.take_append_of_le_length (by rw [length_toBE]), List.take_of_length_le (by rw [length_toBE])]
  have l2 : ((toBE 48 (P.xaOut x) ++ toBE 48 (P.xbOut x) ++ toBE 48 ya ++ toBE 48 (P.ybOut y)).drop 48).take 48 =
      toBE 48 (P.xbOut x) := by
    simp only [List.append_assoc]
    rw [List.drop_left' (length_toBE _ _), List.take_append_of_le_length (by rw [length_toBE]),
      List.take_of_length_le (by rw [length_toBE])]
  have l3 : (toBE 48 (P.xaOut x) ++ toBE 48 (P.xbOut x) ++ toBE 48 ya ++ toBE 48 (P.ybOut y)).drop 144 =
      toBE 48 (P.ybOut y) := by
    rw [List.drop_left' (by simp only [List.length_append, length_toBE])]
  refine Wp.bind (a_flag_wp (FP.outIf_le _ _ _) l3) fun b hb => ?_
  refine Wp.bind (Wp.eq hb) ?_
  rintro _ rfl
  rw [l1, l2]
  exact Wp.eq (setFlags_eq (lt_pow_of_le_p (FP.outIf_le _ _ _)) (signBit_lt _) _)

/-- What `decompress_g2` does with two times 48 bytes of values `N` (first half) and `M`. -/
def Dec2 (N M : Nat) (r : Except DecodeError ECP2) : Prop :=
  (N < 2 ^ 383 → r = .error .InvalidCFlag) ∧
  (2 ^ 383 ≤ N → N / 2 ^ 382 % 2 = 1 → ¬ (N % 2 ^ 382 = 0 ∧ M = 0) → r = .error .BadPoint) ∧
  (2 ^ 383 ≤ N → N / 2 ^ 382 % 2 = 1 → N % 2 ^ 382 = 0 ∧ M = 0 → ∃ P, r = .ok P ∧ ECP2.Ok P 2 0) ∧
  ∀ x : Fp2, x = ⟨((M : Nat) : Fp), ((N % 2 ^ 381 : Nat) : Fp)⟩ →
    2 ^ 383 ≤ N → N / 2 ^ 382 % 2 = 0 →
    (¬ (IsSquare (x ^ 3 + b2) ∧ ((x ^ 3 + b2).im = 0 → IsSquare (x ^ 3 + b2).re)) →
      r = .error .BadPoint) ∧
    (IsSquare (x ^ 3 + b2) ∧ ((x ^ 3 + b2).im = 0 → IsSquare (x ^ 3 + b2).re) →
      ∃ P y h, r = .ok P ∧ IsSquare y.re ∧ P.z.toF = 1 ∧ (P.x.a.x.val = 0 ↔ M = 0) ∧
        (P.x.b.x.val = 0 ↔ N % 2 ^ 381 = 0) ∧
        ECP2.Ok P 10 (if signBit y.im.val = N / 2 ^ 381 % 2 then Pt.mk x y h else - Pt.mk x y h))

theorem decompress_g2_wp {b : List UInt8} (hb : b.length = 96) :
    Wp (utils.decompress_g2 b) (Dec2 (beNat (b.take 48)) (beNat (b.drop 48))) := by
  have hl1 : (b.take 48).length = 48 := by rw [List.length_take, hb]; rfl
  have hl2 : (b.drop 48).length = 48 := by rw [List.length_drop, hb]
  have e : b = toBE 48 (beNat (b.take 48)) ++ toBE 48 (beNat (b.drop 48)) := by
    rw [← toBE_of_bytes hl1, ← toBE_of_bytes hl2, List.take_append_drop]
  have hN := beNat_lt48 hl1
  have hM := beNat_lt48 hl2
  clear hl1 hl2
  generalize beNat (b.take 48) = N at *
  generalize beNat (b.drop 48) = M at *
  rw [toBE_succ 47 N, List.cons_append] at e
  generalize hb0 : UInt8.ofNat (N / 256 ^ 47 % 256) = b0 at e
  obtain ⟨f1, f2, f3, f4, -, f6⟩ := head_flags hN b0 hb0.symm
  unfold utils.decompress_g2
  rw [if_neg (by simpa using hb)]
  subst e
  dsimp only
  have hx : N % 2 ^ 381 < 2 ^ 381 := Nat.mod_lt _ (by norm_num)
  have e48 : b0 % 32 :: (toBE 47 N ++ toBE 48 M) = toBE 48 (N % 2 ^ 381) ++ toBE 48 M := by
    rw [toBE_succ 47 (N % 2 ^ 381), f6, List.cons_append]
    congr 2
    refine toBE_congr _ ?_
    rw [show (256 : Nat) ^ 47 = 2 ^ 376 by norm_num, Nat.mod_mod_of_dvd _ (by norm_num)]
  unfold Dec2
  by_cases h1 : N < 2 ^ 383
  · rw [if_pos (f1.2 h1)]
    exact Wp.ret ⟨fun _ => rfl, fun h => absurd h (by omega), fun h => absurd h (by omega),
      fun _ _ h => absurd h (by omega)⟩
  · rw [if_neg (fun h => h1 (f1.1 h))]
    by_cases h2 : N / 2 ^ 382 % 2 = 1
    · rw [if_pos (f2.2 h2)]
      have hany : (toBE 47 N ++ toBE 48 M).any (· ≠ 0) = true ↔ N % 2 ^ 376 ≠ 0 ∨ M ≠ 0 := by
        rw [List.any_append, Bool.or_eq_true, any_ne_iff, any_ne_iff,
          show (256 : Nat) ^ 47 = 2 ^ 376 by norm_num, Nat.mod_eq_of_lt (b := 256 ^ 48) (by omega)]
      by_cases h3 : N % 2 ^ 382 = 0 ∧ M = 0
      · rw [if_neg (fun h => h (f4.2 (by omega))), if_neg (by rw [hany]; omega)]
        refine Wp.bind ECP2.new_wp fun P hP => ?_
        exact Wp.ret ⟨fun h => absurd h h1, fun _ _ h => absurd h3 h, fun _ _ _ => ⟨P, rfl, hP⟩,
          fun _ _ _ h => absurd h (by omega)⟩
      · have : Wp (Pure.pure (.error .BadPoint) : Option (Except DecodeError ECP2)) (Dec2 N M) :=
          Wp.ret ⟨fun h => absurd h h1, fun _ _ _ => rfl, fun _ _ h => absurd h h3,
            fun _ _ _ h => absurd h (by omega)⟩
        by_cases h4 : N / 2 ^ 376 % 64 = 0
        · rw [if_neg (fun h => h (f4.2 h4)), if_pos (by rw [hany]; omega)]
          exact this
        · rw [if_pos (fun h => h4 (f4.1 h))]
          exact this
    · rw [if_neg (fun h => h2 (f2.1 h)), e48]
      rw [List.take_append_of_le_length (by rw [length_toBE]), List.take_of_length_le (by rw [length_toBE]),
        List.drop_left' (length_toBE _ _)]
      refine Wp.bind (frombytes_toBE (by omega)) ?_
      rintro ix ⟨nx, vx⟩
      refine Wp.bind (frombytes_toBE hM) ?_
      rintro iy ⟨ny, vy⟩
      have hp : (2 : Int) ^ 384 ≤ 2 ^ 25 * p := by norm_num [p]
      refine Wp.bind (FP2.new_bigs_wp ((ny.lim58 (by omega) (by omega)).mono (by norm_num))
        ((nx.lim58 (by omega) (by omega)).mono (by norm_num)) (by omega) (by omega) (by omega) (by omega)) ?_
      rintro f ⟨hf, fa, fb⟩
      rw [vx, vy, Int.cast_natCast, Int.cast_natCast] at hf
      rw [vx, Nat.cast_eq_zero] at fb
      rw [vy, Nat.cast_eq_zero] at fa
      generalize hxx : (⟨(M : Fp), ((N % 2 ^ 381 : Nat) : Fp)⟩ : Fp2) = x at hf
      refine Wp.bind (ECP2.new_fp2_wp hf (by norm_num)) ?_
      rintro P ⟨hs, hns⟩
      by_cases hsq : IsSquare (x ^ 3 + b2) ∧ ((x ^ 3 + b2).im = 0 → IsSquare (x ^ 3 + b2).re)
      · obtain ⟨y, h, hP, hz, ea, eb, hy, hys, hyz⟩ := hs hsq
        refine Wp.bind (ECP2.is_infinity_wp hP (by norm_num)) fun r hr => ?_
        rw [if_neg (fun e => Pt.mk_ne h (hr.1 e))]
        unfold ECP2.gety FP2.getb
        simp only [bind_assoc, pure_bind]
        refine Wp.bind (ECP2.affine_coords hP (by norm_num)) ?_
        rintro Q ⟨hQ, hxQ, hyQ, hzQ, o1, o2, o3, hQe⟩
        obtain ⟨hQx, hQy⟩ := hQe hz
        refine Wp.bind (FP.redc_nat hyQ.b (by norm_num)) ?_
        rintro Y ⟨nY, vY⟩
        have hout : FP.outNat Q.y.b y.im = y.im.val := by
          rw [FP.outNat, if_neg]
          rintro ⟨hc, hc'⟩
          exact hc' (by rw [hQy]; exact hyz hc)
        rw [hout] at vY
        have hyl := ZMod.val_lt y.im
        have hp := p_le_pow
        refine Wp.bind (Wp.eq (calc_a_flag_eq ((nY.lim58 (by omega) (by omega)).mono (by norm_num)) (by omega)
          (by omega))) ?_
        rintro _ rfl
        rw [vY, Int.toNat_natCast, f3]
        have hbit := ofNat_lt2 (signBit_lt y.im.val) (b := N / 2 ^ 381 % 2) (by omega)
        by_cases hc : signBit y.im.val = N / 2 ^ 381 % 2
        · rw [if_neg (fun h => h (hbit.2 hc))]
          refine Wp.ret ⟨fun h => absurd h h1, fun _ h => absurd h h2, fun _ h => absurd h h2, ?_⟩
          intro x' hx' _ _
          obtain rfl : x' = x := hx'
          refine ⟨fun h => absurd hsq h, fun _ => ⟨Q, y, h, rfl, hys, hzQ, by rw [hQx, ea, fa],
            by rw [hQx, eb, fb], ?_⟩⟩
          rw [if_pos hc]
          exact hQ.mono (by norm_num)
        · rw [if_pos (fun h => hc (hbit.1 h))]
          refine Wp.bind (ECP2.neg_wp hQ (by norm_num) |>.and (ECP2.neg_xz hQ (by norm_num))) ?_
          rintro R ⟨hR, ex, ez⟩
          refine Wp.ret ⟨fun h => absurd h h1, fun _ h => absurd h h2, fun _ h => absurd h h2, ?_⟩
          intro x' hx' _ _
          obtain rfl : x' = x := hx'
          refine ⟨fun h => absurd hsq h, fun _ => ⟨R, y, h, rfl, hys, by rw [ez, hzQ],
            by rw [ex, hQx, ea, fa], by rw [ex, hQx, eb, fb], ?_⟩⟩
          rw [if_neg hc]
          exact hR.mono (by norm_num)
      · refine Wp.bind (ECP2.is_infinity_wp (hns hsq) (by norm_num)) fun r hr => ?_
        rw [if_pos (hr.2 rfl)]
        refine Wp.ret ⟨fun h => absurd h h1, fun _ h => absurd h h2, fun _ h => absurd h h2, ?_⟩
        intro x' hx' _ _
        obtain rfl : x' = x := hx'
        exact ⟨fun _ => rfl, fun h => absurd h hsq⟩

end Amcl
