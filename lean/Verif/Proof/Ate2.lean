import Verif.Proof.Ate
import Verif.Model.Ate2
/-!
# The double pairing is the product of two pairings
-/

set_option exponentiation.threshold 6000

namespace Amcl

open Spec

seal FP2.mul FP2.sqr FP2.norm FP2.add FP2.sub FP2.rsub FP2.dbl FP2.neg FP2.imul FP2.mul_ip FP2.pmul
seal FP4.times_i FP12.sqr FP12.smul FP12.conj ECP2.add ECP2.dbl ECP2.neg Spec.finalExp

theorem FP12.Can.inj {f : FP12} {v w : Fp12} (hv : f.Can v) (hw : f.Can w) : v = w := by
  obtain ⟨a, b, c, ha, hb, hc, rfl⟩ := hv
  obtain ⟨a', b', c', ha', hb', hc', rfl⟩ := hw
  have h1 {f : FP} {x y : Fp} (h : f.Can x) (h' : f.Can y) : x = y := h.ok.res.symm.trans h'.ok.res
  have h2 {f : FP2} {x y : Fp2} (h : f.Can x) (h' : f.Can y) : x = y :=
    QuadraticAlgebra.ext (h1 h.a h'.a) (h1 h.b h'.b)
  have h4 {f : FP4} {x y : Fp4} (h : f.Can x) (h' : f.Can y) : x = y :=
    QuadraticAlgebra.ext (h2 h.a h'.a) (h2 h.b h'.b)
  rw [h4 ha ha', h4 hb hb', h4 hc hc']

namespace pair

theorem _root_.Spec.Same.swap {k a b c d : Fp12} (h : Same k (a * b * c * d)) : Same k (a * c * (b * d)) := by
  rwa [show a * b * c * d = a * c * (b * d) by ring] at h

theorem ate2Loop_wp {n3 n1 : BIG} {n : Nat} (h1 : n1.Nrm) (v1 : n1.val = n) (h3 : n3.Nrm)
    (v3 : n3.val = (3 * n : Nat)) (hn : 3 * n < 2 ^ 406) {P NP R NR : ECP2} {Q T : G2} {qx qy sx sy : FP} {x y u v : Fp}
    (hP : ECP2.Ok P (2 ^ 14) Q) (hNP : ECP2.Ok NP (2 ^ 14) (-Q)) (hz : Q ≠ 0 → P.z.toF = 1) (hz' : Q ≠ 0 → NP.z.toF = 1)
    (hR : ECP2.Ok R (2 ^ 14) T) (hNR : ECP2.Ok NR (2 ^ 14) (-T)) (hw : T ≠ 0 → R.z.toF = 1) (hw' : T ≠ 0 → NR.z.toF = 1)
    (hx : FP.Ok qx 1 (2 ^ 20) x) (hy : FP.Ok qy 1 (2 ^ 20) y)
    (hu : FP.Ok sx 1 (2 ^ 20) u) (hv : FP.Ok sy 1 (2 ^ 20) v) :
    ∀ (i : Nat) (r : FP12) (A B : ECP2) (k f f' : Fp12) (g g' : G2), i < 405 → FP12.Ok r 1 (2 ^ 12) k → Same k (f * f') →
      ECP2.Ok A (2 ^ 14) g → (Q = 0 → g = 0) → ECP2.Ok B (2 ^ 14) g' → (T = 0 → g' = 0) →
      Wp (ate2Loop n3 n1 P NP R NR qx qy sx sy i r A B) fun z => ∃ w, FP12.Ok z 1 (2 ^ 12) w ∧
        Same w (signedLoop x y n Q i f g * signedLoop u v n T i f' g') := by
  intro i
  induction i with
  | zero =>
    intro r A B k f f' g g' _ hr hs _ _ _ _
    exact Wp.ret ⟨k, hr, hs⟩
  | succ i ih =>
    intro r A B k f f' g g' hi hr hs hA hg hB hg'
    unfold ate2Loop
    have hgg : Q = 0 → g + g = 0 := fun h => by rw [hg h, zero_add]
    have hgg' : T = 0 → g' + g' = 0 := fun h => by rw [hg' h, zero_add]
    refine Wp.bind (FP12.sqr_wp (hr.mono (by norm_num))) fun r hr => ?_
    refine Wp.bind (linedbl_wp hA hx hy) ?_
    rintro ⟨lv, A'⟩ ⟨⟨z, hl, hlz⟩, hA'⟩
    refine Wp.bind (hl.smul (hr.mono (by norm_num))) fun r hr => ?_
    refine Wp.bind (linedbl_wp hB hu hv) ?_
    rintro ⟨lv', B'⟩ ⟨⟨z', hl', hlz'⟩, hB'⟩
    refine Wp.bind (hl'.smul (hr.mono (by norm_num))) fun r hr => ?_
    obtain ⟨b3, b1, e3, e1, eb⟩ := digit_eq n3 n1 h1 v1 h3 v3 hn (i := i + 1) (by omega)
    rw [e3, e1]
    simp only [Option.bind_eq_bind, Option.bind_some]
    rw [eb, signedLoop, signedLoop]
    have hs' := (hs.sq.mul hlz).mul hlz'
    rw [mul_pow] at hs'
    have hs' := hs'.swap
    split
    · refine Wp.bind (lineadd_wp (hA'.mono (by norm_num)) hP hz hgg hx hy) ?_
      rintro ⟨lv, A''⟩ ⟨⟨z, hl, hlz⟩, hA''⟩
      refine Wp.bind (hl.smul (hr.mono (by norm_num))) fun r hr => ?_
      refine Wp.bind (lineadd_wp (hB'.mono (by norm_num)) hR hw hgg' hu hv) ?_
      rintro ⟨lv', B''⟩ ⟨⟨z', hl', hlz'⟩, hB''⟩
      refine Wp.bind (hl'.smul (hr.mono (by norm_num))) fun r hr => ?_
      refine ih r A'' B'' _ _ _ _ _ (by omega) hr ?_ (hA''.mono (by norm_num))
        (fun h => by rw [hgg h, h, zero_add]) (hB''.mono (by norm_num)) (fun h => by rw [hgg' h, h, zero_add])
      exact ((hs'.mul hlz).mul hlz').swap
    · split
      · refine Wp.bind (lineadd_wp (hA'.mono (by norm_num)) hNP (fun h => hz' (neg_ne_zero.1 h))
          (fun h => hgg (neg_eq_zero.1 h)) hx hy) ?_
        rintro ⟨lv, A''⟩ ⟨⟨z, hl, hlz⟩, hA''⟩
        refine Wp.bind (hl.smul (hr.mono (by norm_num))) fun r hr => ?_
        refine Wp.bind (lineadd_wp (hB'.mono (by norm_num)) hNR (fun h => hw' (neg_ne_zero.1 h))
          (fun h => hgg' (neg_eq_zero.1 h)) hu hv) ?_
        rintro ⟨lv', B''⟩ ⟨⟨z', hl', hlz'⟩, hB''⟩
        refine Wp.bind (hl'.smul (hr.mono (by norm_num))) fun r hr => ?_
        refine ih r A'' B'' _ _ _ _ _ (by omega) hr ?_ (hA''.mono (by norm_num))
          (fun h => by rw [hgg h, h, neg_zero, zero_add]) (hB''.mono (by norm_num))
          (fun h => by rw [hgg' h, h, neg_zero, zero_add])
        exact ((hs'.mul hlz).mul hlz').swap
      · exact ih r A' B' _ _ _ _ _ (by omega) hr hs' (hA'.mono (by norm_num)) hgg (hB'.mono (by norm_num)) hgg'

/-- `ate2` multiplies the results of two runs of Miller's algorithm, up to factors killed by the final
exponentiation. -/
theorem ate2_wp {P R : ECP2} {Q T : G2} {S U : ECP} {x y u v : Fp} (hP : ECP2.Ok P (2 ^ 10) Q) (hz : Q ≠ 0 → P.z.toF = 1)
    (hx : FP.Ok S.x 1 (2 ^ 20) x) (hy : FP.Ok S.y 1 (2 ^ 20) y)
    (hR : ECP2.Ok R (2 ^ 10) T) (hw : T ≠ 0 → R.z.toF = 1)
    (hu : FP.Ok U.x 1 (2 ^ 20) u) (hv : FP.Ok U.y 1 (2 ^ 20) v) :
    Wp (ate2 P S R U) fun z => ∃ w, FP12.Ok z 1 (5 * 2 ^ 12) (τ w) ∧ Same w (signedMiller x y Q * signedMiller u v T) := by
  unfold ate2
  refine Wp.bind norm_BNX ?_
  rintro n ⟨n1, v1⟩
  have hlt : 3 * xAbs < 2 ^ 406 := by decide +kernel
  have hlt' : (xAbs : Int) < 2 ^ 70 := by decide +kernel
  have hpos : (0 : Int) ≤ xAbs := Int.natCast_nonneg _
  refine Wp.bind (BIG.pmul_wp (n1.lim (by omega) (by omega) (by norm_num)) (c := 3) ⟨by norm_num, by norm_num⟩ (by omega) (by omega)) ?_
  rintro e3 ⟨n3, v3⟩
  refine Wp.bind (BIG.norm_wp (n3.lim (by omega) (by omega) (by norm_num))) ?_
  rintro e3' ⟨n3', v3'⟩
  rw [v3] at v3'
  have v3'' : e3'.val = (3 * xAbs : Nat) := by push_cast; omega
  refine Wp.bind (FP12.new_int_wp (a := 1) (by norm_num) (by norm_num)) fun r hr => ?_
  obtain ⟨NP, eNP, hNP⟩ := ECP2.neg_wp hP (by norm_num)
  have hzN := neg_z eNP
  refine Wp.bind (Wp.of_eq eNP rfl) ?_
  rintro _ rfl
  obtain ⟨NR, eNR, hNR⟩ := ECP2.neg_wp hR (by norm_num)
  have hwN := neg_z eNR
  refine Wp.bind (Wp.of_eq eNR rfl) ?_
  rintro _ rfl
  refine Wp.bind (BIG.nbits_wp (n3'.lim (by omega) (by omega) (by norm_num)) (by omega)) ?_
  rintro nb hnb
  rw [v3'', Int.toNat_natCast] at hnb
  subst hnb
  have hs0 : (3 * xAbs).size ≠ 0 := by decide +kernel
  have hs1 : (3 * xAbs).size - 2 < 405 := by decide +kernel
  rw [if_neg hs0]
  refine Wp.bind (ate2Loop_wp n1 v1 n3' v3'' hlt (hP.mono (by norm_num)) (hNP.mono (by norm_num)) hz
    (by rw [hzN]; exact hz) (hR.mono (by norm_num)) (hNR.mono (by norm_num)) hw
    (by rw [hwN]; exact hw) hx hy hu hv _ r P R 1 1 1 Q T hs1 ((hr.mono (by norm_num)).congr (by norm_num))
    (by rw [mul_one]; exact Same.refl 1)
    (hP.mono (by norm_num)) id (hR.mono (by norm_num)) id) ?_
  rintro z ⟨w, hw, hs⟩
  exact (FP12.conj_wp hw (by norm_num)).mono fun r hr => ⟨w, hr, hs⟩

/-- `fexp` of `ate2` for any points of the twist and any pairs of field elements. -/
theorem fexp_ate2_wp {P R : ECP2} {Q T : G2} {S U : ECP} {x y u v : Fp} (hP : ECP2.Ok P (2 ^ 10) Q) (hz : Q ≠ 0 → P.z.toF = 1)
    (hx : FP.Ok S.x 1 (2 ^ 20) x) (hy : FP.Ok S.y 1 (2 ^ 20) y)
    (hR : ECP2.Ok R (2 ^ 10) T) (hw : T ≠ 0 → R.z.toF = 1)
    (hu : FP.Ok U.x 1 (2 ^ 20) u) (hv : FP.Ok U.y 1 (2 ^ 20) v) :
    Wp (do fexp (← ate2 P S R U)) fun z =>
      FP12.Can z ((signedMiller x y Q)⁻¹ ^ finalExp * (signedMiller u v T)⁻¹ ^ finalExp) := by
  refine Wp.bind (ate2_wp hP hz hx hy hR hw hu hv) ?_
  rintro e ⟨w, hw, hs⟩
  refine (fexp_wp hw).mono fun r hr => ?_
  rwa [τ_finalExp, inv_pow, hs.pow_eq, ← inv_pow, mul_inv, mul_pow] at hr

end pair

end Amcl
