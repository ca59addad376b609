import Verif.Proof.B383.Lines
import Verif.Proof.B383.Fexp
import Verif.Proof.B383.Ecp2
/-!
# `linedbl`, `lineadd` and `ate` compute Miller's algorithm
-/

set_option exponentiation.threshold 6000

namespace Amcl.B383

open Spec Spec.B383

seal FP2.mul FP2.sqr FP2.norm FP2.add FP2.sub FP2.rsub FP2.dbl FP2.neg FP2.imul FP2.mul_ip FP2.pmul
seal FP4.times_i FP12.sqr FP12.smul FP12.conj ECP2.add ECP2.dbl ECP2.neg

namespace pair

/-- The value of the line `⟨⟨u, v⟩, 0, ⟨0, w⟩⟩`. -/
structure LineOk (l : FP12) (z : Fp12) : Prop where
  ok : ∃ u v w : Fp2, FP4.Ok l.a 1 (2 ^ 16) ⟨u, v⟩ ∧ FP4.Ok l.c 1 (2 ^ 16) ⟨0, w⟩ ∧
    z = ι2 u + ι2 v * W ^ 3 + ι2 w * W ^ 5

theorem mul_V (v : Fp2) : algebraMap Fp2 Fp4 v * V = ⟨0, v⟩ := by
  apply QuadraticAlgebra.ext <;> simp [V]

theorem LineOk.smul {f l : FP12} {v z : Fp12} (hf : FP12.Ok f 1 (2 ^ 16) v) (hl : LineOk l z) :
    Wp (f.smul l) fun r => FP12.Ok r 1 (2 ^ 12) (v * z) := by
  obtain ⟨a, b, c, h1, h2, rfl⟩ := hl.ok
  refine (FP12.smul_wp hf h1 h2).mono fun r hr => hr.congr ?_
  rw [ι4_mk]

set_option maxHeartbeats 4000000 in
theorem linedbl_wp {A : ECP2} {g : G2} {qx qy : FP} {x y : Fp} (hA : ECP2.Ok A (2 ^ 14) g)
    (hx : FP.Ok qx 1 (2 ^ 18) x) (hy : FP.Ok qy 1 (2 ^ 18) y) :
    Wp (linedbl A qx qy) fun r => (∃ z, LineOk r.1 z ∧ Same z (lineAt x y g g)) ∧ ECP2.Ok r.2 32 (g + g) := by
  unfold linedbl
  rw [show 3 * rom.CURVE_B_I = 45 from rfl]
  have hd := ECP2.dbl_wp hA
  obtain ⟨h1, h2, h3, pt⟩ := hA
  have t := tangent_same pt x y
  generalize A.x.toF = X at *
  generalize A.y.toF = Y at *
  generalize A.z.toF = Z at *
  refine Wp.bind (FP2.mul_wp h2 h3 (by norm_num)) fun yz e1 => ?_
  refine Wp.bind (FP2.sqr_wp h1 (by norm_num)) fun xx e2 => ?_
  refine Wp.bind (FP2.sqr_wp h2 (by norm_num)) fun yy e3 => ?_
  refine Wp.bind (FP2.sqr_wp h3 (by norm_num)) fun zz e4 => ?_
  refine Wp.bind (FP2.imul_wp e1 (by norm_num)) fun yz e1 => ?_
  refine Wp.bind (FP2.neg_wp e1 (by norm_num)) fun yz e1 => ?_
  refine Wp.bind (FP2.norm_ok e1 (by norm_num)) fun yz e1 => ?_
  refine Wp.bind (FP2.pmul_wp e1 hy (by norm_num)) fun yz e1 => ?_
  refine Wp.bind (FP2.imul_wp e2 (by norm_num)) fun xx e2 => ?_
  refine Wp.bind (FP2.pmul_wp e2 hx (by norm_num)) fun xx e2 => ?_
  refine Wp.bind (FP2.imul_wp e4 (by norm_num)) fun zz e4 => ?_
  refine Wp.bind (FP2.mul_ip_wp e4 (by norm_num)) fun zz e4 => ?_
  refine Wp.bind (FP2.dbl_wp e4 (by norm_num)) fun zz e4 => ?_
  refine Wp.bind (FP2.mul_ip_wp e1 (by norm_num)) fun yz e1 => ?_
  refine Wp.bind (FP2.norm_ok e1 (by norm_num)) fun yz e1 => ?_
  refine Wp.bind (FP2.norm_ok e4 (by norm_num)) fun zz e4 => ?_
  refine Wp.bind (FP2.dbl_wp e3 (by norm_num)) fun yy e3 => ?_
  refine Wp.bind (FP2.sub_wp e4 e3 (by norm_num)) fun zz e4 => ?_
  refine Wp.bind (FP2.norm_ok e4 (by norm_num)) fun zz e4 => ?_
  refine Wp.bind (FP4.times_i_wp (FP4.new_fp2_ok e2 (by norm_num)) (by norm_num)) fun c e5 => ?_
  refine Wp.bind hd fun A' hA' => ?_
  refine Wp.ret ⟨⟨_, ⟨_, _, _, ⟨e1.mono (by norm_num), e4.mono (by norm_num)⟩, (e5.mono (by norm_num)).congr (mul_V _), rfl⟩, ?_⟩, hA'⟩
  convert t using 5 <;> (push_cast; ring)

set_option maxHeartbeats 4000000 in
theorem lineadd_wp {A B : ECP2} {g h : G2} {qx qy : FP} {x y : Fp} (hA : ECP2.Ok A (2 ^ 14) g) (hB : ECP2.Ok B (2 ^ 14) h)
    (hz : h ≠ 0 → B.z.toF = 1) (hgh : h = 0 → g = 0) (hx : FP.Ok qx 1 (2 ^ 18) x) (hy : FP.Ok qy 1 (2 ^ 18) y) :
    Wp (lineadd A B qx qy) fun r => (∃ z, LineOk r.1 z ∧ Same z (chordAt x y g h)) ∧ ECP2.Ok r.2 32 (g + h) := by
  unfold lineadd
  have hd := ECP2.add_wp hA hB
  obtain ⟨h1, h2, h3, pt⟩ := hA
  obtain ⟨k1, k2, k3, pt'⟩ := hB
  have t := chord_same pt pt' hz hgh x y
  generalize A.x.toF = X at *
  generalize A.y.toF = Y at *
  generalize A.z.toF = Z at *
  generalize B.x.toF = X' at *
  generalize B.y.toF = Y' at *
  refine Wp.bind (FP2.mul_wp h3 k2 (by norm_num)) fun t1 e1 => ?_
  refine Wp.bind (FP2.mul_wp h3 k1 (by norm_num)) fun t2 e2 => ?_
  refine Wp.bind (FP2.sub_wp h1 e2 (by norm_num)) fun x1 e3 => ?_
  refine Wp.bind (FP2.norm_ok e3 (by norm_num)) fun x1 e3 => ?_
  refine Wp.bind (FP2.sub_wp h2 e1 (by norm_num)) fun y1 e4 => ?_
  refine Wp.bind (FP2.norm_ok e4 (by norm_num)) fun y1 e4 => ?_
  refine Wp.bind (FP2.pmul_wp e3 hy (by norm_num)) fun x1' e5 => ?_
  refine Wp.bind (FP2.mul_ip_wp e5 (by norm_num)) fun x1' e5 => ?_
  refine Wp.bind (FP2.norm_ok e5 (by norm_num)) fun x1' e5 => ?_
  refine Wp.bind (FP2.mul_wp e3 k2 (by norm_num)) fun t1 e6 => ?_
  refine Wp.bind (FP2.mul_wp e4 k1 (by norm_num)) fun t2 e7 => ?_
  refine Wp.bind (FP2.sub_wp e7 e6 (by norm_num)) fun t2 e7 => ?_
  refine Wp.bind (FP2.norm_ok e7 (by norm_num)) fun t2 e7 => ?_
  refine Wp.bind (FP2.pmul_wp e4 hx (by norm_num)) fun y1 e8 => ?_
  refine Wp.bind (FP2.neg_wp e8 (by norm_num)) fun y1 e8 => ?_
  refine Wp.bind (FP2.norm_ok e8 (by norm_num)) fun y1 e8 => ?_
  refine Wp.bind (FP4.times_i_wp (FP4.new_fp2_ok e8 (by norm_num)) (by norm_num)) fun c e9 => ?_
  refine Wp.bind hd fun A' hA' => ?_
  refine Wp.ret ⟨⟨_, ⟨_, _, _, ⟨e5.mono (by norm_num), e7.mono (by norm_num)⟩, (e9.mono (by norm_num)).congr (mul_V _), rfl⟩, t⟩, hA'⟩

theorem digit_eq {n : Nat} {i : Nat} (n3 n1 : BIG) (h1 : n1.Nrm) (v1 : n1.val = n) (h3 : n3.Nrm)
    (v3 : n3.val = (3 * n : Nat)) (hn : 3 * n < 2 ^ 406) (hi : i < 406) :
    ∃ b3 b1, n3.bit i = some b3 ∧ n1.bit i = some b1 ∧ b3 - b1 = digit n i := by
  refine ⟨_, _, BIG.bit_wp h3 (by omega) (by omega) hi, BIG.bit_wp h1 (by omega) (by omega) hi, ?_⟩
  rw [v1, v3, digit]
  push_cast
  rfl

theorem ateLoop_wp {n3 n1 : BIG} {n : Nat} (h1 : n1.Nrm) (v1 : n1.val = n) (h3 : n3.Nrm)
    (v3 : n3.val = (3 * n : Nat)) (hn : 3 * n < 2 ^ 406) {P NP : ECP2} {Q : G2} {qx qy : FP} {x y : Fp}
    (hP : ECP2.Ok P (2 ^ 14) Q) (hNP : ECP2.Ok NP (2 ^ 14) (-Q)) (hz : Q ≠ 0 → P.z.toF = 1) (hz' : Q ≠ 0 → NP.z.toF = 1)
    (hx : FP.Ok qx 1 (2 ^ 18) x) (hy : FP.Ok qy 1 (2 ^ 18) y) :
    ∀ (i : Nat) (r : FP12) (A : ECP2) (v f : Fp12) (g : G2), i < 405 → FP12.Ok r 1 (2 ^ 12) v → Same v f →
      ECP2.Ok A (2 ^ 14) g → (Q = 0 → g = 0) →
      Wp (ateLoop n3 n1 P NP qx qy i r A) fun z => ∃ w, FP12.Ok z 1 (2 ^ 12) w ∧ Same w (signedLoop x y n Q i f g) := by
  intro i
  induction i with
  | zero =>
    intro r A v f g _ hr hs _ _
    exact Wp.ret ⟨v, hr, hs⟩
  | succ i ih =>
    intro r A v f g hi hr hs hA hg
    unfold ateLoop
    have hgg : Q = 0 → g + g = 0 := fun h => by rw [hg h, zero_add]
    refine Wp.bind (FP12.sqr_wp (hr.mono (by norm_num))) fun r hr => ?_
    refine Wp.bind (linedbl_wp hA hx hy) ?_
    rintro ⟨lv, A'⟩ ⟨⟨z, hl, hlz⟩, hA'⟩
    refine Wp.bind (hl.smul (hr.mono (by norm_num))) fun r hr => ?_
    obtain ⟨b3, b1, e3, e1, eb⟩ := digit_eq n3 n1 h1 v1 h3 v3 hn (i := i + 1) (by omega)
    rw [e3, e1]
    simp only [Option.bind_eq_bind, Option.bind_some]
    rw [eb, signedLoop]
    have hs' := hs.sq.mul hlz
    split
    · refine Wp.bind (lineadd_wp (hA'.mono (by norm_num)) hP hz hgg hx hy) ?_
      rintro ⟨lv, A''⟩ ⟨⟨z, hl, hlz⟩, hA''⟩
      refine Wp.bind (hl.smul (hr.mono (by norm_num))) fun r hr => ?_
      exact ih r A'' _ _ _ (by omega) hr (hs'.mul hlz) (hA''.mono (by norm_num))
        (fun h => by rw [hgg h, h, zero_add])
    · split
      · refine Wp.bind (lineadd_wp (hA'.mono (by norm_num)) hNP (fun h => hz' (neg_ne_zero.1 h))
          (fun h => hgg (neg_eq_zero.1 h)) hx hy) ?_
        rintro ⟨lv, A''⟩ ⟨⟨z, hl, hlz⟩, hA''⟩
        refine Wp.bind (hl.smul (hr.mono (by norm_num))) fun r hr => ?_
        exact ih r A'' _ _ _ (by omega) hr (hs'.mul hlz) (hA''.mono (by norm_num))
          (fun h => by rw [hgg h, h, neg_zero, zero_add])
      · exact ih r A' _ _ _ (by omega) hr hs' (hA'.mono (by norm_num)) hgg

theorem neg_z {P r : ECP2} (h : P.neg = some r) : r.z = P.z := by
  unfold ECP2.neg at h
  simp only [Option.bind_eq_bind, Option.bind_eq_some_iff, Option.pure_def, Option.some.injEq] at h
  obtain ⟨_, _, _, _, _, _, rfl⟩ := h
  rfl

theorem norm_BNX : Wp (rom.CURVE_BNX.norm) fun n => n.Nrm ∧ n.val = (xPar : Nat) :=
  (BIG.norm_wp (by constructor <;> norm_num [rom.CURVE_BNX])).mono fun _ h => ⟨h.1, h.2.trans (by decide +kernel)⟩

/-- `ate` is Miller's algorithm with signed digits, up to factors killed by the final exponentiation. -/
theorem ate_wp {P : ECP2} {Q : G2} {R : ECP} {x y : Fp} (hP : ECP2.Ok P (2 ^ 10) Q) (hz : Q ≠ 0 → P.z.toF = 1)
    (hx : FP.Ok R.x 1 (2 ^ 18) x) (hy : FP.Ok R.y 1 (2 ^ 18) y) :
    Wp (ate P R) fun z => ∃ w, FP12.Ok z 1 (2 ^ 12) w ∧ Same w (signedMiller x y Q) := by
  unfold ate
  refine Wp.bind norm_BNX ?_
  rintro n ⟨n1, v1⟩
  have hlt : 3 * xPar < 2 ^ 406 := by decide +kernel
  have hlt' : (xPar : Int) < 2 ^ 70 := by decide +kernel
  have hpos : (0 : Int) ≤ xPar := Int.natCast_nonneg _
  refine Wp.bind (BIG.pmul_wp (n1.lim (by omega) (by omega) (by norm_num)) (c := 3) ⟨by norm_num, by norm_num⟩ (by omega) (by omega)) ?_
  rintro e3 ⟨n3, v3⟩
  refine Wp.bind (BIG.norm_wp (n3.lim (by omega) (by omega) (by norm_num))) ?_
  rintro e3' ⟨n3', v3'⟩
  rw [v3] at v3'
  have v3'' : e3'.val = (3 * xPar : Nat) := by push_cast; omega
  refine Wp.bind (FP12.new_int_wp (a := 1) (by norm_num) (by norm_num)) fun r hr => ?_
  obtain ⟨NP, eNP, hNP⟩ := ECP2.neg_wp hP (by norm_num)
  have hzN := neg_z eNP
  refine Wp.bind (Wp.of_eq eNP rfl) ?_
  rintro _ rfl
  refine Wp.bind (BIG.nbits_wp (n3'.lim (by omega) (by omega) (by norm_num)) (by omega)) ?_
  rintro nb hnb
  rw [v3'', Int.toNat_natCast] at hnb
  subst hnb
  have hs0 : (3 * xPar).size ≠ 0 := by decide +kernel
  have hs1 : (3 * xPar).size - 2 < 405 := by decide +kernel
  rw [if_neg hs0]
  exact (ateLoop_wp n1 v1 n3' v3'' hlt (hP.mono (by norm_num)) (hNP.mono (by norm_num)) hz
    (by rw [hzN]; exact hz) hx hy _ r P 1 1 Q hs1 ((hr.mono (by norm_num)).congr (by norm_num)) (Same.refl 1)
    (hP.mono (by norm_num)) id)

/-- `ate` and `fexp` for any point of the twist and any pair of field elements. -/
theorem ate_pairing_wp {P : ECP2} {Q : G2} {R : ECP} {x y : Fp} (hP : ECP2.Ok P (2 ^ 10) Q) (hz : Q ≠ 0 → P.z.toF = 1)
    (hx : FP.Ok R.x 1 (2 ^ 18) x) (hy : FP.Ok R.y 1 (2 ^ 18) y) :
    Wp (ate P R >>= fexp) fun z => FP12.Can z (signedMiller x y Q ^ finalExp) := by
  refine Wp.bind (ate_wp hP hz hx hy) ?_
  rintro e ⟨w, hw, hs⟩
  refine (fexp_wp hw).mono fun r hr => ?_
  rwa [hs.pow_eq] at hr

end pair

end Amcl.B383
