import Verif.Proof.EcpAdd
/-!
# Correctness of the other `ECP` operations
-/

set_option exponentiation.threshold 2000

namespace Amcl

open Spec

namespace ECP

theorem Ok.one_le {P : ECP} {E : Int} {g : G1} (h : Ok P E g) : 1 ≤ E := h.x.x1.trans h.x.xE

theorem neg_wp {P : ECP} {E : Int} {g : G1} (hP : Ok P E g) (hE : E ≤ 2 ^ 20) :
    Wp (neg P) fun r => Ok r (2 * E) (-g) := by
  unfold neg
  have h1 := hP.one_le
  refine Wp.bind (FP.neg_wp hP.y (by omega)) fun a ha => ?_
  refine Wp.bind (FP.norm_ok ha (by omega)) fun b hb => ?_
  exact Wp.ret (ok_of (hP.x.mono (by omega)) (hb.mono (by omega)) (hP.z.mono (by omega)) hP.pt.neg)

theorem sub_wp {P Q : ECP} {g h : G1} (hP : Ok P (2 ^ 14) g) (hQ : Ok Q (2 ^ 13) h) :
    Wp (sub P Q) fun r => Ok r 32 (g - h) := by
  unfold sub
  refine Wp.bind (neg_wp hQ (by norm_num)) fun N hN => ?_
  rw [sub_eq_add_neg]
  exact add_wp hP (hN.mono (by norm_num))

theorem cmove_eq {P Q : ECP} {E E' : Int} {g h : G1} (hP : Ok P E g) (hQ : Ok Q E' h)
    (hE : E ≤ 2 ^ 27 ∧ E' ≤ 2 ^ 27) {d : Int} (hd : d = 0 ∨ d = 1) :
    cmove P Q d = if d = 0 then P else Q := by
  rw [cmove, FP.cmove_eq hP.x hQ.x (by omega) hd, FP.cmove_eq hP.y hQ.y (by omega) hd,
    FP.cmove_eq hP.z hQ.z (by omega) hd]
  split <;> rfl

theorem new_wp : Wp new fun P => Ok P 2 0 := by
  unfold new
  refine Wp.bind (FP.new_int_wp (a := 1) (by norm_num) (by norm_num)) fun y hy => ?_
  exact Wp.ret (ok_of (FP.new_can.ok.mono (by norm_num)) hy (FP.new_can.ok.mono (by norm_num))
    (Proj.zero (by simp)))

theorem inf_wp : Wp inf fun P => Ok P 2 0 := by
  unfold inf
  refine Wp.bind FP.one_wp fun y hy => ?_
  exact Wp.ret (ok_of (FP.new_can.ok.mono (by norm_num)) hy (FP.new_can.ok.mono (by norm_num))
    (Proj.zero (by simp)))

theorem is_infinity_wp {P : ECP} {E : Int} {g : G1} (hP : Ok P E g) (hE : E ≤ 2 ^ 25) :
    Wp (is_infinity P) fun r => r = true ↔ g = 0 := by
  unfold is_infinity
  refine Wp.bind (FP.iszilch_wp hP.x (by omega)) ?_
  rintro ⟨zx, x⟩ ⟨hx, -⟩
  dsimp only at hx ⊢
  split
  · refine Wp.bind (FP.iszilch_wp hP.z (by omega)) ?_
    rintro ⟨zz, z⟩ ⟨hz, -⟩
    refine Wp.ret ?_
    dsimp only at hz ⊢
    rw [hz, ← hP.pt.inf_iff]
    tauto
  · refine Wp.ret ?_
    rw [← hP.pt.inf_iff]
    simp only [Bool.false_eq_true, false_iff]
    tauto

theorem equals_wp {P Q : ECP} {E E' : Int} {g h : G1} (hP : Ok P E g) (hQ : Ok Q E' h)
    (hE : E ≤ 2 ^ 25 ∧ E' ≤ 2 ^ 25) : Wp (equals P Q) fun r => r = true ↔ g = h := by
  unfold equals
  refine Wp.bind (FP.mul_wp hP.x hQ.z (by omega)) fun a ha => ?_
  refine Wp.bind (FP.mul_wp hQ.x hP.z (by omega)) fun b hb => ?_
  refine Wp.bind (FP.equals_wp ha hb (by norm_num)) ?_
  rintro ⟨e, _, _⟩ ⟨he, -, -⟩
  dsimp only at he ⊢
  split
  · refine Wp.bind (FP.mul_wp hP.y hQ.z (by omega)) fun a ha => ?_
    refine Wp.bind (FP.mul_wp hQ.y hP.z (by omega)) fun b hb => ?_
    refine Wp.bind (FP.equals_wp ha hb (by norm_num)) ?_
    rintro ⟨e', _, _⟩ ⟨he', -, -⟩
    refine Wp.ret ?_
    dsimp only at he' ⊢
    rw [he', ← hP.pt.eq_iff hQ.pt]
    tauto
  · refine Wp.ret ?_
    rw [← hP.pt.eq_iff hQ.pt]
    simp only [Bool.false_eq_true, false_iff]
    tauto

/-- With `z = 1` the two other coordinates are the affine ones. -/
theorem Ok.coords {P : ECP} {E : Int} {g : G1} (h : Ok P E g) (hz : P.z.toF = 1) :
    ∃ h', g = Pt.mk P.x.toF P.y.toF h' :=
  h.pt.coords hz

theorem affine_wp {P : ECP} {E : Int} {g : G1} (hP : Ok P E g) (hE : E ≤ 2 ^ 25) :
    Wp (affine P) fun r => Ok r E g ∧ (g = 0 → r = P) ∧ (g ≠ 0 → FP.Can r.z 1) ∧
      (P.z.toF = 1 → r.x = P.x ∧ r.y = P.y) ∧
      (g ≠ 0 → P.z.toF ≠ 1 → FP.Can r.x r.x.toF ∧ FP.Can r.y r.y.toF) := by
  unfold affine
  have h1 := hP.one_le
  refine Wp.bind (is_infinity_wp hP hE) fun e he => ?_
  split
  · rename_i ht
    have hg := he.1 ht
    exact Wp.ret ⟨hP, fun _ => rfl, fun h => absurd hg h, fun _ => ⟨rfl, rfl⟩, fun h => absurd hg h⟩
  rename_i hf
  have hg : g ≠ 0 := fun h => hf (he.2 h)
  refine Wp.bind (FP.new_int_wp (a := 1) (by norm_num) (by norm_num)) fun one ho => ?_
  refine Wp.bind (FP.equals_wp hP.z ho (by omega)) ?_
  rintro ⟨e', z, one⟩ ⟨he', hz, ho⟩
  rw [Int.cast_one] at he' ho
  dsimp only at he' hz ho ⊢
  split
  · rename_i ht
    have e1 := he'.1 ht
    refine Wp.ret ⟨ok_of hP.x hP.y (hz.ok.mono (by omega)) hP.pt, fun h => absurd h hg, fun _ => ?_,
      fun _ => ⟨rfl, rfl⟩, fun _ h => absurd e1 h⟩
    rw [e1] at hz
    exact hz
  rename_i hn
  have e1 : P.z.toF ≠ 1 := fun h => hn (he'.2 h)
  refine Wp.bind (FP.inverse_wp hz.ok (by norm_num)) fun zi hzi => ?_
  refine Wp.bind (FP.mul_wp hP.x hzi.ok (by omega)) fun x hx => ?_
  refine Wp.bind (FP.reduce_wp hx (by norm_num)) fun x hx => ?_
  refine Wp.bind (FP.mul_wp hP.y hzi.ok (by omega)) fun y hy => ?_
  refine Wp.bind (FP.reduce_wp hy (by norm_num)) fun y hy => ?_
  obtain ⟨-, h', e⟩ := hP.pt.aff hg
  refine Wp.ret ⟨ok_of (hx.ok.mono (by omega)) (hy.ok.mono (by omega)) (ho.ok.mono (by omega))
    ((Proj.mk h').congr rfl rfl rfl e.symm), fun h => absurd h hg, fun _ => ho,
    fun h => absurd h e1, fun _ _ => ⟨?_, ?_⟩⟩
  · exact hx.res ▸ hx
  · exact hy.res ▸ hy

theorem b_wp : Wp (FP.new_big rom.CURVE_B) fun f => FP.Ok f 1 2 4 := by
  have e : rom.CURVE_B.val = 4 := by norm_num [rom.CURVE_B, BIG.val]
  have := FP.nres_wp (x := rom.CURVE_B) (by constructor <;> norm_num [rom.CURVE_B]) (by rw [e]; norm_num)
    (by rw [e]; have := p_val; omega)
  rw [e] at this
  exact_mod_cast this

theorem rhs_wp {x : FP} {L E : Int} {v : Fp} (hx : FP.Ok x L E v) (h : L ≤ 16 ∧ E ≤ 2 ^ 25) :
    Wp (rhs x) fun r => FP.Can r.1 (v ^ 3 + 4) ∧ FP.Ok r.2 1 E v ∧ r.2.x.val = x.x.val := by
  unfold rhs
  refine Wp.bind (FP.norm_wp hx h) ?_
  rintro y ⟨hy, -, ev⟩
  refine Wp.bind (FP.sqr_wp hy (by omega)) fun a ha => ?_
  refine Wp.bind b_wp fun b hb => ?_
  refine Wp.bind (FP.mul_wp ha hy (by omega)) fun c hc => ?_
  refine Wp.bind (FP.add_wp hc hb (by norm_num)) fun d hd => ?_
  refine Wp.bind (FP.reduce_wp hd (by norm_num)) fun e he => ?_
  refine Wp.ret ⟨?_, hy, ev⟩
  rw [show v ^ 3 + 4 = v * v * v + 4 by ring]
  exact he

/-- `new_bigs`: the point with these coordinates, or infinity if they are not on the curve. -/
theorem new_bigs_wp {ix iy : BIG} (hx : ix.Lim (2 ^ 61)) (hy : iy.Lim (2 ^ 61)) (x0 : 0 ≤ ix.val)
    (y0 : 0 ≤ iy.val) (x1 : ix.val ≤ 2 ^ 25 * p) (y1 : iy.val ≤ 2 ^ 25 * p) :
    Wp (new_bigs ix iy) fun P =>
      (∀ h : (iy.val : Fp) ^ 2 = (ix.val : Fp) ^ 3 + b1, Ok P 2 (Pt.mk _ _ h) ∧ P.z.toF = 1 ∧
        (P.x.x.val = 0 ↔ ix.val = 0) ∧ (P.y.x.val = 0 ↔ iy.val = 0)) ∧
      (¬ (iy.val : Fp) ^ 2 = (ix.val : Fp) ^ 3 + b1 → Ok P 2 0) := by
  unfold new_bigs
  refine Wp.bind ((FP.nres_wp hx x0 x1).and (FP.nres_zero_wp hx x0 x1)) ?_
  rintro x ⟨hx, zx⟩
  refine Wp.bind ((FP.nres_wp hy y0 y1).and (FP.nres_zero_wp hy y0 y1)) ?_
  rintro y ⟨hy, zy⟩
  refine Wp.bind FP.one_wp fun z hz => ?_
  refine Wp.bind (rhs_wp hx (by norm_num)) ?_
  rintro ⟨r, x'⟩ ⟨hr, hx', ex'⟩
  refine Wp.bind (FP.sqr_wp hy (by norm_num)) fun y2 hy2 => ?_
  refine Wp.bind (FP.equals_wp hy2 hr.ok (by norm_num)) ?_
  rintro ⟨e, _, _⟩ ⟨he, -, -⟩
  rw [← pow_two] at he
  dsimp only at he ex' hx' ⊢
  split
  · rename_i ht
    refine Wp.ret ⟨fun h => ⟨ok_of hx' hy hz (Proj.mk h), hz.res, by rw [← zx, ← ex'], zy⟩, fun h => ?_⟩
    exact absurd (he.1 ht) h
  · rename_i hf
    exact inf_wp.mono fun P hP => ⟨fun h => absurd (he.2 h) hf, fun _ => hP⟩

/-- `new_big`: a point with this x-coordinate if there is one, else infinity. -/
theorem new_big_wp {ix : BIG} (hx : ix.Lim (2 ^ 61)) (x0 : 0 ≤ ix.val) (x1 : ix.val ≤ 2 ^ 25 * p) :
    Wp (new_big ix) fun P =>
      (IsSquare ((ix.val : Fp) ^ 3 + b1) → ∃ y h, Ok P 2 (Pt.mk (ix.val : Fp) y h) ∧ P.z.toF = 1 ∧
        FP.Can P.y y ∧ IsSquare y ∧ (P.x.x.val = 0 ↔ ix.val = 0)) ∧
      (¬ IsSquare ((ix.val : Fp) ^ 3 + b1) → Ok P 2 0) := by
  unfold new_big
  refine Wp.bind ((FP.nres_wp hx x0 x1).and (FP.nres_zero_wp hx x0 x1)) ?_
  rintro x ⟨hx, zx⟩
  refine Wp.bind FP.one_wp fun z hz => ?_
  refine Wp.bind (rhs_wp hx (by norm_num)) ?_
  rintro ⟨r, x'⟩ ⟨hr, hx', ex'⟩
  dsimp only at hr hx' ex' ⊢
  refine Wp.bind (FP.jacobi_one hr.ok (by norm_num)) fun j hj => ?_
  split
  · rename_i ht
    have hs := (hj.1 ht).2
    refine Wp.bind (FP.sqrt_wp hr.ok (by norm_num)) ?_
    rintro ⟨y, _⟩ ⟨hy, -⟩
    dsimp only at hy ⊢
    have e : _ = (ix.val : Fp) ^ 3 + b1 := FP.sqrt_pow hs
    refine Wp.ret ⟨fun _ => ⟨_, e, ok_of hx' (hy.ok.mono (by norm_num)) hz (Proj.mk e), hz.res, hy,
      hs.pow _, ?_⟩,
      fun h => absurd hs h⟩
    rw [← zx, ← ex']
  · rename_i hf
    refine inf_wp.mono fun P hP => ⟨fun h => ?_, fun _ => hP⟩
    obtain ⟨y, e⟩ := h
    refine absurd (hj.2 ⟨?_, ⟨y, e⟩⟩) hf
    have := Pt.y_ne (b := b1) (y := y) (x := (ix.val : Fp)) (by rw [pow_two, e])
    show (ix.val : Fp) ^ 3 + b1 ≠ 0
    rw [e]
    exact mul_ne_zero this this

end ECP

end Amcl
