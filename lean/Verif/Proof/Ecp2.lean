import Verif.Proof.Ecp2Add
import Verif.Proof.Fp2Sqrt
/-!
# Correctness of the other `ECP2` operations
-/

set_option exponentiation.threshold 2000

namespace Amcl

open Spec

namespace ECP2


theorem Ok.one_le {P : ECP2} {E : Int} {g : G2} (h : Ok P E g) : 1 ≤ E := h.x.a.x1.trans h.x.a.xE

theorem neg_wp {P : ECP2} {E : Int} {g : G2} (hP : Ok P E g) (hE : E ≤ 2 ^ 20) :
    Wp (neg P) fun r => Ok r (5 * E) (-g) := by
  unfold neg
  have h1 := hP.one_le
  refine Wp.bind (FP2.norm_ok hP.y (by omega)) fun y hy => ?_
  refine Wp.bind (FP2.neg_wp hy (by omega)) fun a ha => ?_
  refine Wp.bind (FP2.norm_ok ha (by omega)) fun b hb => ?_
  exact Wp.ret (ok_of (hP.x.mono (by omega)) (hb.mono (by omega)) (hP.z.mono (by omega)) hP.pt.neg)

theorem sub_wp {P Q : ECP2} {g h : G2} (hP : Ok P (2 ^ 14) g) (hQ : Ok Q (2 ^ 11) h) :
    Wp (sub P Q) fun r => Ok r 32 (g - h) := by
  unfold sub
  refine Wp.bind (neg_wp hQ (by norm_num)) fun N hN => ?_
  rw [sub_eq_add_neg]
  exact add_wp hP (hN.mono (by norm_num))

theorem cmove_eq {P Q : ECP2} {E E' : Int} {g h : G2} (hP : Ok P E g) (hQ : Ok Q E' h)
    (hE : E ≤ 2 ^ 27 ∧ E' ≤ 2 ^ 27) {d : Int} (hd : d = 0 ∨ d = 1) :
    cmove P Q d = if d = 0 then P else Q := by
  rw [cmove, FP2.cmove_eq hP.x hQ.x (by omega) hd, FP2.cmove_eq hP.y hQ.y (by omega) hd,
    FP2.cmove_eq hP.z hQ.z (by omega) hd]
  split <;> rfl

theorem new_wp : Wp new fun P => Ok P 2 0 := by
  unfold new
  refine Wp.bind (FP2.new_int_wp (a := 1) (by norm_num) (by norm_num)) fun y hy => ?_
  exact Wp.ret (ok_of (FP2.new_can.ok.mono (by norm_num)) hy (FP2.new_can.ok.mono (by norm_num))
    (Proj.zero (by simp)))

theorem inf_wp : Wp inf fun P => Ok P 2 0 := by
  unfold inf
  refine Wp.bind FP2.one_wp fun y hy => ?_
  exact Wp.ret (ok_of (FP2.new_can.ok.mono (by norm_num)) hy (FP2.new_can.ok.mono (by norm_num))
    (Proj.zero (by simp)))

theorem is_infinity_wp {P : ECP2} {E : Int} {g : G2} (hP : Ok P E g) (hE : E ≤ 2 ^ 25) :
    Wp (is_infinity P) fun r => r = true ↔ g = 0 := by
  unfold is_infinity
  refine Wp.bind (FP2.iszilch_wp hP.x (by omega)) ?_
  rintro ⟨zx, x⟩ ⟨hx, -⟩
  dsimp only at hx ⊢
  split
  · refine Wp.bind (FP2.iszilch_wp hP.z (by omega)) ?_
    rintro ⟨zz, z⟩ ⟨hz, -⟩
    refine Wp.ret ?_
    dsimp only at hz ⊢
    rw [hz, ← hP.pt.inf_iff]
    tauto
  · refine Wp.ret ?_
    rw [← hP.pt.inf_iff]
    simp only [Bool.false_eq_true, false_iff]
    tauto

theorem equals_wp {P Q : ECP2} {E E' : Int} {g h : G2} (hP : Ok P E g) (hQ : Ok Q E' h)
    (hE : E ≤ 2 ^ 20 ∧ E' ≤ 2 ^ 20) : Wp (equals P Q) fun r => r = true ↔ g = h := by
  unfold equals
  have h1 := hP.one_le
  have h2 := hQ.one_le
  refine Wp.bind (FP2.mul_wp hP.x hQ.z (by omega)) fun a ha => ?_
  refine Wp.bind (FP2.mul_wp hQ.x hP.z (by omega)) fun b hb => ?_
  refine Wp.bind (FP2.equals_wp ha hb (by norm_num)) ?_
  rintro ⟨e, _, _⟩ ⟨he, -, -⟩
  dsimp only at he ⊢
  split
  · refine Wp.bind (FP2.mul_wp hP.y hQ.z (by omega)) fun a ha => ?_
    refine Wp.bind (FP2.mul_wp hQ.y hP.z (by omega)) fun b hb => ?_
    refine Wp.bind (FP2.equals_wp ha hb (by norm_num)) ?_
    rintro ⟨e', _, _⟩ ⟨he', -, -⟩
    refine Wp.ret ?_
    dsimp only at he' ⊢
    rw [he', ← hP.pt.eq_iff hQ.pt]
    tauto
  · refine Wp.ret ?_
    rw [← hP.pt.eq_iff hQ.pt]
    simp only [Bool.false_eq_true, false_iff]
    tauto

/-- With `z = 1` the two other coordinates are the affine ones. -/
theorem Ok.coords {P : ECP2} {E : Int} {g : G2} (h : Ok P E g) (hz : P.z.toF = 1) :
    ∃ h', g = Pt.mk P.x.toF P.y.toF h' :=
  h.pt.coords hz

theorem affine_wp {P : ECP2} {E : Int} {g : G2} (hP : Ok P E g) (hE : 2 ≤ E ∧ E ≤ 2 ^ 20) :
    Wp (affine P) fun r => Ok r E g ∧ (g = 0 → r = P) ∧ (g ≠ 0 → r.z.toF = 1) ∧
      (P.z.toF = 1 → r.x = P.x ∧ r.y = P.y) ∧
      (g ≠ 0 → P.z.toF ≠ 1 → FP2.Can r.x r.x.toF ∧ FP2.Can r.y r.y.toF) := by
  unfold affine
  refine Wp.bind (is_infinity_wp hP (by omega)) fun e he => ?_
  split
  · rename_i ht
    have hg := he.1 ht
    exact Wp.ret ⟨hP, fun _ => rfl, fun h => absurd hg h, fun _ => ⟨rfl, rfl⟩, fun h => absurd hg h⟩
  rename_i hf
  have hg : g ≠ 0 := fun h => hf (he.2 h)
  refine Wp.bind (FP2.new_int_wp (a := 1) (by norm_num) (by norm_num)) fun one ho => ?_
  rw [Int.cast_one] at ho
  refine Wp.bind (FP2.equals_wp hP.z ho (by omega)) ?_
  rintro ⟨e', z, one⟩ ⟨he', hz, ho, -⟩
  dsimp only at he' hz ho ⊢
  split
  · rename_i ht
    have e1 := he'.1 ht
    refine Wp.ret ⟨ok_of hP.x hP.y hz hP.pt, fun h => absurd h hg, fun _ => ?_,
      fun _ => ⟨rfl, rfl⟩, fun _ h => absurd e1 h⟩
    exact hz.res.trans e1
  rename_i hn
  have e1 : P.z.toF ≠ 1 := fun h => hn (he'.2 h)
  refine Wp.bind (FP2.inverse_wp hz (by omega)) fun zi hzi => ?_
  refine Wp.bind (FP2.mul_wp hP.x hzi (by omega)) fun x hx => ?_
  refine Wp.bind (FP2.reduce_wp hx (by norm_num)) fun x hx => ?_
  refine Wp.bind (FP2.mul_wp hP.y hzi (by omega)) fun y hy => ?_
  refine Wp.bind (FP2.reduce_wp hy (by norm_num)) fun y hy => ?_
  obtain ⟨-, h', e⟩ := hP.pt.aff hg
  refine Wp.ret ⟨ok_of (hx.ok.mono (by omega)) (hy.ok.mono (by omega)) (ho.mono (by omega))
    ((Proj.mk h').congr rfl rfl rfl e.symm), fun h => absurd h hg, fun _ => ho.res,
    fun h => absurd h e1, fun _ _ => ⟨?_, ?_⟩⟩
  · exact hx.ok.res ▸ hx
  · exact hy.ok.res ▸ hy

theorem b_wp : Wp (FP2.new_big rom.CURVE_B) fun f => FP2.Ok f 1 2 4 := by
  have e : rom.CURVE_B.val = 4 := by norm_num [rom.CURVE_B, BIG.val]
  have := FP.nres_wp (x := rom.CURVE_B) (by constructor <;> norm_num [rom.CURVE_B]) (by rw [e]; norm_num)
    (by rw [e]; have := p_val; omega)
  rw [e] at this
  unfold FP2.new_big FP.new_big
  refine Wp.bind this fun x hx => ?_
  exact Wp.ret ⟨hx, FP.new_can.ok.mono (by norm_num)⟩

theorem rhs_wp {x : FP2} {L E : Int} {v : Fp2} (hx : FP2.Ok x L E v) (h : L ≤ 16 ∧ 1 ≤ E ∧ E ≤ 2 ^ 20) :
    Wp (rhs x) fun r => FP2.Can r.1 (v ^ 3 + b2) ∧ FP2.Ok r.2 1 E v ∧
      r.2.a.x.val = x.a.x.val ∧ r.2.b.x.val = x.b.x.val := by
  unfold rhs
  refine Wp.bind (FP2.norm_wp hx (by omega)) ?_
  rintro y ⟨hy, ev⟩
  refine Wp.bind (FP2.sqr_wp hy (by omega)) fun a ha => ?_
  refine Wp.bind b_wp fun b hb => ?_
  refine Wp.bind (FP2.norm_ok hb (by norm_num)) fun b hb => ?_
  refine Wp.bind (FP2.mul_ip_wp hb (by norm_num)) fun b hb => ?_
  refine Wp.bind (FP2.norm_ok hb (by norm_num)) fun b hb => ?_
  refine Wp.bind (FP2.mul_wp ha hy (by omega)) fun c hc => ?_
  refine Wp.bind (FP2.add_wp hc hb (by norm_num)) fun d hd => ?_
  refine Wp.bind (FP2.reduce_wp hd (by norm_num)) fun e he => ?_
  refine Wp.ret ⟨?_, hy, ev⟩
  rw [show v ^ 3 + b2 = v * v * v + 4 * (1 + i) by rw [b2]; ring]
  exact he

/-- `new_fp2s`: the point with these coordinates, or infinity if they are not on the twist. -/
theorem new_fp2s_wp {ix iy : FP2} {L E : Int} {x y : Fp2} (hx : FP2.Ok ix L E x) (hy : FP2.Ok iy 1 E y)
    (h : L ≤ 16 ∧ 2 ≤ E ∧ E ≤ 2 ^ 20) :
    Wp (new_fp2s ix iy) fun P =>
      (∀ h : y ^ 2 = x ^ 3 + b2, Ok P E (Pt.mk _ _ h) ∧ P.z.toF = 1 ∧
        P.x.a.x.val = ix.a.x.val ∧ P.x.b.x.val = ix.b.x.val ∧ P.y = iy) ∧
      (¬ y ^ 2 = x ^ 3 + b2 → Ok P E 0) := by
  unfold new_fp2s
  refine Wp.bind FP2.one_wp fun z hz => ?_
  refine Wp.bind (rhs_wp hx (by omega)) ?_
  rintro ⟨r, x'⟩ ⟨hr, hx', ea, eb⟩
  refine Wp.bind (FP2.sqr_wp hy (by omega)) fun y2 hy2 => ?_
  refine Wp.bind (FP2.equals_wp hy2 hr.ok (by norm_num)) ?_
  rintro ⟨e, _, _⟩ ⟨he, -, -⟩
  rw [← pow_two] at he
  dsimp only at he ea eb hx' ⊢
  split
  · rename_i ht
    refine Wp.ret ⟨fun h => ⟨ok_of hx' hy (hz.mono (by omega)) (Proj.mk h), hz.res, ea, eb, rfl⟩, fun h => ?_⟩
    exact absurd (he.1 ht) h
  · rename_i hf
    exact inf_wp.mono fun P hP => ⟨fun h => absurd (he.2 h) hf, fun _ => hP.mono (by omega)⟩

/-- `new_fp2`: a point with this x-coordinate, or infinity. When there is no imaginary part in
`x³ + 4(1+i)` a root is only found if the real part is a square. -/
theorem new_fp2_wp {ix : FP2} {L E : Int} {x : Fp2} (hx : FP2.Ok ix L E x)
    (h : L ≤ 16 ∧ 2 ≤ E ∧ E ≤ 2 ^ 20) :
    Wp (new_fp2 ix) fun P =>
      (IsSquare (x ^ 3 + b2) ∧ ((x ^ 3 + b2).im = 0 → IsSquare (x ^ 3 + b2).re) →
        ∃ y h, Ok P E (Pt.mk x y h) ∧ P.z.toF = 1 ∧ P.x.a.x.val = ix.a.x.val ∧ P.x.b.x.val = ix.b.x.val ∧
          FP2.Ok P.y 1 2 y ∧ IsSquare y.re ∧ (y.im = 0 → P.y.b.x.val = 0)) ∧
      (¬ (IsSquare (x ^ 3 + b2) ∧ ((x ^ 3 + b2).im = 0 → IsSquare (x ^ 3 + b2).re)) → Ok P E 0) := by
  unfold new_fp2
  refine Wp.bind FP2.one_wp fun z hz => ?_
  refine Wp.bind (rhs_wp hx (by omega)) ?_
  rintro ⟨r, x'⟩ ⟨hr, hx', ea, eb⟩
  dsimp only at hr ea eb hx' ⊢
  refine Wp.bind (FP2.sqrt_wp hr.ok (by norm_num)) ?_
  rintro ⟨q, y⟩ ⟨hq, hy⟩
  dsimp only at hq hy ⊢
  split
  · rename_i ht
    obtain ⟨w, hw, e, ws, wz⟩ := hy ht
    rw [← pow_two] at e
    exact Wp.ret ⟨fun _ => ⟨w, e, ok_of hx' (hw.mono (by omega)) (hz.mono (by omega)) (Proj.mk e), hz.res,
      ea, eb, hw, ws, wz⟩, fun h => absurd (hq.1 ht) h⟩
  · rename_i hf
    exact inf_wp.mono fun P hP => ⟨fun h => absurd (hq.2 h) hf, fun _ => hP.mono (by omega)⟩

end ECP2

end Amcl
