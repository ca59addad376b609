import Verif.Proof.Endo
/-!
# `pow4` and `gtpow` compute powers
-/

set_option exponentiation.threshold 6000

namespace Amcl

open Spec

seal Spec.finalExp

/-- The cyclotomic subgroup. -/
noncomputable def cycSub : Subgroup Fp12ˣ where
  carrier := {u | Cyc (u : Fp12)}
  one_mem' := Cyc.one
  mul_mem' h h' := by
    change Cyc _
    rw [Units.val_mul]
    exact Cyc.mul h h'
  inv_mem' h := by
    change Cyc _
    rw [Units.val_inv_eq_inv_val]
    exact Cyc.inv h

/-- The cyclotomic subgroup, written additively. -/
abbrev CycG := Additive cycSub

/-- The field element. -/
noncomputable def CycG.v (g : CycG) : Fp12 := ((g.toMul : Fp12ˣ) : Fp12)

namespace CycG

theorem v_add (g h : CycG) : (g + h).v = g.v * h.v := rfl

theorem v_zero : (0 : CycG).v = 1 := rfl

theorem v_neg (g : CycG) : (-g).v = g.v⁻¹ := by
  change ((g.toMul⁻¹ : cycSub) : Fp12ˣ).val = _
  rw [InvMemClass.coe_inv, Units.val_inv_eq_inv_val]
  rfl

theorem v_nsmul (n : Nat) (g : CycG) : (n • g).v = g.v ^ n := by
  induction n with
  | zero => rw [zero_smul, v_zero, pow_zero]
  | succ n ih => rw [add_smul, one_smul, v_add, ih, pow_succ]

theorem v_zsmul (n : Int) (g : CycG) : (n • g).v = g.v ^ n := by
  obtain ⟨k, rfl | rfl⟩ := n.eq_nat_or_neg
  · rw [natCast_zsmul, v_nsmul, zpow_natCast]
  · rw [neg_smul, v_neg, natCast_zsmul, v_nsmul, zpow_neg, zpow_natCast]

theorem v_cyc (g : CycG) : Cyc g.v := g.toMul.2

theorem v_inj {g h : CycG} (e : g.v = h.v) : g = h := by
  apply Additive.toMul.injective
  apply Subtype.ext
  exact Units.ext e

theorem exists_v {v : Fp12} (h : Cyc v) (h0 : v ≠ 0) : ∃ g : CycG, g.v = v :=
  ⟨Additive.ofMul ⟨Units.mk0 v h0, h⟩, rfl⟩

end CycG

/-- Elements of order dividing `p⁴ - p² + 1` are in the cyclotomic subgroup. -/
theorem Cyc.of_cyclotomic {v : Fp12} (h : v ^ (p ^ 4 - p ^ 2 + 1) = 1) : Cyc v := by
  have he : p * p * p * p + 1 = p * p + (p ^ 4 - p ^ 2 + 1) := by decide +kernel
  unfold Cyc
  simp only [φ_eq, ← pow_mul]
  rw [← pow_succ, he, pow_add, h, mul_one]

theorem Cyc.ne_zero {v : Fp12} (h : v ^ (p ^ 4 - p ^ 2 + 1) = 1) : v ≠ 0 := by
  rintro rfl
  rw [pow_succ, mul_zero] at h
  exact zero_ne_one h

/-- Elements of order `r` are in the cyclotomic subgroup. -/
theorem Cyc.of_order {v : Fp12} (h : v ^ r = 1) : Cyc v := by
  obtain ⟨k, hk⟩ : r ∣ p ^ 4 - p ^ 2 + 1 := by decide +kernel
  exact Cyc.of_cyclotomic (by rw [hk, pow_mul, h, one_pow])

namespace FP12

/-- Every limb is in range. -/
def Lims (f : FP12) : Prop := ∃ v, Ok f 1 (2 ^ 18) v

theorem cmove_eq {f g : FP12} (hf : Lims f) (hg : Lims g) {d : Int} (hd : d = 0 ∨ d = 1) :
    cmove f g d = if d = 0 then f else g := by
  obtain ⟨-, a, b, c, ha, hb, hc, -⟩ := hf
  obtain ⟨-, a', b', c', ha', hb', hc', -⟩ := hg
  rw [cmove, FP2.cmove_eq ha.a ha'.a (by norm_num) hd, FP2.cmove_eq ha.b ha'.b (by norm_num) hd,
    FP2.cmove_eq hb.a hb'.a (by norm_num) hd, FP2.cmove_eq hb.b hb'.b (by norm_num) hd,
    FP2.cmove_eq hc.a hc'.a (by norm_num) hd, FP2.cmove_eq hc.b hc'.b (by norm_num) hd]
  split <;> rfl

theorem new_lims : Lims new :=
  ⟨_, _, _, _, FP4.new_can.ok.mono (by norm_num), FP4.new_can.ok.mono (by norm_num), FP4.new_can.ok.mono (by norm_num), rfl⟩

theorem conj_v {f : FP12} {E : Int} {g : CycG} (hf : Ok f 1 E g.v) (h : 1 ≤ E ∧ 5 * E ≤ 2 ^ 24) :
    Wp f.conj fun r => Ok r 1 (5 * E) (-g).v :=
  (pair.conj_cyc hf g.v_cyc h).mono fun _ h => h.congr g.v_neg.symm

theorem jointLaws : Joint.Laws ops (fun f (g : CycG) => Ok f 1 (2 ^ 12) g.v) (fun f g => Ok f 1 (2 ^ 15) g.v)
    (fun f g => Ok f 1 (2 ^ 18) g.v) Lims where
  res h := h.mono (by norm_num)
  up h := h.mono (by norm_num)
  any h := ⟨_, h⟩
  add0 h h' := (mul_wp (h.mono (by norm_num)) (h'.mono (by norm_num))).mono fun _ h => h
  dbl0 {_ g} h := (usqr_wp (h.mono (by norm_num)) g.v_cyc).mono fun _ h =>
    (h.ok.mono (by norm_num)).congr (by rw [CycG.v_add, sq])
  neg h := (conj_v h (by norm_num)).mono fun _ h => h.mono (by norm_num)
  cmove h h' hd := cmove_eq h h' hd

theorem pow4_wp {q0 q1 q2 q3 : FP12} {g0 g1 g2 g3 : CycG} (h0 : Ok q0 1 (2 ^ 15) g0.v)
    (h1 : Ok q1 1 (2 ^ 18) g1.v) (h2 : Ok q2 1 (2 ^ 18) g2.v) (h3 : Ok q3 1 (2 ^ 18) g3.v) {u0 u1 u2 u3 : BIG}
    (l0 : u0.Lim (2 ^ 62)) (a0 : 0 ≤ u0.val) (b0 : u0.val < 2 ^ 404)
    (l1 : u1.Lim (2 ^ 62)) (a1 : 0 ≤ u1.val) (b1 : u1.val < 2 ^ 404)
    (l2 : u2.Lim (2 ^ 62)) (a2 : 0 ≤ u2.val) (b2 : u2.val < 2 ^ 404)
    (l3 : u3.Lim (2 ^ 62)) (a3 : 0 ≤ u3.val) (b3 : u3.val < 2 ^ 404) :
    Wp (pow4 q0 q1 q2 q3 u0 u1 u2 u3) fun r =>
      Can r (u0.val • g0 + u1.val • g1 + u2.val • g2 + u3.val • g3 : CycG).v := by
  unfold pow4
  refine Wp.bind (BIG.norm_wp l0) ?_
  rintro t0 ⟨n0, v0⟩
  refine Wp.bind (BIG.norm_wp l1) ?_
  rintro t1 ⟨n1, v1⟩
  refine Wp.bind (BIG.norm_wp l2) ?_
  rintro t2 ⟨n2, v2⟩
  refine Wp.bind (BIG.norm_wp l3) ?_
  rintro t3 ⟨n3, v3⟩
  have L := jointLaws
  refine Wp.bind (Joint.sums_wp L h0 h1 h2 h3) ?_
  rintro T ⟨hT, w, ew, hw⟩
  refine Wp.bind (R := fun x => x = w) (Wp.of_eq ew rfl) ?_
  rintro _ rfl
  refine Wp.bind (Joint.makeOdd_wp n0 (by omega) (by omega)) ?_
  rintro ⟨s0, pb⟩ ⟨m0, ho, hpb, vs⟩
  dsimp only at m0 ho hpb vs ⊢
  refine Wp.bind (Joint.run4_wp L hT new_lims hw m0 (by omega) (by omega) ho n1 (by omega)
    (by omega) n2 (by omega) (by omega) n3 (by omega) (by omega)) fun R hR => ?_
  refine Wp.bind (conj_v h0 (by norm_num)) fun C hC => ?_
  refine Wp.bind (mul_wp (hC.mono (by norm_num)) (hR.mono (by norm_num))) fun W hW => ?_
  rw [← CycG.v_add] at hW
  have : Ok (R.cmove W pb) 1 (2 ^ 12) (u0.val • g0 + u1.val • g1 + u2.val • g2 + u3.val • g3 : CycG).v := by
    rw [cmove_eq ⟨_, hR.mono (by norm_num)⟩ ⟨_, hW.mono (by norm_num)⟩ hpb]
    rcases hpb with rfl | rfl
    · rw [if_pos rfl]
      rw [vs, add_zero, v0, v1, v2, v3] at hR
      exact hR
    · rw [if_neg one_ne_zero]
      refine hW.congr (congrArg _ ?_)
      rw [vs, v0, v1, v2, v3]
      module
  exact reduce_wp this (by norm_num)

end FP12

/-- `gtpow` raises elements of order `r` to a power. -/
theorem pair.gtpow_wp {d : FP12} {v : Fp12} (hd : FP12.Ok d 1 (2 ^ 12) v) (hv : v ^ r = 1) {e : BIG} (he : e.Nrm)
    (h0 : 0 ≤ e.val) (h1 : e.val < 2 ^ 403) : Wp (gtpow d e) fun R => FP12.Can R (v ^ e.val) := by
  have hne : v ≠ 0 := by
    rintro rfl
    rw [zero_pow (by decide +kernel)] at hv
    exact zero_ne_one hv
  obtain ⟨g, rfl⟩ := CycG.exists_v (Cyc.of_order hv) hne
  have hg : r • g = 0 := CycG.v_inj (by rw [CycG.v_nsmul, hv, CycG.v_zero])
  unfold gtpow
  refine Wp.bind gamma_ok fun f hf => ?_
  refine Wp.bind (gs_wp he h0 h1) ?_
  rintro ⟨u0, u1, u2, u3⟩ ⟨l0, a0, b0, l1, a1, b1, l2, a2, b2, l3, a3, b3, k, l, ev⟩
  dsimp only at *
  have fr : ∀ {f x : _} {E : Int} {g : CycG}, FP12.Ok f 1 E g.v → FP2.Ok x 1 2 γ → 2 ≤ E ∧ E ≤ 2 ^ 23 →
      Wp (FP12.frob f x) fun r => FP12.Ok r 1 (2 * E) (p • g).v := fun h h' hE =>
    (FP12.frob_wp h h' hE).mono fun _ h => h.congr (by rw [CycG.v_nsmul, φ_eq])
  refine Wp.bind (fr hd hf (by norm_num)) fun Q1 hQ1 => ?_
  refine Wp.bind (fr hQ1 hf (by norm_num)) fun Q2 hQ2 => ?_
  refine Wp.bind (fr hQ2 hf (by norm_num)) fun Q3 hQ3 => ?_
  have tn : ∀ {A : CycG}, r • A = 0 → r • (p • A) = 0 := fun h => by rw [smul_comm, h, smul_zero]
  have t1 := tn hg
  have t2 := tn t1
  have t3 := tn t2
  refine Wp.bind (shorter_wp (Rep := fun f (g : CycG) => FP12.Ok f 1 (2 ^ 12) g.v)
    (Rep' := fun f (g : CycG) => FP12.Ok f 1 (2 ^ 15) g.v) (fun h => h.mono (by norm_num))
    (fun h => (FP12.conj_v h (by norm_num)).mono fun _ h => h.mono (by norm_num)) hd hg l0 a0 (by omega)) ?_
  rintro ⟨w0, R0⟩ ⟨nw0, pw0, bw0, g0, hR0, -, e0⟩
  have hup : ∀ {a : FP12} {g : CycG}, FP12.Ok a 1 (2 ^ 15) g.v → FP12.Ok a 1 (2 ^ 18) g.v :=
    fun h => h.mono (by norm_num)
  have hneg : ∀ {a : FP12} {g : CycG}, FP12.Ok a 1 (2 ^ 15) g.v →
      Wp (FP12.conj a) fun b => FP12.Ok b 1 (2 ^ 18) (-g).v :=
    fun h => (FP12.conj_v h (by norm_num)).mono fun _ h => h.mono (by norm_num)
  refine Wp.bind (shorter_wp (Rep := fun f (g : CycG) => FP12.Ok f 1 (2 ^ 15) g.v)
    (Rep' := fun f (g : CycG) => FP12.Ok f 1 (2 ^ 18) g.v) hup hneg (hQ1.mono (by norm_num)) t1 l1 a1 (by omega)) ?_
  rintro ⟨w1, R1⟩ ⟨nw1, pw1, bw1, g1, hR1, -, e1⟩
  refine Wp.bind (shorter_wp (Rep := fun f (g : CycG) => FP12.Ok f 1 (2 ^ 15) g.v)
    (Rep' := fun f (g : CycG) => FP12.Ok f 1 (2 ^ 18) g.v) hup hneg (hQ2.mono (by norm_num)) t2 l2 a2 (by omega)) ?_
  rintro ⟨w2, R2⟩ ⟨nw2, pw2, bw2, g2, hR2, -, e2⟩
  refine Wp.bind (shorter_wp (Rep := fun f (g : CycG) => FP12.Ok f 1 (2 ^ 15) g.v)
    (Rep' := fun f (g : CycG) => FP12.Ok f 1 (2 ^ 18) g.v) hup hneg (hQ3.mono (by norm_num)) t3 l3 a3 (by omega)) ?_
  rintro ⟨w3, R3⟩ ⟨nw3, pw3, bw3, g3, hR3, -, e3⟩
  dsimp only at *
  refine (FP12.pow4_wp hR0 hR1 hR2 hR3
    (nw0.lim58 (by omega) (by omega) |>.mono (by norm_num)) (by omega) (by omega)
    (nw1.lim58 (by omega) (by omega) |>.mono (by norm_num)) (by omega) (by omega)
    (nw2.lim58 (by omega) (by omega) |>.mono (by norm_num)) (by omega) (by omega)
    (nw3.lim58 (by omega) (by omega) |>.mono (by norm_num)) (by omega) (by omega)).mono fun T hT => ?_
  rw [e0, e1, e2, e3] at hT
  rw [← CycG.v_zsmul]
  convert hT using 2
  have s : ∀ {A : CycG}, r • A = 0 → p • A = -((xAbs : Nat) : Int) • A := by
    intro A hA
    obtain ⟨m, hm⟩ := r_dvd
    have : (xAbs + p) • A = 0 := by rw [hm, mul_comm, mul_smul, hA, smul_zero]
    rw [add_smul] at this
    rw [neg_smul, natCast_zsmul]
    exact eq_neg_of_add_eq_zero_right this
  rw [s t2, s t1, s hg]
  have hz : ∀ n : Int, (n * (r : Int)) • g = 0 := by
    intro n
    rw [mul_smul, natCast_zsmul, hg, smul_zero]
  have e' : u0.val • g + u1.val • (-((xAbs : Nat) : Int) • g) + u2.val • (-((xAbs : Nat) : Int) • (-((xAbs : Nat) : Int) • g))
      + u3.val • (-((xAbs : Nat) : Int) • (-((xAbs : Nat) : Int) • (-((xAbs : Nat) : Int) • g))) =
      e.val • g - ((xAbs * k + xAbs ^ 3 * l) * (r : Int)) • g := by
    rw [← sub_smul, ← ev]
    module
  rw [e', hz, sub_zero]

end Amcl
