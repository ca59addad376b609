import Verif.Proof.B383.Glv
import Verif.Proof.Joint
import Verif.Proof.BigArith
import Verif.Proof.B383.EcpMul
import Verif.Proof.B383.Ecp2Mul
import Verif.Proof.B383.Fexp
/-!
# Multiplication with endomorphisms computes scalar multiples
-/

set_option exponentiation.threshold 6000

namespace Amcl.B383

open Spec Spec.B383

theorem order_val : rom.CURVE_ORDER.val = (r : Nat) := by decide +kernel

theorem order_nrm : rom.CURVE_ORDER.Nrm := by constructor <;> norm_num [rom.CURVE_ORDER]

theorem bnx_val : rom.CURVE_BNX.val = (xPar : Nat) := by decide +kernel

theorem bnx_nrm : rom.CURVE_BNX.Nrm := by constructor <;> norm_num [rom.CURVE_BNX]

theorem xPar_val : xPar = 18448995873540018688 := rfl

theorem r_val : r = 115848638697272667145794417268073757960001407039087633408816076049920489684993 := rfl

namespace pair

/-- The two digits of `e` to the base `xPar²`, the second taken from `r`; the difference may be negative. -/
theorem glv_wp' {e : BIG} (he : e.Nrm) (h0 : 0 ≤ e.val) (h1 : e.val < 2 ^ 403) :
    Wp (glv e) fun u => u.1.Nrm ∧ u.1.val = e.val % (xPar * xPar : Nat) ∧ u.2.Lim (2 ^ 59) ∧
      u.2.val = r - e.val / (xPar * xPar : Nat) := by
  unfold glv
  dsimp only
  refine Wp.bind (BIG.smul_wp bnx_nrm (by decide +kernel) (by decide +kernel) bnx_nrm (by decide +kernel)
    (by decide +kernel)) ?_
  rintro x2 ⟨nx, vx⟩
  have vx : x2.val = (xPar * xPar : Nat) := by rw [vx]; decide +kernel
  have vx' := vx
  rw [xPar_val] at vx'
  norm_num at vx'
  refine Wp.bind (BIG.rmod_wp (he.lim58 h0 (by omega) |>.mono (by norm_num)) h0 (by omega) nx (by omega)) ?_
  rintro u0 ⟨n0, v0⟩
  refine Wp.bind (BIG.div_wp (he.lim58 h0 (by omega) |>.mono (by norm_num)) h0 (by omega) nx (by omega)
    (by omega)) ?_
  rintro u1 ⟨n1, v1⟩
  have hq : u1.val < 2 ^ 278 := by rw [v1, vx']; omega
  have hq0 : 0 ≤ u1.val := by rw [v1, vx']; omega
  refine Wp.bind (BIG.rsub_wp (n1.lim58 hq0 (by omega)) (order_nrm.lim58 (by decide +kernel) (by decide +kernel))
    (by norm_num)) ?_
  rintro u ⟨lu, vu⟩
  rw [order_val] at vu
  refine Wp.ret ⟨n0, by rw [v0, vx], lu.mono (by norm_num), ?_⟩
  dsimp only
  rw [vu, v1, vx]

/-- The same for scalars below `2^382`. -/
theorem glv_wp {e : BIG} (he : e.Nrm) (h0 : 0 ≤ e.val) (h1 : e.val < 2 ^ 384) :
    Wp (glv e) fun u => u.1.Nrm ∧ u.1.val = e.val % (xPar * xPar : Nat) ∧ u.2.Lim (2 ^ 59) ∧
      u.2.val = r - e.val / (xPar * xPar : Nat) ∧ 0 ≤ u.2.val := by
  refine (glv_wp' he h0 (by omega)).mono ?_
  rintro ⟨u0, u1⟩ ⟨n0, v0, l1, v1⟩
  dsimp only at n0 v0 l1 v1 ⊢
  refine ⟨n0, v0, l1, v1, ?_⟩
  rw [v1, xPar_val, r_val]
  push_cast
  omega

/-- The four digits of `e` to the base `xPar`. -/
theorem gs_wp {e : BIG} (he : e.Nrm) (h0 : 0 ≤ e.val) (h1 : e.val < 2 ^ 403) :
    Wp (gs e) fun u => u.1.Lim (2 ^ 59) ∧ 0 ≤ u.1.val ∧ u.1.val < 2 ^ 256 ∧
      u.2.1.Lim (2 ^ 59) ∧ 0 ≤ u.2.1.val ∧ u.2.1.val < 2 ^ 256 ∧
      u.2.2.1.Lim (2 ^ 59) ∧ 0 ≤ u.2.2.1.val ∧ u.2.2.1.val < 2 ^ 256 ∧
      u.2.2.2.Lim (2 ^ 59) ∧ 0 ≤ u.2.2.2.val ∧ u.2.2.2.val < 2 ^ 256 ∧
      u.1.val + xPar * u.2.1.val + xPar ^ 2 * u.2.2.1.val + xPar ^ 3 * u.2.2.2.val = e.val := by
  unfold gs
  dsimp only
  have x0 : rom.CURVE_BNX.val = 18448995873540018688 := by decide +kernel
  refine Wp.bind (BIG.rmod_wp (he.lim58 h0 (by omega) |>.mono (by norm_num)) h0 (by omega) bnx_nrm (by omega)) ?_
  rintro u0 ⟨n0, v0⟩
  refine Wp.bind (BIG.div_wp (he.lim58 h0 (by omega) |>.mono (by norm_num)) h0 (by omega) bnx_nrm (by omega)
    (by omega)) ?_
  rintro w1 ⟨m1, y1⟩
  rw [x0] at v0 y1
  refine Wp.bind (BIG.rmod_wp (m1.lim58 (by omega) (by omega) |>.mono (by norm_num)) (by omega) (by omega) bnx_nrm
    (by omega)) ?_
  rintro u1 ⟨n1, v1⟩
  refine Wp.bind (BIG.div_wp (m1.lim58 (by omega) (by omega) |>.mono (by norm_num)) (by omega) (by omega) bnx_nrm
    (by omega) (by omega)) ?_
  rintro w2 ⟨m2, y2⟩
  rw [x0] at v1 y2
  refine Wp.bind (BIG.rmod_wp (m2.lim58 (by omega) (by omega) |>.mono (by norm_num)) (by omega) (by omega) bnx_nrm
    (by omega)) ?_
  rintro u2 ⟨n2, v2⟩
  refine Wp.bind (BIG.div_wp (m2.lim58 (by omega) (by omega) |>.mono (by norm_num)) (by omega) (by omega) bnx_nrm
    (by omega) (by omega)) ?_
  rintro w3 ⟨m3, y3⟩
  rw [x0] at v2 y3
  refine Wp.ret ?_
  dsimp only
  refine ⟨n0.lim58 (by omega) (by omega) |>.mono (by norm_num), by omega, by omega,
    n1.lim58 (by omega) (by omega) |>.mono (by norm_num), by omega, by omega,
    n2.lim58 (by omega) (by omega) |>.mono (by norm_num), by omega, by omega,
    m3.lim58 (by omega) (by omega) |>.mono (by norm_num), by omega, by omega, ?_⟩
  rw [xPar_val]
  push_cast
  omega

/-- Taking the shorter of a scalar and its negative keeps the multiple. -/
theorem shorter_wp {P G : Type} [AddCommGroup G] {neg : P → Option P} {Rep Rep' : P → G → Prop}
    (up : ∀ {a g}, Rep a g → Rep' a g) (hn : ∀ {a g}, Rep a g → Wp (neg a) fun b => Rep' b (-g))
    {u : BIG} {R : P} {g : G} (hR : Rep R g) (hg : r • g = 0) (lu : u.Lim (2 ^ 59)) (h0 : 0 ≤ u.val)
    (h1 : u.val < 2 ^ 406) : Wp (shorter neg u R) fun x => x.1.Nrm ∧ 0 ≤ x.1.val ∧ x.1.val < 2 ^ 257 ∧
      ∃ g', Rep' x.2 g' ∧ (g' = g ∨ g' = -g) ∧ x.1.val • g' = u.val • g := by
  unfold shorter
  have q0 : rom.CURVE_ORDER.val = 115848638697272667145794417268073757960001407039087633408816076049920489684993 := by
    decide +kernel
  refine Wp.bind (BIG.nbits_wp (lu.mono (by norm_num)) h0) ?_
  rintro np -
  refine Wp.bind (BIG.modneg_wp (lu.mono (by norm_num)) h0 (by omega) order_nrm (by omega) (by omega)) ?_
  rintro ⟨t, u'⟩ ⟨lt, vt, nu, vu⟩
  dsimp only at lt vt nu vu ⊢
  have vt' := vt
  have vu' := vu
  rw [q0] at vt' vu'
  refine Wp.bind (BIG.nbits_wp (lt.mono (by norm_num)) (by omega)) ?_
  rintro nn -
  have hz : ∀ k : Int, (k * rom.CURVE_ORDER.val) • g = 0 := by
    intro k
    rw [mul_smul, order_val, natCast_zsmul, hg, smul_zero]
  have hm : (u.val % rom.CURVE_ORDER.val) • g = u.val • g := by
    have e : u.val % rom.CURVE_ORDER.val = u.val - (u.val / rom.CURVE_ORDER.val) * rom.CURVE_ORDER.val := by
      rw [Int.emod_def]; ring
    rw [e, sub_smul, hz, sub_zero]
  split
  · refine Wp.bind (hn hR) fun R' hR' => ?_
    refine Wp.bind (BIG.norm_wp (lt.mono (by norm_num))) ?_
    rintro s ⟨ns, vs⟩
    refine Wp.ret ⟨ns, by dsimp only; omega, by dsimp only; omega, -g, hR', Or.inr rfl, ?_⟩
    dsimp only
    have := hz 1
    rw [one_mul] at this
    rw [vs, vt, smul_neg, sub_smul, this, zero_sub, neg_neg, hm]
  · refine Wp.bind (BIG.norm_wp (nu.lim58 (by omega) (by omega) |>.mono (by norm_num))) ?_
    rintro s ⟨ns, vs⟩
    refine Wp.ret ⟨ns, by dsimp only; omega, by dsimp only; omega, g, up hR, Or.inl rfl, ?_⟩
    dsimp only
    rw [vs, vu, hm]

theorem nbits_neg {a : BIG} (ha : a.Lim (2 ^ 62)) (h0 : -2 ^ 348 ≤ a.val) (h1 : a.val < 0) :
    Wp a.nbits fun n => n = 349 := by
  unfold BIG.nbits
  refine Wp.bind (BIG.norm_wp ha) ?_
  rintro s ⟨ns, vs⟩
  have e6 : s.w6 = -1 := by rw [ns.w6_eq, vs]; omega
  rw [e6, if_pos (by norm_num)]
  exact Wp.ret (by decide)

theorem modneg_neg {a m : BIG} (ha : a.Lim (2 ^ 62)) (a0 : -2 ^ 348 ≤ a.val) (a1 : a.val < 0)
    (hm : m.Nrm) (m0 : 0 < m.val) (m1 : m.val < 2 ^ 406) :
    Wp (BIG.modneg a m) fun x => x.1.Lim (2 ^ 59) ∧ x.1.val = m.val - a.val := by
  unfold BIG.modneg
  refine Wp.bind (R := fun s => s.Nrm ∧ s.val = a.val) ?_ ?_
  · unfold BIG.rmod
    refine Wp.bind (BIG.norm_wp ha) ?_
    rintro s ⟨ns, vs⟩
    dsimp only
    rw [if_pos (by rw [BIG.comp_lt ns hm]; omega)]
    exact Wp.ret ⟨ns, vs⟩
  rintro s ⟨ns, vs⟩
  have e6 : s.w6 = -1 := by rw [ns.w6_eq, vs]; omega
  have ls : s.Lim (2 ^ 58) := by
    obtain ⟨h0, h1, h2, h3, h4, h5⟩ := ns
    constructor <;> omega
  refine Wp.bind (BIG.sub_wp (hm.lim58 m0.le m1) ls (by norm_num)) ?_
  rintro x ⟨lx, vx⟩
  exact Wp.ret ⟨lx.mono (by norm_num), by rw [vx, vs]⟩

/-- The same for a negative scalar: the negative is taken. -/
theorem shorter_neg_wp {P G : Type} [AddCommGroup G] {neg : P → Option P} {Rep Rep' : P → G → Prop}
    (hn : ∀ {a g}, Rep a g → Wp (neg a) fun b => Rep' b (-g))
    {u : BIG} {R : P} {g : G} (hR : Rep R g) (hg : r • g = 0) (lu : u.Lim (2 ^ 59)) (h0 : -2 ^ 300 < u.val)
    (h1 : u.val < 0) : Wp (shorter neg u R) fun x => x.1.Nrm ∧ 0 ≤ x.1.val ∧ x.1.val < 2 ^ 302 ∧
      ∃ g', Rep' x.2 g' ∧ (g' = g ∨ g' = -g) ∧ x.1.val • g' = u.val • g := by
  unfold shorter
  have q0 : rom.CURVE_ORDER.val = 115848638697272667145794417268073757960001407039087633408816076049920489684993 := by
    decide +kernel
  refine Wp.bind (nbits_neg (lu.mono (by norm_num)) (by omega) h1) ?_
  intro np enp
  rw [enp]
  refine Wp.bind (modneg_neg (lu.mono (by norm_num)) (by omega) h1 order_nrm (by omega) (by omega)) ?_
  rintro ⟨t, u'⟩ ⟨lt, vt⟩
  dsimp only at lt vt ⊢
  have vt' := vt
  rw [q0] at vt'
  refine Wp.bind (BIG.nbits_wp (lt.mono (by norm_num)) (by omega)) ?_
  intro nn enn
  have hlt : nn < 349 := by
    rw [enn, Nat.lt_succ_iff, Nat.size_le]
    omega
  rw [if_pos hlt]
  refine Wp.bind (hn hR) fun R' hR' => ?_
  refine Wp.bind (BIG.norm_wp (lt.mono (by norm_num))) ?_
  rintro s ⟨ns, vs⟩
  refine Wp.ret ⟨ns, by dsimp only; omega, by dsimp only; omega, -g, hR', Or.inr rfl, ?_⟩
  dsimp only
  rw [vs, vt, smul_neg, sub_smul, order_val, natCast_zsmul, hg, zero_sub, neg_neg]

theorem shorter_any_wp {P G : Type} [AddCommGroup G] {neg : P → Option P} {Rep Rep' : P → G → Prop}
    (up : ∀ {a g}, Rep a g → Rep' a g) (hn : ∀ {a g}, Rep a g → Wp (neg a) fun b => Rep' b (-g))
    {u : BIG} {R : P} {g : G} (hR : Rep R g) (hg : r • g = 0) (lu : u.Lim (2 ^ 59)) (h0 : -2 ^ 300 < u.val)
    (h1 : u.val < 2 ^ 406) : Wp (shorter neg u R) fun x => x.1.Nrm ∧ 0 ≤ x.1.val ∧ x.1.val < 2 ^ 302 ∧
      ∃ g', Rep' x.2 g' ∧ (g' = g ∨ g' = -g) ∧ x.1.val • g' = u.val • g := by
  rcases lt_or_ge u.val 0 with h | h
  · exact shorter_neg_wp (Rep := Rep) (Rep' := Rep') hn hR hg lu h0 h
  · refine (shorter_wp (Rep := Rep) (Rep' := Rep') up hn hR hg lu h h1).mono ?_
    rintro x ⟨a, b, c, d⟩
    exact ⟨a, b, by omega, d⟩

end pair

/-! ### First group -/

namespace ECP

theorem jointLaws : Joint.Laws ops (fun P g => Ok P 32 g) (fun P g => Ok P (2 ^ 12) g)
    (fun P g => Ok P (2 ^ 13) g) (fun P => ∃ g, Ok P (2 ^ 13) g) where
  res h := h.mono (by norm_num)
  up h := h.mono (by norm_num)
  any h := ⟨_, h⟩
  add0 h h' := add_wp (h.mono (by norm_num)) (h'.mono (by norm_num))
  dbl0 h := dbl_wp (h.mono (by norm_num))
  neg h := (neg_wp h (by norm_num)).mono fun _ h => h.mono (by norm_num)
  cmove h h' hd := cmove_eq h.choose_spec h'.choose_spec (by norm_num) hd

/-- What `mul2` returns: a representation of `g`, affine unless `g = 0`. -/
def Post2 (P : ECP) (g : G1) : Prop := Ok P 32 g ∧ (g ≠ 0 → FP.Can P.z 1)

theorem mul2_wp {P Q : ECP} {g h : G1} (hP : Ok P (2 ^ 12) g) (hQ : Ok Q (2 ^ 12) h) {e f : BIG} (he : e.Nrm)
    (e0 : 0 ≤ e.val) (e1 : e.val < 2 ^ 402) (hf : f.Nrm) (f0 : 0 ≤ f.val) (f1 : f.val < 2 ^ 402) :
    Wp (mul2 P e Q f) fun r => Post2 r (e.val • g + f.val • h) :=
  Joint.mul2_wp jointLaws (fun h => (affine_wp h (by norm_num)).mono fun _ h => ⟨h.1, h.2.2.1⟩) hP hQ he e0 e1
    hf f0 f1

theorem mulx_wp {P : ECP} {E : Int} {g : G1} (hP : Ok P E g) (hE : 2 ≤ E ∧ E ≤ 2 ^ 20) {c : FP}
    (hc : FP.Ok c 1 2 cru) : Wp (mulx P c) fun r => Ok r E (glvMap g) := by
  unfold mulx
  refine Wp.bind (FP.mul_wp hP.x hc (by omega)) fun x hx => ?_
  refine Wp.ret (ok_of (hx.mono (by omega)) hP.y hP.z ?_)
  rcases hP.pt with ⟨a, b, c, rfl⟩ | ⟨hz, x, y, h, ex, ey, rfl⟩
  · exact Or.inl ⟨by rw [a, zero_mul], b, c, glvMap_zero⟩
  · refine Or.inr ⟨hz, _, _, glv_on h, ?_, ey, glvMap_mk h⟩
    rw [ex]; ring

theorem cru_ok : Wp (FP.new_big rom.CURVE_CRU) fun f => FP.Ok f 1 2 cru :=
  FP.nres_wp (by constructor <;> norm_num [rom.CURVE_CRU]) (by decide +kernel) (by decide +kernel)

end ECP

/-- `g1mul` multiplies points of order `r`. -/
theorem pair.g1mul_wp {P : ECP} {g : G1} (hP : ECP.Ok P (2 ^ 11) g) (hg : r • g = 0) {e : BIG} (he : e.Nrm)
    (h0 : 0 ≤ e.val) (h1 : e.val < 2 ^ 403) : Wp (g1mul P e) fun R => ECP.Post2 R (e.val • g) := by
  unfold g1mul
  refine Wp.bind ECP.cru_ok fun c hc => ?_
  refine Wp.bind (glv_wp' he h0 h1) ?_
  rintro ⟨u0, u1⟩ ⟨n0, v0, l1, v1⟩
  dsimp only at n0 v0 l1 v1 ⊢
  rw [xPar_val] at v0 v1
  rw [r_val] at v1
  norm_num at v0 v1
  refine Wp.bind (ECP.mulx_wp hP (by norm_num) hc) fun Q hQ => ?_
  have hg' : r • glvMap g = 0 := by rw [← glvMap_nsmul, hg, glvMap_zero]
  refine Wp.bind (shorter_wp (Rep := fun P g => ECP.Ok P (2 ^ 11) g) (Rep' := fun P g => ECP.Ok P (2 ^ 12) g)
    (fun h => h.mono (by norm_num)) (fun h => (ECP.neg_wp h (by norm_num)).mono fun _ h => h.mono (by norm_num))
    hP hg (n0.lim58 (by omega) (by omega) |>.mono (by norm_num)) (by omega) (by omega)) ?_
  rintro ⟨w0, R⟩ ⟨nw0, pw0, bw0, g0, hR, -, e0⟩
  refine Wp.bind (shorter_any_wp (Rep := fun P g => ECP.Ok P (2 ^ 11) g) (Rep' := fun P g => ECP.Ok P (2 ^ 12) g)
    (fun h => h.mono (by norm_num)) (fun h => (ECP.neg_wp h (by norm_num)).mono fun _ h => h.mono (by norm_num))
    hQ hg' l1 (by omega) (by omega)) ?_
  rintro ⟨w1, Q'⟩ ⟨nw1, pw1, bw1, g1, hQ', -, e1⟩
  dsimp only at nw0 pw0 bw0 hR e0 nw1 pw1 bw1 hQ' e1 ⊢
  refine (ECP.mul2_wp hR hQ' nw0 pw0 (by omega) nw1 pw1 (by omega)).mono fun T hT => ?_
  rw [e0, e1] at hT
  convert hT using 1
  have ht := glv_torsion hg
  have ht' : glvMap g = -((xPar * xPar : Nat) : Int) • g := by
    rw [neg_smul, natCast_zsmul, ht, neg_neg]
  have hz : ((r : Nat) : Int) • g = 0 := by rw [natCast_zsmul, hg]
  have ev : e.val = u0.val + u1.val * (-((xPar * xPar : Nat) : Int)) + xPar * xPar * r := by
    rw [v0, v1, xPar_val, r_val]; push_cast; omega
  rw [ht', smul_smul, ← add_smul]
  conv_lhs => rw [ev]
  rw [add_smul, mul_smul (_ * _) (r : Int), hz, smul_zero, add_zero]

/-- Which of the two `shorter` takes, without an assumption on the order. -/
theorem pair.shorter_exact {P G : Type} [AddCommGroup G] {neg : P → Option P} {Rep Rep' : P → G → Prop}
    (up : ∀ {a g}, Rep a g → Rep' a g) (hn : ∀ {a g}, Rep a g → Wp (neg a) fun b => Rep' b (-g))
    {u : BIG} {R : P} {g : G} (hR : Rep R g) (lu : u.Lim (2 ^ 59)) (h0 : 0 ≤ u.val)
    (h1 : u.val < 2 ^ 406) : Wp (shorter neg u R) fun x => x.1.Nrm ∧
      (Nat.size (r - u.val % r).toNat < Nat.size u.val.toNat → x.1.val = r - u.val % r ∧ Rep' x.2 (-g)) ∧
      (¬ Nat.size (r - u.val % r).toNat < Nat.size u.val.toNat → x.1.val = u.val % r ∧ Rep' x.2 g) := by
  unfold shorter
  have q0 : rom.CURVE_ORDER.val = 115848638697272667145794417268073757960001407039087633408816076049920489684993 := by
    decide +kernel
  refine Wp.bind (BIG.nbits_wp (lu.mono (by norm_num)) h0) ?_
  rintro _ rfl
  refine Wp.bind (BIG.modneg_wp (lu.mono (by norm_num)) h0 (by omega) order_nrm (by omega) (by omega)) ?_
  rintro ⟨t, u'⟩ ⟨lt, vt, nu, vu⟩
  dsimp only at lt vt nu vu ⊢
  have vt' := vt
  have vu' := vu
  rw [q0] at vt' vu'
  rw [order_val] at vt vu
  refine Wp.bind (BIG.nbits_wp (lt.mono (by norm_num)) (by omega)) ?_
  rintro _ rfl
  rw [← vt, ← vu]
  split
  · rename_i hlt
    refine Wp.bind (hn hR) fun R' hR' => ?_
    refine Wp.bind (BIG.norm_wp (lt.mono (by norm_num))) ?_
    rintro s ⟨ns, vs⟩
    exact Wp.ret ⟨ns, fun _ => ⟨vs, hR'⟩, fun h => absurd (by exact_mod_cast hlt) h⟩
  · rename_i hlt
    refine Wp.bind (BIG.norm_wp (nu.lim58 (by omega) (by omega) |>.mono (by norm_num))) ?_
    rintro s ⟨ns, vs⟩
    exact Wp.ret ⟨ns, fun h => absurd (by exact_mod_cast h) hlt, fun _ => ⟨vs, up hR⟩⟩

/-- Outside the subgroup of order `r`, `g1mul` with the scalar `xPar²` gives `-φ(g)` instead of a multiple. -/
theorem pair.g1mul_outside {P : ECP} {g : G1} (hP : ECP.Ok P (2 ^ 11) g) {e : BIG} (he : e.Nrm)
    (ve : e.val = (xPar * xPar : Nat)) : Wp (g1mul P e) fun R => ECP.Post2 R (-glvMap g) := by
  unfold g1mul
  rw [xPar_val] at ve
  norm_num at ve
  refine Wp.bind ECP.cru_ok fun c hc => ?_
  refine Wp.bind (glv_wp he (by omega) (by omega)) ?_
  rintro ⟨u0, u1⟩ ⟨n0, v0, l1, v1, p1⟩
  dsimp only at n0 v0 l1 v1 p1 ⊢
  rw [xPar_val] at v0 v1
  rw [r_val] at v1
  rw [ve] at v0 v1
  norm_num at v0 v1
  refine Wp.bind (ECP.mulx_wp hP (by norm_num) hc) fun Q hQ => ?_
  refine Wp.bind (shorter_exact (Rep := fun P g => ECP.Ok P (2 ^ 11) g) (Rep' := fun P g => ECP.Ok P (2 ^ 12) g)
    (fun h => h.mono (by norm_num)) (fun h => (ECP.neg_wp h (by norm_num)).mono fun _ h => h.mono (by norm_num))
    hP (n0.lim58 (by omega) (by omega) |>.mono (by norm_num)) (by omega) (by omega)) ?_
  rintro ⟨w0, R⟩ ⟨nw0, -, h0⟩
  refine Wp.bind (shorter_exact (Rep := fun P g => ECP.Ok P (2 ^ 11) g) (Rep' := fun P g => ECP.Ok P (2 ^ 12) g)
    (fun h => h.mono (by norm_num)) (fun h => (ECP.neg_wp h (by norm_num)).mono fun _ h => h.mono (by norm_num))
    hQ l1 p1 (by omega)) ?_
  rintro ⟨w1, Q'⟩ ⟨nw1, h1, -⟩
  dsimp only at nw0 h0 nw1 h1 ⊢
  rw [v0] at h0
  rw [v1] at h1
  obtain ⟨z0, hR⟩ := h0 (by decide +kernel)
  obtain ⟨z1, hQ'⟩ := h1 (by decide +kernel)
  have z1 : w1.val = 1 := by rw [z1]; decide +kernel
  rw [Int.zero_emod] at z0
  refine (ECP.mul2_wp hR hQ' nw0 (by omega) (by omega) nw1 (by omega) (by omega)).mono fun T hT => ?_
  rwa [z0, z1, zero_smul, one_smul, zero_add] at hT

/-! ### Second group -/

namespace ECP2

theorem jointLaws : Joint.Laws ops (fun P g => Ok P 32 g) (fun P g => Ok P (2 ^ 11) g)
    (fun P g => Ok P (2 ^ 14) g) (fun P => ∃ g, Ok P (2 ^ 14) g) where
  res h := h.mono (by norm_num)
  up h := h.mono (by norm_num)
  any h := ⟨_, h⟩
  add0 h h' := add_wp (h.mono (by norm_num)) (h'.mono (by norm_num))
  dbl0 h := dbl_wp (h.mono (by norm_num))
  neg h := (neg_wp h (by norm_num)).mono fun _ h => h.mono (by norm_num)
  cmove h h' hd := cmove_eq h.choose_spec h'.choose_spec (by norm_num) hd

/-- What `mul4` returns: a representation of `g`, affine unless `g = 0`. -/
def Post4 (P : ECP2) (g : G2) : Prop := Ok P 32 g ∧ (g ≠ 0 → P.z.toF = 1)

theorem mul4_wp {q0 q1 q2 q3 : ECP2} {g0 g1 g2 g3 : G2} (h0 : Ok q0 (2 ^ 11) g0) (h1 : Ok q1 (2 ^ 11) g1)
    (h2 : Ok q2 (2 ^ 11) g2) (h3 : Ok q3 (2 ^ 11) g3) {u0 u1 u2 u3 : BIG}
    (l0 : u0.Lim (2 ^ 62)) (a0 : 0 ≤ u0.val) (b0 : u0.val < 2 ^ 404)
    (l1 : u1.Lim (2 ^ 62)) (a1 : 0 ≤ u1.val) (b1 : u1.val < 2 ^ 404)
    (l2 : u2.Lim (2 ^ 62)) (a2 : 0 ≤ u2.val) (b2 : u2.val < 2 ^ 404)
    (l3 : u3.Lim (2 ^ 62)) (a3 : 0 ≤ u3.val) (b3 : u3.val < 2 ^ 404) :
    Wp (mul4 q0 q1 q2 q3 u0 u1 u2 u3) fun r =>
      Post4 r (u0.val • g0 + u1.val • g1 + u2.val • g2 + u3.val • g3) := by
  unfold mul4
  refine Wp.bind (affine_wp h0 (by norm_num)) ?_
  rintro q0 ⟨k0, -⟩
  refine Wp.bind (BIG.norm_wp l0) ?_
  rintro t0 ⟨n0, v0⟩
  refine Wp.bind (affine_wp h1 (by norm_num)) ?_
  rintro q1 ⟨k1, -⟩
  refine Wp.bind (BIG.norm_wp l1) ?_
  rintro t1 ⟨n1, v1⟩
  refine Wp.bind (affine_wp h2 (by norm_num)) ?_
  rintro q2 ⟨k2, -⟩
  refine Wp.bind (BIG.norm_wp l2) ?_
  rintro t2 ⟨n2, v2⟩
  refine Wp.bind (affine_wp h3 (by norm_num)) ?_
  rintro q3 ⟨k3, -⟩
  refine Wp.bind (BIG.norm_wp l3) ?_
  rintro t3 ⟨n3, v3⟩
  have L := jointLaws
  refine Wp.bind (Joint.sums_wp L k0 (L.up k1) (L.up k2) (L.up k3)) ?_
  rintro T ⟨hT, w, ew, hw⟩
  refine Wp.bind (R := fun x => x = w) (Wp.of_eq ew rfl) ?_
  rintro _ rfl
  refine Wp.bind (Joint.makeOdd_wp n0 (by omega) (by omega)) ?_
  rintro ⟨s0, pb⟩ ⟨m0, ho, hpb, vs⟩
  dsimp only at m0 ho hpb vs ⊢
  refine Wp.bind new_wp fun P hP => ?_
  refine Wp.bind (Joint.run4_wp L hT ⟨_, hP.mono (by norm_num)⟩ hw m0 (by omega) (by omega) ho n1 (by omega)
    (by omega) n2 (by omega) (by omega) n3 (by omega) (by omega)) fun R hR => ?_
  refine Wp.bind (sub_wp (hR.mono (by norm_num)) k0) fun W hW => ?_
  have : Ok (R.cmove W pb) 32 (u0.val • g0 + u1.val • g1 + u2.val • g2 + u3.val • g3) := by
    rw [cmove_eq hR hW (by norm_num) hpb]
    rcases hpb with rfl | rfl
    · rw [if_pos rfl]
      rw [vs, add_zero, v0, v1, v2, v3] at hR
      exact hR
    · rw [if_neg one_ne_zero]
      convert hW using 1
      rw [vs, v0, v1, v2, v3]
      module
  exact (affine_wp this (by norm_num)).mono fun _ h => ⟨h.1, h.2.2.1⟩

theorem frob_wp {P : ECP2} {E : Int} {g : G2} (hP : Ok P E g) (hE : 1 ≤ E ∧ E ≤ 2 ^ 20) {f : FP2}
    (hf : FP2.Ok f 1 2 γ⁻¹) : Wp (frob P f) fun r => Ok r 3 (psi g) := by
  unfold frob
  refine Wp.bind (FP2.sqr_wp hf (by norm_num)) fun x2 h2 => ?_
  refine Wp.bind (FP2.conj_wp hP.x (by omega)) fun px hx => ?_
  refine Wp.bind (FP2.conj_wp hP.y (by omega)) fun py hy => ?_
  refine Wp.bind (FP2.conj_wp hP.z (by omega)) fun pz hz => ?_
  refine Wp.bind (FP2.reduce_wp hz (by omega)) fun pz hz => ?_
  refine Wp.bind (FP2.mul_wp hx h2 (by omega)) fun px hx => ?_
  refine Wp.bind (FP2.mul_wp hy h2 (by omega)) fun py hy => ?_
  refine Wp.bind (FP2.mul_wp hy hf (by omega)) fun py hy => ?_
  refine Wp.ret (ok_of (hx.mono (by omega)) (hy.mono (by omega)) (hz.ok.mono (by omega)) ?_)
  have hg := γ_ne
  rcases hP.pt with ⟨a, b, c, rfl⟩ | ⟨hz', x, y, h, ex, ey, rfl⟩
  · refine Or.inl ⟨by rw [a, star_zero, zero_mul], ?_, by rw [c, star_zero], psi_zero⟩
    have : star P.y.toF ≠ 0 := (map_ne_zero (starRingEnd Fp2)).2 b
    positivity
  · refine Or.inr ⟨(map_ne_zero (starRingEnd Fp2)).2 hz', _, _, psi_on h, ?_, ?_, psi_mk h⟩
    · rw [ex, star_mul']; field_simp
    · rw [ey, star_mul']; field_simp

end ECP2

/-- `g2mul` multiplies points of order `r`. -/
theorem pair.g2mul_wp {P : ECP2} {g : G2} (hP : ECP2.Ok P (2 ^ 8) g) (hg : r • g = 0) {e : BIG} (he : e.Nrm)
    (h0 : 0 ≤ e.val) (h1 : e.val < 2 ^ 403) : Wp (g2mul P e) fun R => ECP2.Post4 R (e.val • g) := by
  unfold g2mul
  refine Wp.bind gamma_ok fun f hf => ?_
  refine Wp.bind (gs_wp he h0 h1) ?_
  rintro ⟨u0, u1, u2, u3⟩ ⟨l0, a0, b0, l1, a1, b1, l2, a2, b2, l3, a3, b3, ev⟩
  dsimp only at *
  refine Wp.bind (FP2.inverse_wp hf (by norm_num)) fun f hf => ?_
  refine Wp.bind (FP2.norm_ok hf (by norm_num)) fun f hf => ?_
  refine Wp.bind (ECP2.frob_wp hP (by norm_num) hf) fun Q1 hQ1 => ?_
  refine Wp.bind (ECP2.frob_wp hQ1 (by norm_num) hf) fun Q2 hQ2 => ?_
  refine Wp.bind (ECP2.frob_wp hQ2 (by norm_num) hf) fun Q3 hQ3 => ?_
  have t1 : r • psi g = 0 := by rw [← psi_nsmul, hg, psi_zero]
  have t2 : r • psi (psi g) = 0 := by rw [← psi_nsmul, t1, psi_zero]
  have t3 : r • psi (psi (psi g)) = 0 := by rw [← psi_nsmul, t2, psi_zero]
  have hup : ∀ {a : ECP2} {g : G2}, ECP2.Ok a (2 ^ 8) g → ECP2.Ok a (2 ^ 11) g := fun h => h.mono (by norm_num)
  have hneg : ∀ {a : ECP2} {g : G2}, ECP2.Ok a (2 ^ 8) g → Wp (ECP2.neg a) fun b => ECP2.Ok b (2 ^ 11) (-g) :=
    fun h => (ECP2.neg_wp h (by norm_num)).mono fun _ h => h.mono (by norm_num)
  refine Wp.bind (shorter_wp (Rep := fun P g => ECP2.Ok P (2 ^ 8) g) (Rep' := fun P g => ECP2.Ok P (2 ^ 11) g) hup hneg hP hg l0 a0 (by omega)) ?_
  rintro ⟨w0, R0⟩ ⟨nw0, pw0, bw0, g0, hR0, -, e0⟩
  refine Wp.bind (shorter_wp (Rep := fun P g => ECP2.Ok P (2 ^ 8) g) (Rep' := fun P g => ECP2.Ok P (2 ^ 11) g) hup hneg (hQ1.mono (by norm_num)) t1 l1 a1 (by omega)) ?_
  rintro ⟨w1, R1⟩ ⟨nw1, pw1, bw1, g1, hR1, -, e1⟩
  refine Wp.bind (shorter_wp (Rep := fun P g => ECP2.Ok P (2 ^ 8) g) (Rep' := fun P g => ECP2.Ok P (2 ^ 11) g) hup hneg (hQ2.mono (by norm_num)) t2 l2 a2 (by omega)) ?_
  rintro ⟨w2, R2⟩ ⟨nw2, pw2, bw2, g2, hR2, -, e2⟩
  refine Wp.bind (shorter_wp (Rep := fun P g => ECP2.Ok P (2 ^ 8) g) (Rep' := fun P g => ECP2.Ok P (2 ^ 11) g) hup hneg (hQ3.mono (by norm_num)) t3 l3 a3 (by omega)) ?_
  rintro ⟨w3, R3⟩ ⟨nw3, pw3, bw3, g3, hR3, -, e3⟩
  dsimp only at *
  refine (ECP2.mul4_wp hR0 hR1 hR2 hR3
    (nw0.lim58 (by omega) (by omega) |>.mono (by norm_num)) (by omega) (by omega)
    (nw1.lim58 (by omega) (by omega) |>.mono (by norm_num)) (by omega) (by omega)
    (nw2.lim58 (by omega) (by omega) |>.mono (by norm_num)) (by omega) (by omega)
    (nw3.lim58 (by omega) (by omega) |>.mono (by norm_num)) (by omega) (by omega)).mono fun T hT => ?_
  rw [e0, e1, e2, e3] at hT
  convert hT using 1
  have s : ∀ {A : G2}, r • A = 0 → psi A = ((xPar : Nat) : Int) • A := by
    intro A hA
    rw [natCast_zsmul, psi_torsion hA]
  rw [s t2, s t1, s hg]
  rw [← ev]
  module

end Amcl.B383
