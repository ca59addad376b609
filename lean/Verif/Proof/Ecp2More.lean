import Verif.Model.Ecp2More
import Verif.Spec.Mapit2
import Verif.Proof.Codec2
import Verif.Proof.Endo
import Verif.Proof.Hash
import Verif.Proof.Mapit1
/-!
# The twist: AMCL's own strings and `mapit`
-/

set_option exponentiation.threshold 2000

namespace Amcl

open Spec

seal Spec.toBE Spec.signBit Spec.enc1

/-- The written number stands for the coordinate. -/
theorem FP.outNat_cast (f : FP) (v : Fp) : ((FP.outNat f v : Nat) : Fp) = v := by
  rw [FP.outNat]
  split
  · rename_i h
    rw [h.1, CharP.cast_eq_zero]
  · exact ZMod.natCast_zmod_val v

namespace ECP2

theorem tobytes_val {P : ECP2} {E : Int} {x y : Fp2} {h : y ^ 2 = x ^ 3 + b2} (hP : Ok P E (Pt.mk x y h))
    (hE : 2 ≤ E ∧ E ≤ 2 ^ 20) :
    Wp P.tobytes fun r => ∃ a b c d, r = toBE 48 a ++ toBE 48 b ++ toBE 48 c ++ toBE 48 d ∧
      a = FP.outIf (P.z.toF = 1) P.x.a x.re ∧ b = FP.outIf (P.z.toF = 1) P.x.b x.im ∧
      c = FP.outIf (P.z.toF = 1) P.y.a y.re ∧ d = FP.outIf (P.z.toF = 1) P.y.b y.im := by
  unfold tobytes FP2.geta FP2.getb
  have hp := p_le_pow
  refine Wp.bind ((affine_wp hP hE).and (affine_coords hP hE)) ?_
  rintro Q ⟨⟨-, -, hz1, h1, h2⟩, hQ, hx, hy, hz, e1, e2, e3, -⟩
  have h2 := h2 (Pt.mk_ne h)
  obtain ⟨h', e⟩ := hQ.pt.coords hz
  rw [Pt.mk_inj] at e
  have ey := e.2
  have hya : FP.outNat Q.y.a y.re = FP.outIf (P.z.toF = 1) P.y.a y.re := by
    refine FP.outIf_eq (fun h => by rw [(h1 h).2]) fun h => ?_
    rw [ey]
    exact (h2 h).2.a
  refine Wp.bind (FP.redc_nat hx.a (by omega)) ?_
  rintro X ⟨nX, vX⟩
  have := FP.outNat_le Q.x.a x.re
  refine Wp.bind (Wp.eq (nX.tobytes vX (by omega))) ?_
  rintro _ rfl
  refine Wp.bind (FP.redc_nat hx.b (by omega)) ?_
  rintro X ⟨nX, vX⟩
  have := FP.outNat_le Q.x.b x.im
  refine Wp.bind (Wp.eq (nX.tobytes vX (by omega))) ?_
  rintro _ rfl
  refine Wp.bind (FP.redc_nat hy.a (by omega)) ?_
  rintro X ⟨nX, vX⟩
  have := FP.outNat_le Q.y.a y.re
  refine Wp.bind (Wp.eq (nX.tobytes vX (by omega))) ?_
  rintro _ rfl
  refine Wp.bind (FP.redc_nat hy.b (by omega)) ?_
  rintro X ⟨nX, vX⟩
  have := FP.outNat_le Q.y.b y.im
  refine Wp.bind (Wp.eq (nX.tobytes vX (by omega))) ?_
  rintro _ rfl
  exact Wp.ret ⟨_, _, _, _, rfl, e1, e2, hya, e3⟩

/-- The string written for infinity. -/
theorem tobytes_inf {P : ECP2} {E : Int} (hP : Ok P E 0) (hE : 2 ≤ E ∧ E ≤ 2 ^ 20) :
    Wp P.tobytes fun r => r = toBE 48 (FP.outNat P.x.a 0) ++ toBE 48 (FP.outNat P.x.b 0) ++
      toBE 48 (FP.outNat P.y.a P.y.toF.re) ++ toBE 48 (FP.outNat P.y.b P.y.toF.im) := by
  unfold tobytes FP2.geta FP2.getb
  have hp := p_le_pow
  refine Wp.bind (affine_wp hP hE) ?_
  rintro Q ⟨-, h0, -⟩
  rw [h0 rfl]
  clear h0 Q
  have ex : P.x.toF = 0 := by
    rcases hP.pt with ⟨h, -, -⟩ | ⟨-, x, y, h, -, -, e⟩
    · exact h
    · exact absurd e.symm (Pt.mk_ne h)
  have hx := hP.x
  rw [ex] at hx
  have hy := hP.y
  refine Wp.bind (FP.redc_nat hx.a (by omega)) ?_
  rintro X ⟨nX, vX⟩
  have := FP.outNat_le P.x.a (0 : Fp2).re
  refine Wp.bind (Wp.eq (nX.tobytes vX (by omega))) ?_
  rintro _ rfl
  refine Wp.bind (FP.redc_nat hx.b (by omega)) ?_
  rintro X ⟨nX, vX⟩
  have := FP.outNat_le P.x.b (0 : Fp2).im
  refine Wp.bind (Wp.eq (nX.tobytes vX (by omega))) ?_
  rintro _ rfl
  refine Wp.bind (FP.redc_nat hy.a (by omega)) ?_
  rintro X ⟨nX, vX⟩
  have := FP.outNat_le P.y.a P.y.toF.re
  refine Wp.bind (Wp.eq (nX.tobytes vX (by omega))) ?_
  rintro _ rfl
  refine Wp.bind (FP.redc_nat hy.b (by omega)) ?_
  rintro X ⟨nX, vX⟩
  have := FP.outNat_le P.y.b P.y.toF.im
  refine Wp.bind (Wp.eq (nX.tobytes vX (by omega))) ?_
  rintro _ rfl
  exact Wp.ret rfl

theorem frombytes_wp {b : List UInt8} (hb : 192 ≤ b.length) : Wp (frombytes b) fun P =>
    (∀ h : block2 b 96 ^ 2 = block2 b 0 ^ 3 + b2, Ok P 2 (Pt.mk _ _ h) ∧ P.z.toF = 1) ∧
    (¬ block2 b 96 ^ 2 = block2 b 0 ^ 3 + b2 → Ok P 2 0) := by
  have hp := p_pos
  have hp' : (2 : Int) ^ 384 ≤ 2 ^ 25 * p := by norm_num [p]
  have key : ∀ k, k + 48 ≤ b.length → Wp (BIG.frombytes ((b.drop k).take 48)) fun a => a.Lim (2 ^ 61) ∧
      0 ≤ a.val ∧ a.val ≤ 2 ^ 25 * p ∧ ((a.val : Int) : Fp) = (beNat ((b.drop k).take 48) : Fp) := by
    intro k hk
    have hl : ((b.drop k).take 48).length = 48 := by rw [List.length_take, List.length_drop]; omega
    have hN := beNat_lt48 hl
    refine (BIG.frombytes_wp (by rw [hl])).mono ?_
    rintro a ⟨na, va⟩
    rw [List.take_of_length_le (by rw [hl])] at va
    exact ⟨(na.lim58 (by omega) (by omega)).mono (by norm_num), by omega, by omega, by rw [va, Int.cast_natCast]⟩
  unfold frombytes
  rw [if_neg (by omega)]
  refine Wp.bind (key 0 (by omega)) ?_
  rintro a ⟨la, a0, a1, ea⟩
  refine Wp.bind (key 48 (by omega)) ?_
  rintro c ⟨lc, c0, c1, ec⟩
  refine Wp.bind (FP2.new_bigs_wp la lc a0 c0 a1 c1) ?_
  rintro X ⟨hX, -⟩
  refine Wp.bind (key 96 (by omega)) ?_
  rintro a' ⟨la', a0', a1', ea'⟩
  refine Wp.bind (key 144 (by omega)) ?_
  rintro c' ⟨lc', c0', c1', ec'⟩
  refine Wp.bind (FP2.new_bigs_wp la' lc' a0' c0' a1' c1') ?_
  rintro Y ⟨hY, -⟩
  rw [ea, ec] at hX
  rw [ea', ec'] at hY
  exact (new_fp2s_wp hX hY (by norm_num)).mono fun P hP => ⟨fun h => ⟨(hP.1 h).1, (hP.1 h).2.1⟩, hP.2⟩

end ECP2

/-- `4(1+i)` is not a square. -/
theorem b2_not_square (y : Fp2) : y ^ 2 ≠ b2 := by
  intro h
  have h4 : (2 : Fp2) ≠ 0 := fun h => fp_two_ne (congrArg QuadraticAlgebra.re h)
  refine one_add_i_nonsquare (y / 2) ?_
  rw [div_pow, h, b2]
  field_simp
  ring

/-! ### `mapit` -/

/-- A square root of `(1+i)³ + 4(1+i) = 2 + 6i`. -/
def oneya : Nat := 0x17faa6201231304f270b858dad9462089f2a5b83388e4b10773abc1eef6d193b9fce4e8ea2d9d28e3c3a315aa7de14ca
@[inherit_doc oneya]
def oneyb : Nat := 0xcc12449be6ac4e7f367e7242250427c4fb4c39325d3164ad397c1837a90f0ea1a534757df374dd6569345eb41ed76e

theorem one_on : (⟨(oneya : Fp), (oneyb : Fp)⟩ : Fp2) ^ 2 = (⟨1, 1⟩ : Fp2) ^ 3 + b2 := by
  have h1 : ((oneya ^ 2 + (p - oneyb) * oneyb : Nat) : Fp) = ((2 : Nat) : Fp) := by
    rw [ZMod.natCast_eq_natCast_iff, Nat.ModEq]
    norm_num [oneya, oneyb, p]
  have h2 : ((2 * oneya * oneyb : Nat) : Fp) = ((6 : Nat) : Fp) := by
    rw [ZMod.natCast_eq_natCast_iff, Nat.ModEq]
    norm_num [oneya, oneyb, p]
  rw [Nat.cast_add, Nat.cast_mul, Nat.cast_sub (by norm_num [oneyb, p]), CharP.cast_eq_zero Fp p] at h1
  push_cast at h1 h2
  rw [b2]
  ext
  · simp [pow_succ, i, QuadraticAlgebra.re_one, QuadraticAlgebra.im_one, show (4 : Fp2).re = 4 from rfl,
      show (4 : Fp2).im = 0 from rfl]
    linear_combination h1
  · simp [pow_succ, i, QuadraticAlgebra.re_one, QuadraticAlgebra.im_one, show (4 : Fp2).re = 4 from rfl,
      show (4 : Fp2).im = 0 from rfl]
    linear_combination h2

/-- The search succeeds at the latest at the abscissa `1 + i`. -/
theorem exists_usable2 (x : Fp) : ∃ k : Nat, k < p ∧ Usable ⟨1, x + (k : Nat)⟩ := by
  refine ⟨(1 - x).val, ZMod.val_lt _, ?_⟩
  have e : x + (((1 - x).val : Nat) : Fp) = 1 := by
    rw [ZMod.natCast_zmod_val]
    ring
  rw [e]
  refine ⟨_, one_on, fun h => ?_⟩
  have h : ((oneya : Nat) : Fp) = ((0 : Nat) : Fp) := by rw [Nat.cast_zero]; exact h
  rw [ZMod.natCast_eq_natCast_iff, Nat.ModEq] at h
  norm_num [oneya, p] at h

theorem twistFrob_psi (g : G2) : TwistFrob g (psi g) := by
  rcases Pt.cases g with rfl | ⟨a, b, h, rfl⟩
  · exact Or.inl ⟨rfl, psi_zero⟩
  · refine Or.inr ⟨a, b, h, by rw [← γ_eq]; exact psi_on h, rfl, ?_⟩
    rw [psi_mk, Pt.mk_inj, ← γ_eq]
    exact ⟨rfl, rfl⟩

theorem TwistFrob.eq {g g' : G2} (h : TwistFrob g g') : g' = psi g := by
  rcases h with ⟨rfl, rfl⟩ | ⟨x, y, h, h', rfl, rfl⟩
  · exact psi_zero.symm
  · rw [psi_mk, Pt.mk_inj, ← γ_eq]
    exact ⟨rfl, rfl⟩

namespace ECP2

theorem mapitLoop_wp (k : Nat) : ∀ x : BIG, x.Nrm → 0 ≤ x.val → x.val + k ≤ 2 ^ 10 * p →
    (∀ j < k, ¬ Usable ⟨1, (x.val : Fp) + (j : Nat)⟩) → Usable ⟨1, (x.val : Fp) + k⟩ →
    Wp (mapitLoop x) fun P => ∃ (y : Fp2) (h : y ^ 2 = (⟨1, (x.val : Fp) + k⟩ : Fp2) ^ 3 + b2), IsSquare y.re ∧
      Ok P 2 (Pt.mk _ _ h) := by
  have h1 : (BIG.new_int 1).val = 1 := by norm_num [BIG.new_int, BIG.val]
  have l1 : (BIG.new_int 1).Lim (2 ^ 61) := by constructor <;> norm_num [BIG.new_int]
  induction k with
  | zero =>
    intro x nx x0 x1 _ hu
    have hp := p_pos
    have hpl := p_lt
    rw [mapitLoop]
    have lx : x.Lim (2 ^ 61) := (nx.lim58 x0 (by omega)).mono (by norm_num)
    refine Wp.bind (FP2.new_bigs_wp l1 lx (by omega) x0 (by omega) (by omega)) ?_
    rintro X ⟨hX, -⟩
    rw [h1, Int.cast_one] at hX
    simp only [Nat.cast_zero, add_zero] at hu ⊢
    refine Wp.bind (new_fp2_wp hX (by norm_num)) ?_
    rintro P ⟨hP, -⟩
    obtain ⟨y, h, hP, -, -, -, -, hs, -⟩ := hP (usable_iff.1 hu)
    refine Wp.bind (is_infinity_wp hP (by norm_num)) fun b hb => ?_
    rw [if_neg (fun e => Pt.mk_ne h (hb.1 e))]
    exact Wp.ret ⟨y, h, hs, hP⟩
  | succ k ih =>
    intro x nx x0 x1 hn hu
    have hp := p_pos
    have hpl := p_lt
    rw [mapitLoop]
    have lx : x.Lim (2 ^ 61) := (nx.lim58 x0 (by omega)).mono (by norm_num)
    refine Wp.bind (FP2.new_bigs_wp l1 lx (by omega) x0 (by omega) (by omega)) ?_
    rintro X ⟨hX, -⟩
    rw [h1, Int.cast_one] at hX
    refine Wp.bind (new_fp2_wp hX (by norm_num)) ?_
    rintro P ⟨-, hP⟩
    have h0 := hn 0 (by omega)
    rw [Nat.cast_zero, add_zero, usable_iff] at h0
    refine Wp.bind (is_infinity_wp (hP h0) (by norm_num)) fun b hb => ?_
    rw [if_pos (hb.2 rfl)]
    refine Wp.bind (BIG.inc_lim (x := 1) nx x0 (by omega) ⟨by norm_num, by norm_num⟩) ?_
    rintro a ⟨va, la⟩
    refine Wp.bind (BIG.norm_wp la) ?_
    rintro t ⟨nt, vt⟩
    have et : (t.val : Fp) = (x.val : Fp) + 1 := by rw [vt, va]; push_cast; rfl
    have e : ∀ j : Nat, (t.val : Fp) + j = (x.val : Fp) + (j + 1 : Nat) := by
      intro j; rw [et]; push_cast; ring
    have := ih t nt (by omega) (by push_cast at x1; omega) (fun j hj => by
      rw [e]; exact hn (j + 1) (by omega)) (by rw [e]; exact hu)
    rwa [e] at this

/-- The result of a multiplication comes from an addition, so it is small. -/
theorem mul_small {P : ECP2} {g : G2} (hP : Ok P (2 ^ 10) g) {e : BIG} (he : e.Nrm) (h0 : 0 ≤ e.val)
    (h1 : e.val < 2 ^ 403) : Wp (mul P e) fun r => Ok r 32 (e.val • g) := by
  unfold mul
  refine Wp.bind (is_infinity_wp hP (by norm_num)) fun b hb => ?_
  split
  · rename_i ht
    rw [hb.1 ht, smul_zero]
    exact new_wp.mono fun r h => h.mono (by norm_num)
  · exact Window.mul_core laws (Sum := fun P g => Ok P 32 g)
      (fun h h' => add_wp (h.mono (by norm_num)) (h'.mono (by norm_num)))
      (fun h => (affine_wp h (by norm_num)).mono fun _ h => h.1) hP he h0 h1

theorem clear_wp {Q : ECP2} {g : G2} (hQ : Ok Q 2 g) {f : FP2} (hf : FP2.Ok f 1 2 γ⁻¹) :
    Wp (clear Q f) fun r => Ok r 32 (((xAbs : Int) ^ 2 + xAbs - 1) • g + psi ((-(xAbs : Int) - 1) • g) +
      psi (psi ((2 : Int) • g))) := by
  unfold clear
  have hx0 : (0 : Int) ≤ rom.CURVE_BNX.val := by decide +kernel
  have hx1 : rom.CURVE_BNX.val < 2 ^ 403 := by decide +kernel
  refine Wp.bind (mul_small (hQ.mono (by norm_num)) bnx_nrm hx0 hx1) fun A hA => ?_
  rw [bnx_val] at hA
  refine Wp.bind (mul_small (hA.mono (by norm_num)) bnx_nrm hx0 hx1) fun B hB => ?_
  rw [bnx_val] at hB
  refine Wp.bind (neg_wp hA (by norm_num)) fun A hA => ?_
  refine Wp.bind (sub_wp (hB.mono (by norm_num)) (hA.mono (by norm_num))) fun B hB => ?_
  refine Wp.bind (sub_wp (hB.mono (by norm_num)) (hQ.mono (by norm_num))) fun B hB => ?_
  refine Wp.bind (sub_wp (hA.mono (by norm_num)) (hQ.mono (by norm_num))) fun A hA => ?_
  refine Wp.bind (frob_wp hA (by norm_num) hf) fun A hA => ?_
  refine Wp.bind (dbl_wp (hQ.mono (by norm_num))) fun C hC => ?_
  refine Wp.bind (frob_wp hC (by norm_num) hf) fun C hC => ?_
  refine Wp.bind (frob_wp hC (by norm_num) hf) fun C hC => ?_
  refine Wp.bind (add_wp (hC.mono (by norm_num)) (hB.mono (by norm_num))) fun C hC => ?_
  refine (add_wp (hC.mono (by norm_num)) (hA.mono (by norm_num))).mono fun r hr => ?_
  convert hr using 1
  have e1 : ((xAbs : Int) ^ 2 + xAbs - 1) • g = ((xAbs : Nat) : Int) • ((xAbs : Nat) : Int) • g - -(((xAbs : Nat) : Int) • g) - g := by
    module
  have e2 : (-(xAbs : Int) - 1) • g = -(((xAbs : Nat) : Int) • g) - g := by module
  rw [e1, e2, two_zsmul]
  abel

theorem mapit_wp {h : List UInt8} (hl : 48 ≤ h.length) :
    Wp (mapit h) fun P => ∃ g, MapsTo2 (-(xAbs : Int)) (beNat (h.take 48) : Fp) g ∧ Ok P 32 g ∧ (g ≠ 0 → P.z.toF = 1) := by
  classical
  unfold mapit
  have hp := p_pos
  have hN := beNat_lt48 (b := h.take 48) (by rw [List.length_take]; omega)
  refine Wp.bind (BIG.frombytes_wp hl) ?_
  rintro a ⟨na, va⟩
  refine Wp.bind (BIG.rmod_wp ((na.lim58 (by omega) (by omega)).mono (by norm_num)) (by omega) (by omega) modulus_nrm
    (by rw [modulus_val]; exact hp)) ?_
  rintro x ⟨nx, vx⟩
  rw [modulus_val, va] at vx
  have ex : (x.val : Fp) = (beNat (h.take 48) : Fp) := by
    rw [vx, ← Int.natCast_mod, Int.cast_natCast, ZMod.natCast_mod]
  have x0 : 0 ≤ x.val := by rw [vx]; exact Int.emod_nonneg _ hp.ne'
  have x1 : x.val < p := by rw [vx]; exact Int.emod_lt_of_pos _ hp
  obtain ⟨k, hk, hu⟩ := exists_usable2 (x.val : Fp)
  have hex : ∃ k : Nat, Usable ⟨1, (x.val : Fp) + k⟩ := ⟨k, hu⟩
  have hle := Nat.find_min' hex hu
  have hus := Nat.find_spec hex
  refine Wp.bind (mapitLoop_wp (Nat.find hex) x nx x0 (by omega) (fun j hj => Nat.find_min hex hj) hus) ?_
  rintro Q ⟨y, e, hy, hQ⟩
  refine Wp.bind pair.gamma_ok fun f hf => ?_
  refine Wp.bind (FP2.inverse_wp hf (by norm_num)) fun f hf => ?_
  refine Wp.bind (FP2.norm_ok hf (by norm_num)) fun f hf => ?_
  refine Wp.bind (clear_wp hQ hf) fun R hR => ?_
  refine (affine_wp hR (by norm_num)).mono ?_
  rintro S ⟨hS, -, hz, -⟩
  have hre : y.re ≠ 0 := by
    intro h0
    obtain ⟨z, hz, hz0⟩ := hus
    rcases sq_eq_sq_iff_eq_or_eq_neg.1 (hz.trans e.symm) with e' | e'
    · exact hz0 (by rw [e', h0])
    · exact hz0 (by rw [e', QuadraticAlgebra.re_neg, h0, neg_zero])
  refine ⟨_, ⟨Nat.find hex, y, by rw [← ex]; exact e, _, _, _, fun j hj => by rw [← ex]; exact Nat.find_min hex hj, hre, hy,
    twistFrob_psi _, twistFrob_psi _, twistFrob_psi _, ?_⟩, hS, hz⟩
  have em : ∀ h', (Pt.mk (⟨1, (beNat (h.take 48) : Fp) + (Nat.find hex : Nat)⟩ : Fp2) y h' : G2) = Pt.mk _ _ e := by
    intro _
    rw [Pt.mk_inj]
    exact ⟨congrArg (fun v : Fp => (⟨1, v + (Nat.find hex : Nat)⟩ : Fp2)) ex.symm, rfl⟩
  rw [em]
  congr 3

end ECP2

end Amcl
