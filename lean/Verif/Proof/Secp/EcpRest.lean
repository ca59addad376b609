import Verif.Proof.Secp.EcpCodec
import Verif.Proof.Secp.Orders
import Verif.Proof.Secp.Window
import Verif.Model.Secp.EcpRest
import Verif.Spec.Secp.MapToCurve
/-!
# `mapit` and `pinmul` on the curve of secp256k1
-/

set_option exponentiation.threshold 2000

namespace Amcl.Secp

open Spec.Secp
open Spec (Pt beNat)

namespace BIG

theorem cswapW_eq {x y d : Int} (hx : -2 ^ 63 ≤ x ∧ x < 2 ^ 63) (hy : -2 ^ 63 ≤ y ∧ y < 2 ^ 63)
    (hd : d = 0 ∨ d = 1) : cswapW x y d = if d = 0 then (x, y) else (y, x) := by
  have ofTo : ∀ v : BitVec 64, BitVec.ofInt 64 v.toInt = v := fun v => BitVec.ofInt_toInt
  have tw : ∀ z : Int, -2 ^ 63 ≤ z → z < 2 ^ 63 → (BitVec.ofInt 64 z).toInt = z := by
    intro z h1 h2
    rw [BitVec.toInt_ofInt]; exact Int.bmod_eq_of_le (by omega) (by omega)
  unfold cswapW and64 xor64
  simp only [ofTo]
  rcases hd with rfl | rfl
  · simp only [neg_zero, if_true]
    rw [show BitVec.ofInt 64 0 = 0#64 from rfl, BitVec.zero_and, BitVec.xor_zero, BitVec.xor_zero,
      tw x hx.1 hx.2, tw y hy.1 hy.2]
  · rw [if_neg (by norm_num), show BitVec.ofInt 64 (-1) = BitVec.allOnes 64 from by decide,
      BitVec.allOnes_and]
    have e1 : ∀ u v : BitVec 64, u ^^^ (u ^^^ v) = v := fun u v => by
      rw [← BitVec.xor_assoc, BitVec.xor_self, BitVec.zero_xor]
    have e2 : ∀ u v : BitVec 64, v ^^^ (u ^^^ v) = u := fun u v => by
      rw [BitVec.xor_comm u, e1]
    rw [e1, e2, tw x hx.1 hx.2, tw y hy.1 hy.2]

theorem cswap_eq {a b : BIG} (ha : Lim a (2 ^ 62)) (hb : Lim b (2 ^ 62)) {d : Int}
    (hd : d = 0 ∨ d = 1) : cswap a b d = if d = 0 then (a, b) else (b, a) := by
  obtain ⟨a0, a1, a2, a3, a4⟩ := ha
  obtain ⟨b0, b1, b2, b3, b4⟩ := hb
  unfold cswap
  rw [cswapW_eq (x := a.w0) (by omega) (by omega) hd, cswapW_eq (x := a.w1) (by omega) (by omega) hd,
    cswapW_eq (x := a.w2) (by omega) (by omega) hd, cswapW_eq (x := a.w3) (by omega) (by omega) hd,
    cswapW_eq (x := a.w4) (by omega) (by omega) hd]
  rcases hd with rfl | rfl <;> simp

end BIG

namespace FP

theorem cswap_eq {f g : FP} {L E L' E' : Int} {v w : Fp} (hf : Ok f L E v) (hg : Ok g L' E' w)
    (h : L ≤ 16 ∧ L' ≤ 16 ∧ E ≤ 2 ^ 26 ∧ E' ≤ 2 ^ 26) {d : Int} (hd : d = 0 ∨ d = 1) :
    cswap f g d = if d = 0 then (f, g) else (g, f) := by
  have h1 := hf.x1
  have h2 := hf.xE
  have h3 := hg.x1
  have h4 := hg.xE
  have ofTo : ∀ v : BitVec 32, BitVec.ofInt 32 v.toInt = v := fun v => BitVec.ofInt_toInt
  have tw : ∀ z : Int, -2 ^ 31 ≤ z → z < 2 ^ 31 → (BitVec.ofInt 32 z).toInt = z := by
    intro z h1 h2
    rw [BitVec.toInt_ofInt]; exact Int.bmod_eq_of_le (by omega) (by omega)
  unfold cswap and32 xor32
  rw [BIG.cswap_eq (hf.lim.mono (by omega)) (hg.lim.mono (by omega)) hd]
  simp only [ofTo]
  rcases hd with rfl | rfl
  · simp only [neg_zero, if_true]
    rw [show BitVec.ofInt 32 0 = 0#32 from rfl, BitVec.zero_and, BitVec.xor_zero, BitVec.xor_zero,
      tw _ (by omega) (by omega), tw _ (by omega) (by omega)]
  · simp only [if_neg (show ¬ (1 : Int) = 0 by norm_num)]
    rw [show BitVec.ofInt 32 (-1) = BitVec.allOnes 32 from by decide, BitVec.allOnes_and]
    have e1 : ∀ u v : BitVec 32, u ^^^ (u ^^^ v) = v := fun u v => by
      rw [← BitVec.xor_assoc, BitVec.xor_self, BitVec.zero_xor]
    have e2 : ∀ u v : BitVec 32, v ^^^ (u ^^^ v) = u := fun u v => by
      rw [BitVec.xor_comm u, e1]
    rw [e1, e2, tw _ (by omega) (by omega), tw _ (by omega) (by omega)]

end FP

seal FP.mul FP.sqr FP.norm FP.add FP.sub FP.rsub FP.dbl FP.neg FP.imul

theorem MapsTo.unique {x : Fp} {g g' : G1} (h : MapsTo x g) (h' : MapsTo x g') : g = g' := by
  obtain ⟨k, y, e, hn, hp, rfl⟩ := h
  obtain ⟨k', y', e', hn', hp', rfl⟩ := h'
  have hk : k = k' := by
    rcases lt_trichotomy k k' with hlt | he | hlt
    · exact absurd ⟨y, by rw [← e, pow_two]⟩ (hn' k hlt)
    · exact he
    · exact absurd ⟨y', by rw [← e', pow_two]⟩ (hn k' hlt)
  subst hk
  have := root_unique (Pt.y_ne e) (e.trans e'.symm) (hp.trans hp'.symm)
  subst this
  rfl

/-- The search succeeds at the latest at the abscissa of the generator. -/
theorem exists_square (x : Fp) : ∃ k : Nat, k < p ∧ IsSquare ((x + k) ^ 3 + b1) := by
  refine ⟨((gx : Fp) - x).val, ZMod.val_lt _, ?_⟩
  have e : x + ((((gx : Fp) - x).val : Nat) : Fp) = (gx : Fp) := by
    rw [ZMod.natCast_zmod_val]
    ring
  rw [e]
  exact ⟨gy, by rw [← g_on, pow_two]⟩

namespace ECP

theorem cswap_eqY {P Q : ECP} {E E' : Int} {g h : G1} (hP : OkY P E g) (hQ : OkY Q E' h)
    (hE : E ≤ 2 ^ 26 ∧ E' ≤ 2 ^ 26) {d : Int} (hd : d = 0 ∨ d = 1) :
    cswap P Q d = if d = 0 then (P, Q) else (Q, P) := by
  rw [cswap, FP.cswap_eq hP.x hQ.x (by omega) hd, FP.cswap_eq hP.y hQ.y (by omega) hd,
    FP.cswap_eq hP.z hQ.z (by omega) hd]
  split <;> rfl


theorem mapitLoop_wp (k : Nat) : ∀ x : BIG, x.Nrm → 0 ≤ x.val → x.val + k ≤ 2 ^ 10 * p →
    (∀ j < k, ¬ IsSquare (((x.val : Fp) + (j : Nat)) ^ 3 + b1)) → IsSquare (((x.val : Fp) + k) ^ 3 + b1) →
    Wp (mapitLoop x) fun P => ∃ (y : Fp) (h : y ^ 2 = ((x.val : Fp) + k) ^ 3 + b1), y.val % 2 = 0 ∧
      OkY P 2 (Pt.mk _ _ h) ∧ P.z.toF = 1 := by
  induction k with
  | zero =>
    intro x nx x0 x1 _ hu
    have hp := p_pos
    have hpl := p_lt
    rw [mapitLoop]
    have lx : x.Lim (2 ^ 61) := (nx.lim56 x0 (by omega)).mono (by norm_num)
    refine Wp.bind (new_bigint_wp lx x0 (by omega) (s := 0) (by norm_num)) ?_
    rintro P ⟨hP, -⟩
    simp only [Nat.cast_zero, add_zero] at hu ⊢
    obtain ⟨y, h, hy, hP, hz, -⟩ := hP hu
    refine Wp.bind (BIG.inc_lim (x := 1) nx x0 (by omega) ⟨by norm_num, by norm_num⟩) ?_
    rintro a ⟨va, la⟩
    refine Wp.bind (BIG.norm_wp la) ?_
    rintro t -
    refine Wp.bind (is_infinity_wpY hP (by norm_num)) fun b hb => ?_
    rw [if_neg (fun e => Pt.mk_ne h (hb.1 e))]
    show Wp ((some P).bind _) _
    rw [Option.bind_some]
    refine Wp.bind (is_infinity_wpY hP (by norm_num)) fun b hb => ?_
    rw [if_neg (fun e => Pt.mk_ne h (hb.1 e))]
    exact Wp.ret ⟨y, h, hy, hP, hz⟩
  | succ k ih =>
    intro x nx x0 x1 hn hu
    have hp := p_pos
    have hpl := p_lt
    rw [mapitLoop]
    have lx : x.Lim (2 ^ 61) := (nx.lim56 x0 (by omega)).mono (by norm_num)
    refine Wp.bind (new_bigint_wp lx x0 (by omega) (s := 0) (by norm_num)) ?_
    rintro P ⟨-, hP0⟩
    refine Wp.bind (BIG.inc_lim (x := 1) nx x0 (by omega) ⟨by norm_num, by norm_num⟩) ?_
    rintro a ⟨va, la⟩
    refine Wp.bind (BIG.norm_wp la) ?_
    rintro t ⟨nt, vt⟩
    have et : (t.val : Fp) = (x.val : Fp) + 1 := by rw [vt, va]; push_cast; rfl
    have e : ∀ j : Nat, (t.val : Fp) + j = (x.val : Fp) + (j + 1 : Nat) := by
      intro j; rw [et]; push_cast; ring
    have hsq := hn 0 (by omega)
    rw [Nat.cast_zero, add_zero] at hsq
    refine Wp.bind (is_infinity_wpY (hP0 hsq) (by norm_num)) fun b hb => ?_
    rw [if_pos (hb.2 rfl)]
    have := ih t nt (by omega) (by push_cast at x1; omega) (fun j hj => by
      rw [e]; exact hn (j + 1) (by omega)) (by rw [e]; exact hu)
    rwa [e] at this

theorem mapit_wp {h : List UInt8} (hl : 32 ≤ h.length) :
    Wp (mapit h) fun P => ∃ g, MapsTo (beNat (h.take 32) : Fp) g ∧ OkY P 2 g ∧ P.z.toF = 1 := by
  classical
  unfold mapit
  have hp := p_pos
  have hN : beNat (h.take 32) < 2 ^ 256 := by
    have := Spec.beNat_lt (h.take 32)
    rw [List.length_take, min_eq_left hl] at this
    omega
  refine Wp.bind (BIG.frombytes_wp hl) ?_
  rintro a ⟨na, va⟩
  refine Wp.bind (BIG.rmod_wp ((na.lim56 (by omega) (by omega)).mono (by norm_num)) (by omega) (by omega) modulus_nrm
    (by rw [modulus_val]; exact hp)) ?_
  rintro x ⟨nx, vx⟩
  rw [modulus_val, va] at vx
  have ex : (x.val : Fp) = (beNat (h.take 32) : Fp) := by
    rw [vx, ← Int.natCast_mod, Int.cast_natCast, ZMod.natCast_mod]
  have x0 : 0 ≤ x.val := by rw [vx]; exact Int.emod_nonneg _ hp.ne'
  have x1 : x.val < p := by rw [vx]; exact Int.emod_lt_of_pos _ hp
  obtain ⟨k, hk, hu⟩ := exists_square (x.val : Fp)
  have hex : ∃ k : Nat, IsSquare (((x.val : Fp) + k) ^ 3 + b1) := ⟨k, hu⟩
  have hle := Nat.find_min' hex hu
  refine (mapitLoop_wp (Nat.find hex) x nx x0 (by omega) (fun j hj => Nat.find_min hex hj) (Nat.find_spec hex)).mono ?_
  rintro P ⟨y, e, hy, hP, hz⟩
  refine ⟨_, ⟨Nat.find hex, y, by rw [← ex]; exact e, fun j hj => by rw [← ex]; exact Nat.find_min hex hj, hy, rfl⟩, ?_, hz⟩
  convert hP using 1
  rw [Pt.mk_inj]
  exact ⟨congrArg (· + _) ex.symm, rfl⟩

/-! ### The ladder -/

theorem ladderStep_wp {R0 R1 : ECP} {g g' : G1} (h0 : OkY R0 (2 ^ 10) g) (h1 : OkY R1 (2 ^ 10) g') {b : Int}
    (hb : b = 0 ∨ b = 1) : Wp (ladderStep R0 R1 b) fun r => OkY r.1 (2 ^ 10) (if b = 0 then g + g else g' + g) ∧
      OkY r.2 (2 ^ 10) (if b = 0 then g' + g else g' + g') := by
  unfold ladderStep
  refine Wp.bind (add_wpY (h1.mono (by norm_num)) (h0.mono (by norm_num))) fun P hP => ?_
  rw [cswap_eqY h0 h1 (by norm_num) hb]
  rcases hb with rfl | rfl
  · rw [if_pos rfl]
    refine Wp.bind (dbl_wpY (h0.mono (by norm_num))) fun R hR => ?_
    rw [cswap_eqY hR.okY hP.okY (by norm_num) (Or.inl rfl)]
    exact Wp.ret ⟨(hR.mono (by norm_num)).okY, (hP.mono (by norm_num)).okY⟩
  · rw [if_neg one_ne_zero]
    refine Wp.bind (dbl_wpY (h1.mono (by norm_num))) fun R hR => ?_
    rw [cswap_eqY hR.okY hP.okY (by norm_num) (Or.inr rfl)]
    exact Wp.ret ⟨(hP.mono (by norm_num)).okY, (hR.mono (by norm_num)).okY⟩

theorem and32_one (x : Int) : and32 x 1 = x % 2 := by
  have e : (BitVec.ofInt 32 x &&& BitVec.ofInt 32 1).toNat = (x % 2).toNat := by
    rw [BitVec.toNat_and, show (BitVec.ofInt 32 1).toNat = 1 by decide, Nat.and_one_is_mod, BitVec.toNat_ofInt]
    omega
  rw [and32, BitVec.toInt_eq_toNat_of_lt (by rw [e]; omega), e]
  omega

theorem emod_pow_succ (e : Int) (n : Nat) : e % 2 ^ (n + 1) = e / 2 ^ n % 2 * 2 ^ n + e % 2 ^ n := by
  have h2 : (0 : Int) < 2 ^ n := by positivity
  have h3 := Int.emod_nonneg e h2.ne'
  have h4 := Int.emod_lt_of_pos e h2
  have h5 : e / 2 ^ n % 2 = 0 ∨ e / 2 ^ n % 2 = 1 := by omega
  have h6 := Int.emod_add_mul_ediv e (2 ^ n)
  have h7 := Int.emod_add_mul_ediv (e / 2 ^ n) 2
  have h8 : e = (e / 2 ^ n % 2 * 2 ^ n + e % 2 ^ n) + e / 2 ^ n / 2 * 2 ^ (n + 1) := by
    rw [pow_succ]
    linear_combination -h6 - 2 ^ n * h7
  conv_lhs => rw [h8]
  rw [Int.add_mul_emod_self_right, Int.emod_eq_of_lt]
  · rcases h5 with h | h <;> rw [h] <;> omega
  · rw [pow_succ]
    rcases h5 with h | h <;> rw [h] <;> omega

theorem ladder_wp (e : Int) {g : G1} (n : Nat) : ∀ (R0 R1 : ECP) (m : Int), n ≤ 32 → OkY R0 (2 ^ 10) (m • g) →
    OkY R1 (2 ^ 10) ((m + 1) • g) →
    Wp (ladder e n (R0, R1)) fun r => OkY r.1 (2 ^ 10) ((m * 2 ^ n + e % 2 ^ n) • g) := by
  induction n with
  | zero =>
    intro R0 R1 m _ h0 _
    refine Wp.ret ?_
    rwa [pow_zero, Int.emod_one, add_zero, mul_one]
  | succ n ih =>
    intro R0 R1 m hn h0 h1
    rw [ladder, if_neg (by omega)]
    have hb : e / 2 ^ n % 2 = 0 ∨ e / 2 ^ n % 2 = 1 := by omega
    rw [and32_one, sar]
    refine Wp.bind (ladderStep_wp h0 h1 hb) ?_
    rintro ⟨R0', R1'⟩ ⟨k0, k1⟩
    refine (ih R0' R1' (2 * m + e / 2 ^ n % 2) (by omega) ?_ ?_).mono fun r hr => ?_
    · rcases hb with hb | hb <;> rw [hb] at k0 ⊢
      · rw [if_pos rfl] at k0; convert k0 using 1; module
      · rw [if_neg one_ne_zero] at k0; convert k0 using 1; module
    · rcases hb with hb | hb <;> rw [hb] at k1 ⊢
      · rw [if_pos rfl] at k1; convert k1 using 1; module
      · rw [if_neg one_ne_zero] at k1; convert k1 using 1; module
    · rw [emod_pow_succ]
      convert hr using 2
      ring

theorem pinmul_wp {P : ECP} {g : G1} (hP : OkY P (2 ^ 10) g) (e : Int) {bts : Int} (h : bts ≤ 32) :
    Wp (pinmul P e bts) fun r => OkY r (2 ^ 10) ((e % 2 ^ bts.toNat) • g) ∧
      ((e % 2 ^ bts.toNat) • g ≠ 0 → FP.Can r.z 1) := by
  unfold pinmul
  refine Wp.bind new_wp fun R0 h0 => ?_
  refine Wp.bind (ladder_wp e (g := g) bts.toNat R0 P 0 (by omega) (by
    rw [zero_smul]; exact (h0.mono (by norm_num)).okY) (by simpa using hP)) ?_
  rintro ⟨R, _⟩ hR
  rw [zero_mul, zero_add] at hR
  exact (affine_wpY hR (by norm_num)).mono fun r hr => ⟨hr.1, hr.2.2.1⟩

end ECP

end Amcl.Secp
