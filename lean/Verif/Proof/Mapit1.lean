import Verif.Proof.EcpCodec
import Verif.Proof.Pairing
import Verif.Spec.MapToCurve1
/-!
# `mapit` and `pinmul` on the first curve
-/

set_option exponentiation.threshold 2000

namespace Amcl

open Spec

/-- An abscissa is usable with either ordinate or with none. -/
theorem usable1_iff {c : Nat} {x y : Fp} (h : y ^ 2 = x ^ 3 + b1) : Usable1 c x ↔ c • Pt.mk x y h ≠ 0 := by
  constructor
  · rintro ⟨z, h', hz⟩ e
    rcases sq_eq_sq_iff_eq_or_eq_neg.1 (h'.trans h.symm) with e' | e'
    · subst e'
      exact hz e
    · subst e'
      refine hz ?_
      rw [← Pt.neg_mk h, smul_neg, e, neg_zero]
  · exact fun hc => ⟨y, h, hc⟩

theorem MapsTo1.unique {c : Nat} {x : Fp} {g g' : G1} (h : MapsTo1 c x g) (h' : MapsTo1 c x g') : g = g' := by
  obtain ⟨k, y, e, hn, hp, rfl, h0⟩ := h
  obtain ⟨k', y', e', hn', hp', rfl, h0'⟩ := h'
  have hk : k = k' := by
    rcases lt_trichotomy k k' with hlt | he | hlt
    · exact absurd ⟨y, e, h0⟩ (hn' k hlt)
    · exact he
    · exact absurd ⟨y', e', h0'⟩ (hn k' hlt)
  subst hk
  have := root_unique (Pt.y_ne e) (e.trans e'.symm) (hp.trans hp'.symm)
  subst this
  rfl

theorem h1_gen1 : h1 • gen1 ≠ 0 := by
  intro h
  have h2 := Nat.dvd_gcd (addOrderOf_dvd_iff_nsmul_eq_zero.2 h) (addOrderOf_dvd_iff_nsmul_eq_zero.2 r_gen1)
  rw [coprime_h1, Nat.dvd_one, AddMonoid.addOrderOf_eq_one_iff] at h2
  exact Pt.mk_ne _ h2

/-- The search succeeds at the latest at the abscissa of the generator. -/
theorem exists_usable1 (x : Fp) : ∃ k : Nat, k < p ∧ Usable1 h1 (x + k) := by
  refine ⟨((g1x : Fp) - x).val, ZMod.val_lt _, ?_⟩
  have e : x + ((((g1x : Fp) - x).val : Nat) : Fp) = (g1x : Fp) := by
    rw [ZMod.natCast_zmod_val]
    ring
  rw [e]
  exact ⟨_, g1_on, h1_gen1⟩

namespace ECP

theorem cof_val : rom.CURVE_COF.val = (h1 : Nat) := by norm_num [rom.CURVE_COF, BIG.val, h1]

theorem cof_nrm : rom.CURVE_COF.Nrm := by constructor <;> norm_num [rom.CURVE_COF]

theorem cfp_wp {P : ECP} {g : G1} (hP : OkY P (2 ^ 10) g) : Wp (cfp P) fun r => Post r (h1 • g) := by
  unfold cfp
  refine (mul_wpY hP cof_nrm (by rw [cof_val]; positivity) (by rw [cof_val]; norm_num [h1])).mono fun r hr => ?_
  rwa [cof_val, natCast_zsmul] at hr

theorem isSquare_of_usable {x : Fp} (h : Usable1 h1 x) : IsSquare (x ^ 3 + b1) := by
  obtain ⟨y, e, -⟩ := h
  exact ⟨y, by rw [← e, pow_two]⟩

theorem mapitLoop_wp (k : Nat) : ∀ x : BIG, x.Nrm → 0 ≤ x.val → x.val + k ≤ 2 ^ 10 * p →
    (∀ j < k, ¬ Usable1 h1 ((x.val : Fp) + (j : Nat))) → Usable1 h1 ((x.val : Fp) + k) →
    Wp (mapitLoop x) fun P => ∃ (y : Fp) (h : y ^ 2 = ((x.val : Fp) + k) ^ 3 + b1), y.val % 2 = 0 ∧
      Post P (h1 • Pt.mk _ _ h) := by
  induction k with
  | zero =>
    intro x nx x0 x1 _ hu
    have hp := p_pos
    have hpl := p_lt
    rw [mapitLoop]
    have lx : x.Lim (2 ^ 61) := (nx.lim58 x0 (by omega)).mono (by norm_num)
    refine Wp.bind (new_bigint_wp lx x0 (by omega) (s := 0) (by norm_num)) ?_
    rintro P ⟨hP, -⟩
    simp only [Nat.cast_zero, add_zero] at hu ⊢
    obtain ⟨y, h, hy, hP, -⟩ := hP (isSquare_of_usable hu)
    refine Wp.bind (BIG.inc_lim (x := 1) nx x0 (by omega) ⟨by norm_num, by norm_num⟩) ?_
    rintro a ⟨va, la⟩
    refine Wp.bind (BIG.norm_wp la) ?_
    rintro t -
    refine Wp.bind (is_infinity_wpY hP (by norm_num)) fun b hb => ?_
    rw [if_neg (fun e => Pt.mk_ne h (hb.1 e))]
    refine Wp.bind (cfp_wp (hP.mono (by norm_num))) fun Q hQ => ?_
    refine Wp.bind (is_infinity_wp hQ.1 (by norm_num)) fun b hb => ?_
    rw [if_neg (fun e => (usable1_iff h).1 hu (hb.1 e))]
    exact Wp.ret ⟨y, h, hy, hQ⟩
  | succ k ih =>
    intro x nx x0 x1 hn hu
    have hp := p_pos
    have hpl := p_lt
    rw [mapitLoop]
    have lx : x.Lim (2 ^ 61) := (nx.lim58 x0 (by omega)).mono (by norm_num)
    refine Wp.bind (new_bigint_wp lx x0 (by omega) (s := 0) (by norm_num)) ?_
    rintro P ⟨hP, hP0⟩
    refine Wp.bind (BIG.inc_lim (x := 1) nx x0 (by omega) ⟨by norm_num, by norm_num⟩) ?_
    rintro a ⟨va, la⟩
    refine Wp.bind (BIG.norm_wp la) ?_
    rintro t ⟨nt, vt⟩
    have et : (t.val : Fp) = (x.val : Fp) + 1 := by rw [vt, va]; push_cast; rfl
    have next : Wp (mapitLoop t) fun P => ∃ (y : Fp) (h : y ^ 2 = ((x.val : Fp) + (k + 1 : Nat)) ^ 3 + b1),
        y.val % 2 = 0 ∧ Post P (h1 • Pt.mk _ _ h) := by
      have e : ∀ j : Nat, (t.val : Fp) + j = (x.val : Fp) + (j + 1 : Nat) := by
        intro j; rw [et]; push_cast; ring
      have := ih t nt (by omega) (by push_cast at x1; omega) (fun j hj => by
        rw [e]; exact hn (j + 1) (by omega)) (by rw [e]; exact hu)
      rwa [e] at this
    by_cases hsq : IsSquare ((x.val : Fp) ^ 3 + b1)
    · obtain ⟨y, h, hy, hP, -⟩ := hP hsq
      refine Wp.bind (is_infinity_wpY hP (by norm_num)) fun b hb => ?_
      rw [if_neg (fun e => Pt.mk_ne h (hb.1 e))]
      refine Wp.bind (cfp_wp (hP.mono (by norm_num))) fun Q hQ => ?_
      refine Wp.bind (is_infinity_wp hQ.1 (by norm_num)) fun b hb => ?_
      have h0 := hn 0 (by omega)
      rw [Nat.cast_zero, add_zero, usable1_iff h, not_not] at h0
      rw [if_pos (hb.2 h0)]
      exact next
    · refine Wp.bind (is_infinity_wpY (hP0 hsq) (by norm_num)) fun b hb => ?_
      rw [if_pos (hb.2 rfl)]
      exact next

theorem mapit_wp {h : List UInt8} (hl : 48 ≤ h.length) :
    Wp (mapit h) fun P => ∃ g, MapsTo1 h1 (beNat (h.take 48) : Fp) g ∧ Post P g := by
  classical
  unfold mapit
  have hp := p_pos
  have hN := beNat_lt48 (b := h.take 48) (by rw [List.length_take]; omega)
  refine Wp.bind (BIG.frombytes_wp hl) ?_
  rintro a ⟨na, va⟩
  refine Wp.bind (BIG.rmod_wp ((na.lim58 (by omega) (by omega)).mono (by norm_num)) (by omega) (by omega) modulus_nrm
    (by rw [modulus_val]; exact hp)) ?_
  rintro x ⟨nx, vx⟩
  rw [modulus_val, va] at vx
  have ex : (x.val : Fp) = (beNat (h.take 48) : Fp) := by
    rw [vx, ← Int.natCast_mod, Int.cast_natCast, ZMod.natCast_mod]
  have x0 : 0 ≤ x.val := by rw [vx]; exact Int.emod_nonneg _ hp.ne'
  have x1 : x.val < p := by rw [vx]; exact Int.emod_lt_of_pos _ hp
  obtain ⟨k, hk, hu⟩ := exists_usable1 (x.val : Fp)
  have hex : ∃ k : Nat, Usable1 h1 ((x.val : Fp) + k) := ⟨k, hu⟩
  have hle := Nat.find_min' hex hu
  refine (mapitLoop_wp (Nat.find hex) x nx x0 (by omega) (fun j hj => Nat.find_min hex hj) (Nat.find_spec hex)).mono ?_
  rintro P ⟨y, e, hy, hP⟩
  refine ⟨_, ⟨Nat.find hex, y, by rw [← ex]; exact e, fun j hj => by rw [← ex]; exact Nat.find_min hex hj, hy, ?_,
    (usable1_iff e).1 (Nat.find_spec hex)⟩, hP⟩
  congr 1
  rw [Pt.mk_inj]
  exact ⟨congrArg (· + _) ex, rfl⟩

/-! ### The ladder -/

theorem ladderStep_wp {R0 R1 : ECP} {g g' : G1} (h0 : OkY R0 (2 ^ 10) g) (h1 : OkY R1 (2 ^ 10) g') {b : Int}
    (hb : b = 0 ∨ b = 1) : Wp (ladderStep R0 R1 b) fun r => OkY r.1 (2 ^ 10) (if b = 0 then g + g else g' + g) ∧
      OkY r.2 (2 ^ 10) (if b = 0 then g' + g else g' + g') := by
  unfold ladderStep
  refine Wp.bind (add_wpY (h1.mono (by norm_num)) (h0.mono (by norm_num))) fun P hP => ?_
  rw [cswap_eqY h0 h1 (by norm_num) hb]
  rcases hb with rfl | rfl
  · rw [if_pos rfl]
    refine Wp.bind (dbl_wpY (h0.mono (by norm_num))) fun R hR => ?_
    rw [cswap_eqY hR.okY hP.okY (by norm_num) (Or.inl rfl)]
    exact Wp.ret ⟨(hR.mono (by norm_num)).okY, (hP.mono (by norm_num)).okY⟩
  · rw [if_neg one_ne_zero]
    refine Wp.bind (dbl_wpY (h1.mono (by norm_num))) fun R hR => ?_
    rw [cswap_eqY hR.okY hP.okY (by norm_num) (Or.inr rfl)]
    exact Wp.ret ⟨(hP.mono (by norm_num)).okY, (hR.mono (by norm_num)).okY⟩

theorem and32_one (x : Int) : and32 x 1 = x % 2 := by
  have e : (BitVec.ofInt 32 x &&& BitVec.ofInt 32 1).toNat = (x % 2).toNat := by
    rw [BitVec.toNat_and, show (BitVec.ofInt 32 1).toNat = 1 by decide, Nat.and_one_is_mod, BitVec.toNat_ofInt]
    omega
  rw [and32, BitVec.toInt_eq_toNat_of_lt (by rw [e]; omega), e]
  omega

theorem emod_pow_succ (e : Int) (n : Nat) : e % 2 ^ (n + 1) = e / 2 ^ n % 2 * 2 ^ n + e % 2 ^ n := by
  have h2 : (0 : Int) < 2 ^ n := by positivity
  have h3 := Int.emod_nonneg e h2.ne'
  have h4 := Int.emod_lt_of_pos e h2
  have h5 : e / 2 ^ n % 2 = 0 ∨ e / 2 ^ n % 2 = 1 := by omega
  have h6 := Int.emod_add_mul_ediv e (2 ^ n)
  have h7 := Int.emod_add_mul_ediv (e / 2 ^ n) 2
  have h8 : e = (e / 2 ^ n % 2 * 2 ^ n + e % 2 ^ n) + e / 2 ^ n / 2 * 2 ^ (n + 1) := by
    rw [pow_succ]
    linear_combination -h6 - 2 ^ n * h7
  conv_lhs => rw [h8]
  rw [Int.add_mul_emod_self_right, Int.emod_eq_of_lt]
  · rcases h5 with h | h <;> rw [h] <;> omega
  · rw [pow_succ]
    rcases h5 with h | h <;> rw [h] <;> omega

theorem ladder_wp (e : Int) {g : G1} (n : Nat) : ∀ (R0 R1 : ECP) (m : Int), n ≤ 32 → OkY R0 (2 ^ 10) (m • g) →
    OkY R1 (2 ^ 10) ((m + 1) • g) →
    Wp (ladder e n (R0, R1)) fun r => OkY r.1 (2 ^ 10) ((m * 2 ^ n + e % 2 ^ n) • g) := by
  induction n with
  | zero =>
    intro R0 R1 m _ h0 _
    refine Wp.ret ?_
    rwa [pow_zero, Int.emod_one, add_zero, mul_one]
  | succ n ih =>
    intro R0 R1 m hn h0 h1
    rw [ladder, if_neg (by omega)]
    have hb : e / 2 ^ n % 2 = 0 ∨ e / 2 ^ n % 2 = 1 := by omega
    rw [and32_one, sar]
    refine Wp.bind (ladderStep_wp h0 h1 hb) ?_
    rintro ⟨R0', R1'⟩ ⟨k0, k1⟩
    refine (ih R0' R1' (2 * m + e / 2 ^ n % 2) (by omega) ?_ ?_).mono fun r hr => ?_
    · rcases hb with hb | hb <;> rw [hb] at k0 ⊢
      · rw [if_pos rfl] at k0; convert k0 using 1; module
      · rw [if_neg one_ne_zero] at k0; convert k0 using 1; module
    · rcases hb with hb | hb <;> rw [hb] at k1 ⊢
      · rw [if_pos rfl] at k1; convert k1 using 1; module
      · rw [if_neg one_ne_zero] at k1; convert k1 using 1; module
    · rw [emod_pow_succ]
      convert hr using 2
      ring

theorem pinmul_wp {P : ECP} {g : G1} (hP : OkY P (2 ^ 10) g) (e : Int) {bts : Int} (h : bts ≤ 32) :
    Wp (pinmul P e bts) fun r => OkY r (2 ^ 10) ((e % 2 ^ bts.toNat) • g) ∧
      ((e % 2 ^ bts.toNat) • g ≠ 0 → FP.Can r.z 1) := by
  unfold pinmul
  refine Wp.bind new_wp fun R0 h0 => ?_
  refine Wp.bind (ladder_wp e (g := g) bts.toNat R0 P 0 (by omega) (by
    rw [zero_smul]; exact (h0.mono (by norm_num)).okY) (by simpa using hP)) ?_
  rintro ⟨R, _⟩ hR
  rw [zero_mul, zero_add] at hR
  exact (affine_wpY hR (by norm_num)).mono fun r hr => ⟨hr.1, hr.2.2.1⟩

end ECP

end Amcl
