import Verif.Proof.Secp.BigArith
import Verif.Proof.BigArith
import Verif.Model.Secp.BigRest
/-!
# Proofs about the other functions of `secp256k1/big.rs` and `dbig.rs`
-/

set_option exponentiation.threshold 2000

namespace Amcl.Secp
namespace BIG

theorem modsqr_wp {a m : BIG} (ha : Lim a (2 ^ 62)) (a0 : 0 ≤ a.val) (a1 : a.val < 2 ^ 282)
    (hm : Nrm m) (m0 : 0 < m.val) (m1 : m.val < 2 ^ 280) :
    Wp (modsqr a m) fun r => Nrm r ∧ r.val = a.val ^ 2 % m.val := by
  unfold modsqr
  refine Wp.bind (rmod_wp ha a0 a1 hm m0) ?_
  rintro a' ⟨na, va⟩
  have p1 : 0 ≤ a'.val := by rw [va]; exact Int.emod_nonneg _ m0.ne'
  have p2 : a'.val < m.val := by rw [va]; exact Int.emod_lt_of_pos _ m0
  have hp : 0 ≤ a'.val * a'.val := mul_nonneg p1 p1
  have hq : a'.val * a'.val < 2 ^ 560 := by
    calc a'.val * a'.val ≤ a'.val * 2 ^ 280 := by nlinarith
      _ < 2 ^ 280 * 2 ^ 280 := by nlinarith
      _ = _ := by norm_num
  refine Wp.bind (sqr_wp ((na.lim56 p1 (by omega)).mono (by norm_num)) (by omega)) ?_
  rintro d ⟨nd, vd⟩
  have vd' : d.val = a'.val * a'.val := by rw [vd]
  refine (DBIG.dmod_wp (nd.lim (B := 2 ^ 60) (by omega) (by omega) (by norm_num) |>.mono (by norm_num))
    (by omega) (by omega) hm m0 m1).mono ?_
  rintro r ⟨nr, vr⟩
  exact ⟨nr, by rw [vr, vd', va, ← Int.mul_emod, sq]⟩

/-- `modneg` gives `m - (a mod m)`, which is `m` and not 0 for multiples of `m`. -/
theorem modneg_wp {a m : BIG} (ha : Lim a (2 ^ 62)) (a0 : 0 ≤ a.val) (a1 : a.val < 2 ^ 282)
    (hm : Nrm m) (m0 : 0 < m.val) (m1 : m.val < 2 ^ 280) :
    Wp (modneg a m) fun r => Lim r.1 (2 ^ 59) ∧ r.1.val = m.val - a.val % m.val ∧ Nrm r.2 ∧
      r.2.val = a.val % m.val := by
  unfold modneg
  refine Wp.bind (rmod_wp ha a0 a1 hm m0) ?_
  rintro a' ⟨na, va⟩
  have p1 : 0 ≤ a'.val := by rw [va]; exact Int.emod_nonneg _ m0.ne'
  have p2 : a'.val < m.val := by rw [va]; exact Int.emod_lt_of_pos _ m0
  refine Wp.bind (sub_wp (hm.lim56 m0.le m1) (na.lim56 p1 (by omega)) (by norm_num)) ?_
  rintro r ⟨lr, vr⟩
  exact Wp.ret ⟨lr.mono (by norm_num), by rw [vr, va], na, va⟩

theorem powMul_wp {a s m : BIG} {z : Int} (ha : Nrm a) (a0 : 0 ≤ a.val) (a1 : a.val < m.val)
    (hs : Nrm s) (s0 : 0 ≤ s.val) (s1 : s.val < 2 ^ 280) (hm : Nrm m) (m1 : m.val < 2 ^ 280) :
    Wp (powMul (z % 2) a s m) fun r => Nrm r ∧ r.val = a.val * s.val ^ (z % 2).toNat % m.val := by
  have la := (ha.lim56 a0 (by omega)).mono (show (2:Int) ^ 56 ≤ 2 ^ 62 by norm_num)
  have ls := (hs.lim56 s0 s1).mono (show (2:Int) ^ 56 ≤ 2 ^ 62 by norm_num)
  unfold powMul
  by_cases h : z % 2 = 1
  · rw [if_pos h]
    refine Wp.bind (modmul_wp la a0 (by omega) ls s0 (by omega) hm (by omega) m1) ?_
    rintro r ⟨⟨nr, vr⟩, -⟩
    exact Wp.ret ⟨nr, by rw [vr, h]; simp⟩
  · rw [if_neg h]
    refine Wp.ret ⟨ha, ?_⟩
    rw [show z % 2 = 0 by omega]
    simp [Int.emod_eq_of_lt a0 a1]

theorem powLoop_wp {m : BIG} (hm : Nrm m) (m0 : 1 < m.val) (m1 : m.val < 2 ^ 280) (j : Nat) :
    ∀ a z s : BIG, Nrm a → 0 ≤ a.val → a.val < m.val → Nrm z → 0 ≤ z.val → z.val < 2 ^ (j + 1) →
      Nrm s → 0 ≤ s.val → s.val < 2 ^ 280 →
      Wp (powLoop m a z s) fun r => Nrm r ∧ r.val = a.val * s.val ^ z.val.toNat % m.val := by
  induction j with
  | zero =>
    intro a z s ha a0 a1 hz z0 z1 hs s0 s1
    rw [powLoop]
    rw [parity_spec hz]
    refine Wp.bind (fshr_wp hz (by norm_num)) ?_
    rintro z' ⟨nz, vz⟩
    refine Wp.bind (powMul_wp ha a0 a1 hs s0 s1 hm m1) ?_
    rintro r ⟨nr, vr⟩
    rw [if_pos (by rw [iszilch_spec nz]; omega)]
    exact Wp.ret ⟨nr, by rw [vr, show z.val % 2 = z.val by omega]⟩
  | succ j ih =>
    intro a z s ha a0 a1 hz z0 z1 hs s0 s1
    rw [powLoop]
    rw [parity_spec hz]
    refine Wp.bind (fshr_wp hz (by norm_num)) ?_
    rintro z' ⟨nz, vz⟩
    refine Wp.bind (powMul_wp ha a0 a1 hs s0 s1 hm m1) ?_
    rintro a' ⟨na, va⟩
    have p1 : 0 ≤ a'.val := by rw [va]; exact Int.emod_nonneg _ (by omega)
    have p2 : a'.val < m.val := by rw [va]; exact Int.emod_lt_of_pos _ (by omega)
    split
    · next h =>
      rw [iszilch_spec nz] at h
      refine Wp.ret ⟨na, ?_⟩
      rw [va, show z.val % 2 = z.val by omega]
    · have ls := (hs.lim56 s0 s1).mono (show (2:Int) ^ 56 ≤ 2 ^ 62 by norm_num)
      refine Wp.bind (modsqr_wp ls s0 (by omega) hm (by omega) m1) ?_
      rintro s' ⟨ns, vs⟩
      have q1 : 0 ≤ s'.val := by rw [vs]; exact Int.emod_nonneg _ (by omega)
      have q2 : s'.val < m.val := by rw [vs]; exact Int.emod_lt_of_pos _ (by omega)
      refine (ih a' z' s' na p1 p2 nz (by omega) (by rw [pow_succ] at z1; omega) ns q1
        (by omega)).mono ?_
      rintro r ⟨nr, vr⟩
      refine ⟨nr, ?_⟩
      rw [vr, va, vs]
      have e : z.val.toNat = (z.val % 2).toNat + 2 * z'.val.toNat := by omega
      rw [e, pow_add, pow_mul, ← mul_assoc]
      exact Int.ModEq.mul (Int.mod_modEq _ _) ((Int.mod_modEq _ _).pow _)

/-- `powmod` is modular exponentiation. -/
theorem powmod_wp {s e m : BIG} (hs : Lim s (2 ^ 62)) (s0 : 0 ≤ s.val) (s1 : s.val < 2 ^ 280)
    (he : Lim e (2 ^ 62)) (e0 : 0 ≤ e.val) (hm : Nrm m) (m0 : 1 < m.val) (m1 : m.val < 2 ^ 280) :
    Wp (powmod s e m) fun r => Nrm r ∧ r.val = s.val ^ e.val.toNat % m.val := by
  unfold powmod
  refine Wp.bind (norm_wp hs) ?_
  rintro s' ⟨ns, vs⟩
  refine Wp.bind (norm_wp he) ?_
  rintro e' ⟨ne, ve⟩
  have hb : e.val < 2 ^ (411 + 1) := by
    obtain ⟨l0, l1, l2, l3, l4⟩ := he
    simp only [val]; omega
  refine (powLoop_wp hm m0 m1 411 (new_int 1) e' s' (new_int_nrm (by norm_num) (by norm_num))
    (by rw [new_int_val]; norm_num) (by rw [new_int_val]; omega) ne (by omega) (by omega) ns (by omega)
    (by omega)).mono ?_
  rintro r ⟨nr, vr⟩
  exact ⟨nr, by rw [vr, new_int_val, one_mul, vs, ve]⟩

theorem muladd_nn {a b c r : Int} (ha : 0 ≤ a ∧ a < 2 ^ 56) (hb : 0 ≤ b ∧ b < 2 ^ 56)
    (hc : 0 ≤ c ∧ c < 2 ^ 56) (hr : 0 ≤ r ∧ r < 2 ^ 56) :
    Wp (muladd a b c r) fun x => (0 ≤ x.1 ∧ x.1 < 2 ^ 56) ∧ (0 ≤ x.2 ∧ x.2 < 2 ^ 56) ∧
      x.1 * 2 ^ 56 + x.2 = a * b + c + r := by
  have h0 : 0 ≤ a * b := mul_nonneg ha.1 hb.1
  have h1 : a * b ≤ (2 ^ 56 - 1) * (2 ^ 56 - 1) :=
    mul_le_mul (by omega) (by omega) hb.1 (by norm_num)
  unfold muladd
  rw [i128_eq (by omega) (by omega), Option.bind_eq_bind, Option.bind_some,
    i128_eq (by omega) (by omega), Option.bind_some, i128_eq (by omega) (by omega), Option.bind_some,
    BMASK_eq, and128_mask (by norm_num), sar_eq, as64_eq (by omega) (by omega),
    as64_eq (by omega) (by omega)]
  exact Wp.ret ⟨by dsimp only; omega, by dsimp only; omega, by dsimp only; omega⟩

/-- `smul` is multiplication modulo `2^280`. -/
theorem smul_wp {a b : BIG} (ha : Nrm a) (ha0 : 0 ≤ a.val) (ha1 : a.val < 2 ^ 280) (hb : Nrm b)
    (hb0 : 0 ≤ b.val) (hb1 : b.val < 2 ^ 280) :
    Wp (smul a b) fun r => Nrm r ∧ r.val = a.val * b.val % 2 ^ 280 := by
  have ta := ha.top (B := 2 ^ 56) ha0 (by omega)
  have tb := hb.top (B := 2 ^ 56) hb0 (by omega)
  obtain ⟨a0, a1, a2, a3⟩ := ha
  obtain ⟨b0, b1, b2, b3⟩ := hb
  have a4 : 0 ≤ a.w4 ∧ a.w4 < 2 ^ 56 := by omega
  have b4 : 0 ≤ b.w4 ∧ b.w4 < 2 ^ 56 := by omega
  unfold smul
  refine Wp.bind (muladd_nn a0 b0 ⟨(by norm_num), (by norm_num)⟩ ⟨(by norm_num), (by norm_num)⟩) ?_
  rintro ⟨k00, c00⟩ ⟨zk00, zc00, e00⟩
  dsimp only at zk00 zc00 e00 ⊢
  refine Wp.bind (muladd_nn a0 b1 ⟨zk00.1, zk00.2⟩ ⟨(by norm_num), (by norm_num)⟩) ?_
  rintro ⟨k01, c01⟩ ⟨zk01, zc01, e01⟩
  dsimp only at zk01 zc01 e01 ⊢
  refine Wp.bind (muladd_nn a0 b2 ⟨zk01.1, zk01.2⟩ ⟨(by norm_num), (by norm_num)⟩) ?_
  rintro ⟨k02, c02⟩ ⟨zk02, zc02, e02⟩
  dsimp only at zk02 zc02 e02 ⊢
  refine Wp.bind (muladd_nn a0 b3 ⟨zk02.1, zk02.2⟩ ⟨(by norm_num), (by norm_num)⟩) ?_
  rintro ⟨k03, c03⟩ ⟨zk03, zc03, e03⟩
  dsimp only at zk03 zc03 e03 ⊢
  refine Wp.bind (muladd_nn a0 b4 ⟨zk03.1, zk03.2⟩ ⟨(by norm_num), (by norm_num)⟩) ?_
  rintro ⟨k04, c04⟩ ⟨zk04, zc04, e04⟩
  dsimp only at zk04 zc04 e04 ⊢
  refine Wp.bind (muladd_nn a1 b0 ⟨(by norm_num), (by norm_num)⟩ ⟨zc01.1, zc01.2⟩) ?_
  rintro ⟨k10, c10⟩ ⟨zk10, zc10, e10⟩
  dsimp only at zk10 zc10 e10 ⊢
  refine Wp.bind (muladd_nn a1 b1 ⟨zk10.1, zk10.2⟩ ⟨zc02.1, zc02.2⟩) ?_
  rintro ⟨k11, c11⟩ ⟨zk11, zc11, e11⟩
  dsimp only at zk11 zc11 e11 ⊢
  refine Wp.bind (muladd_nn a1 b2 ⟨zk11.1, zk11.2⟩ ⟨zc03.1, zc03.2⟩) ?_
  rintro ⟨k12, c12⟩ ⟨zk12, zc12, e12⟩
  dsimp only at zk12 zc12 e12 ⊢
  refine Wp.bind (muladd_nn a1 b3 ⟨zk12.1, zk12.2⟩ ⟨zc04.1, zc04.2⟩) ?_
  rintro ⟨k13, c13⟩ ⟨zk13, zc13, e13⟩
  dsimp only at zk13 zc13 e13 ⊢
  refine Wp.bind (muladd_nn a2 b0 ⟨(by norm_num), (by norm_num)⟩ ⟨zc11.1, zc11.2⟩) ?_
  rintro ⟨k20, c20⟩ ⟨zk20, zc20, e20⟩
  dsimp only at zk20 zc20 e20 ⊢
  refine Wp.bind (muladd_nn a2 b1 ⟨zk20.1, zk20.2⟩ ⟨zc12.1, zc12.2⟩) ?_
  rintro ⟨k21, c21⟩ ⟨zk21, zc21, e21⟩
  dsimp only at zk21 zc21 e21 ⊢
  refine Wp.bind (muladd_nn a2 b2 ⟨zk21.1, zk21.2⟩ ⟨zc13.1, zc13.2⟩) ?_
  rintro ⟨k22, c22⟩ ⟨zk22, zc22, e22⟩
  dsimp only at zk22 zc22 e22 ⊢
  refine Wp.bind (muladd_nn a3 b0 ⟨(by norm_num), (by norm_num)⟩ ⟨zc21.1, zc21.2⟩) ?_
  rintro ⟨k30, c30⟩ ⟨zk30, zc30, e30⟩
  dsimp only at zk30 zc30 e30 ⊢
  refine Wp.bind (muladd_nn a3 b1 ⟨zk30.1, zk30.2⟩ ⟨zc22.1, zc22.2⟩) ?_
  rintro ⟨k31, c31⟩ ⟨zk31, zc31, e31⟩
  dsimp only at zk31 zc31 e31 ⊢
  refine Wp.bind (muladd_nn a4 b0 ⟨(by norm_num), (by norm_num)⟩ ⟨zc31.1, zc31.2⟩) ?_
  rintro ⟨k40, c40⟩ ⟨zk40, zc40, e40⟩
  dsimp only at zk40 zc40 e40 ⊢
  have key : a.val * b.val = (⟨c00, c10, c20, c30, c40⟩ : BIG).val + (k04 + k13 + k22 + k31 + k40 + a.w1 * b.w4 * 2 ^ 0 + a.w2 * b.w3 * 2 ^ 0 + a.w2 * b.w4 * 2 ^ 56 + a.w3 * b.w2 * 2 ^ 0 + a.w3 * b.w3 * 2 ^ 56 + a.w3 * b.w4 * 2 ^ 112 + a.w4 * b.w1 * 2 ^ 0 + a.w4 * b.w2 * 2 ^ 56 + a.w4 * b.w3 * 2 ^ 112 + a.w4 * b.w4 * 2 ^ 168) * 2 ^ 280 := by
    simp only [val]
    linear_combination (-1) * (e00 * 2 ^ 0 + e01 * 2 ^ 56 + e02 * 2 ^ 112 + e03 * 2 ^ 168 + e04 * 2 ^ 224 + e10 * 2 ^ 56 + e11 * 2 ^ 112 + e12 * 2 ^ 168 + e13 * 2 ^ 224 + e20 * 2 ^ 112 + e21 * 2 ^ 168 + e22 * 2 ^ 224 + e30 * 2 ^ 168 + e31 * 2 ^ 224 + e40 * 2 ^ 224)
  have hv0 : 0 ≤ (⟨c00, c10, c20, c30, c40⟩ : BIG).val := by simp only [val]; omega
  have hv1 : (⟨c00, c10, c20, c30, c40⟩ : BIG).val < 2 ^ 280 := by simp only [val]; omega
  refine Wp.ret ⟨⟨zc00, zc10, zc20, zc30⟩, ?_⟩
  rw [key, Int.add_mul_emod_self_right, Int.emod_eq_of_lt hv0 hv1]

theorem mod_split {q w r : Int} {i bt : Nat} (hbt : bt ≤ 56) (hq : 0 ≤ q ∧ q < 2 ^ i) :
    (q + (w + r * 2 ^ 56) * 2 ^ i) % 2 ^ (i + bt) = q + w % 2 ^ bt * 2 ^ i := by
  have e : (2:Int) ^ 56 = 2 ^ (56 - bt) * 2 ^ bt := by rw [← pow_add]; congr 1; omega
  have h1 := Int.emod_nonneg w (show (2:Int) ^ bt ≠ 0 by positivity)
  have h2 := Int.emod_lt_of_pos w (show (0:Int) < 2 ^ bt by positivity)
  have key : q + (w + r * 2 ^ 56) * 2 ^ i =
      q + w % 2 ^ bt * 2 ^ i + (w / 2 ^ bt + r * 2 ^ (56 - bt)) * 2 ^ (i + bt) := by
    rw [pow_add, e]
    have := Int.emod_add_mul_ediv w (2 ^ bt)
    linear_combination (-2 ^ i) * this
  rw [key, Int.add_mul_emod_self_right, Int.emod_eq_of_lt]
  · have : 0 ≤ w % 2 ^ bt * 2 ^ i := by positivity
    omega
  · have hi : (0:Int) < 2 ^ i := by positivity
    rw [pow_add]
    nlinarith

theorem mod2m_wp {a : BIG} (ha : Nrm a) {m : Nat} (hm : m < 280) :
    Wp (mod2m a m) fun r => Nrm r ∧ r.val = a.val % 2 ^ m := by
  obtain ⟨a0, a1, a2, a3⟩ := ha
  have hwd : m / 56 < 5 := by omega
  have hbt : m % 56 < 56 := Nat.mod_lt _ (by norm_num)
  have em : m = 56 * (m / 56) + m % 56 := (Nat.div_add_mod m 56).symm
  unfold mod2m
  rw [if_neg (by omega)]
  refine Wp.of_eq rfl ?_
  generalize m / 56 = wd at *
  generalize m % 56 = bt at *
  subst em
  have em : ∀ w, and64 w (shl64 1 bt - 1) = w % 2 ^ bt := by
    intro w
    have : shl64 1 bt = 2 ^ bt := by
      rw [shl64_eq, one_mul]
      · rw [one_mul]; linarith [show (0:Int) < 2 ^ bt by positivity]
      · rw [one_mul]; exact pow_lt_pow_right₀ (by norm_num) (by omega)
    rw [this, and64_mask (by omega)]
  have hd : ∀ w : Int, 0 ≤ w % 2 ^ bt ∧ w % 2 ^ bt < 2 ^ 56 := fun w =>
    ⟨Int.emod_nonneg _ (by positivity), (Int.emod_lt_of_pos _ (by positivity)).trans
      (pow_lt_pow_right₀ (by norm_num) hbt)⟩
  interval_cases wd
  all_goals simp only [mod2mW, em, lt_irrefl, if_true, if_false, Nat.reduceLT, Nat.reduceEqDiff,
    OfNat.ofNat_ne_zero, OfNat.zero_ne_ofNat, OfNat.ofNat_ne_one, OfNat.one_ne_ofNat, zero_ne_one,
    one_ne_zero, not_lt_zero, Nat.lt_one_iff]
  · have h := mod_split (q := 0) (w := a.w0) (r := 0 + a.w1 * 2 ^ 0 + a.w2 * 2 ^ 56 + a.w3 * 2 ^ 112 + a.w4 * 2 ^ 168) (i := 0) hbt.le (by omega)
    have := hd a.w0
    refine ⟨⟨?_, ?_, ?_, ?_⟩, ?_⟩
    any_goals (dsimp only; omega)
    rw [show a.val = 0 + (a.w0 + (0 + a.w1 * 2 ^ 0 + a.w2 * 2 ^ 56 + a.w3 * 2 ^ 112 + a.w4 * 2 ^ 168) * 2 ^ 56) * 2 ^ 0 by simp only [val]; ring, h]
    simp only [val]; ring
  · have h := mod_split (q := 0 + a.w0 * 2 ^ 0) (w := a.w1) (r := 0 + a.w2 * 2 ^ 0 + a.w3 * 2 ^ 56 + a.w4 * 2 ^ 112) (i := 56) hbt.le (by omega)
    have := hd a.w1
    refine ⟨⟨?_, ?_, ?_, ?_⟩, ?_⟩
    any_goals (dsimp only; omega)
    rw [show a.val = 0 + a.w0 * 2 ^ 0 + (a.w1 + (0 + a.w2 * 2 ^ 0 + a.w3 * 2 ^ 56 + a.w4 * 2 ^ 112) * 2 ^ 56) * 2 ^ 56 by simp only [val]; ring, h]
    simp only [val]; ring
  · have h := mod_split (q := 0 + a.w0 * 2 ^ 0 + a.w1 * 2 ^ 56) (w := a.w2) (r := 0 + a.w3 * 2 ^ 0 + a.w4 * 2 ^ 56) (i := 112) hbt.le (by omega)
    have := hd a.w2
    refine ⟨⟨?_, ?_, ?_, ?_⟩, ?_⟩
    any_goals (dsimp only; omega)
    rw [show a.val = 0 + a.w0 * 2 ^ 0 + a.w1 * 2 ^ 56 + (a.w2 + (0 + a.w3 * 2 ^ 0 + a.w4 * 2 ^ 56) * 2 ^ 56) * 2 ^ 112 by simp only [val]; ring, h]
    simp only [val]; ring
  · have h := mod_split (q := 0 + a.w0 * 2 ^ 0 + a.w1 * 2 ^ 56 + a.w2 * 2 ^ 112) (w := a.w3) (r := 0 + a.w4 * 2 ^ 0) (i := 168) hbt.le (by omega)
    have := hd a.w3
    refine ⟨⟨?_, ?_, ?_, ?_⟩, ?_⟩
    any_goals (dsimp only; omega)
    rw [show a.val = 0 + a.w0 * 2 ^ 0 + a.w1 * 2 ^ 56 + a.w2 * 2 ^ 112 + (a.w3 + (0 + a.w4 * 2 ^ 0) * 2 ^ 56) * 2 ^ 168 by simp only [val]; ring, h]
    simp only [val]; ring
  · have h := mod_split (q := 0 + a.w0 * 2 ^ 0 + a.w1 * 2 ^ 56 + a.w2 * 2 ^ 112 + a.w3 * 2 ^ 168) (w := a.w4) (r := 0) (i := 224) hbt.le (by omega)
    have := hd a.w4
    refine ⟨⟨?_, ?_, ?_, ?_⟩, ?_⟩
    any_goals (dsimp only; omega)
    rw [show a.val = 0 + a.w0 * 2 ^ 0 + a.w1 * 2 ^ 56 + a.w2 * 2 ^ 112 + a.w3 * 2 ^ 168 + (a.w4 + (0) * 2 ^ 56) * 2 ^ 224 by simp only [val]; ring, h]
    simp only [val]; ring

theorem div3W_wp {k w : Int} (hk : 0 ≤ k ∧ k < 3) (hw : 0 ≤ w ∧ w ≤ 2 ^ 56) :
    Wp (div3W k w) fun r => 0 ≤ r.1 ∧ r.1 ≤ k * 2 ^ 56 + w ∧ (0 ≤ r.2 ∧ r.2 < 3) ∧
      3 * r.1 + r.2 = k * 2 ^ 56 + w := by
  unfold div3W
  rw [Amcl.BIG.mul64_eq (by omega) (by omega), Option.bind_eq_bind, Option.bind_some,
    add64_eq (by omega) (by omega), Option.bind_some, Int.tdiv_eq_ediv_of_nonneg (by omega),
    Int.tmod_eq_emod_of_nonneg (by omega)]
  exact Wp.ret ⟨by dsimp only; omega, by dsimp only; omega, by dsimp only; omega, by dsimp only; omega⟩

/-- `div3` divides by three and returns the remainder. -/
theorem div3_wp {a : BIG} (ha : Lim a (2 ^ 62)) (h0 : 0 ≤ a.val) (h1 : a.val < 2 ^ 280) :
    Wp (div3 a) fun r => Nrm r.1 ∧ r.1.val = a.val / 3 ∧ r.2 = a.val % 3 := by
  unfold div3
  refine Wp.bind (norm_wp ha) ?_
  rintro b ⟨nb, vb⟩
  rw [← vb] at h0 h1 ⊢
  have tb := nb.top (B := 2 ^ 56) h0 (by omega)
  obtain ⟨b0, b1, b2, b3⟩ := nb
  refine Wp.bind (div3W_wp ⟨by norm_num, by norm_num⟩ (w := b.w4) (by omega)) ?_
  rintro ⟨q4, r4⟩ ⟨p4, u4, hr4, e4⟩
  dsimp only at p4 u4 hr4 e4 ⊢
  refine Wp.bind (div3W_wp hr4 (w := b.w3) (by omega)) ?_
  rintro ⟨q3, r3⟩ ⟨p3, u3, hr3, e3⟩
  dsimp only at p3 u3 hr3 e3 ⊢
  refine Wp.bind (div3W_wp hr3 (w := b.w2) (by omega)) ?_
  rintro ⟨q2, r2⟩ ⟨p2, u2, hr2, e2⟩
  dsimp only at p2 u2 hr2 e2 ⊢
  refine Wp.bind (div3W_wp hr2 (w := b.w1) (by omega)) ?_
  rintro ⟨q1, r1⟩ ⟨p1, u1, hr1, e1⟩
  dsimp only at p1 u1 hr1 e1 ⊢
  refine Wp.bind (div3W_wp hr1 (w := b.w0) (by omega)) ?_
  rintro ⟨q0, r0⟩ ⟨p0, u0, hr0, e0⟩
  dsimp only at p0 u0 hr0 e0 ⊢
  have hv : b.val = 3 * (⟨q0, q1, q2, q3, q4⟩ : BIG).val + r0 := by simp only [val]; omega
  refine Wp.ret ⟨⟨?_, ?_, ?_, ?_⟩, ?_, ?_⟩
  all_goals dsimp only
  all_goals omega

/-- `pxmul` is the exact product by a word. -/
theorem pxmul_wp {a : BIG} {c : Int} (ha : Nrm a) (h0 : 0 ≤ a.val) (h1 : a.val < 2 ^ 280)
    (hc : 0 ≤ c ∧ c < 2 ^ 56) :
    Wp (pxmul a c) fun r => r.Nrm ∧ r.val = a.val * c := by
  have ta := ha.top (B := 2 ^ 56) h0 (by omega)
  obtain ⟨a0, a1, a2, a3⟩ := ha
  have z : (0:Int) ≤ 0 ∧ (0:Int) < 2 ^ 56 := by norm_num
  unfold pxmul
  refine Wp.bind (muladd_nn (a := a.w0) a0 hc z z) ?_
  rintro ⟨k0, c0⟩ ⟨zk0, zc0, e0⟩
  dsimp only at zk0 zc0 e0 ⊢
  refine Wp.bind (muladd_nn (a := a.w1) a1 hc zk0 z) ?_
  rintro ⟨k1, c1⟩ ⟨zk1, zc1, e1⟩
  dsimp only at zk1 zc1 e1 ⊢
  refine Wp.bind (muladd_nn (a := a.w2) a2 hc zk1 z) ?_
  rintro ⟨k2, c2⟩ ⟨zk2, zc2, e2⟩
  dsimp only at zk2 zc2 e2 ⊢
  refine Wp.bind (muladd_nn (a := a.w3) a3 hc zk2 z) ?_
  rintro ⟨k3, c3⟩ ⟨zk3, zc3, e3⟩
  dsimp only at zk3 zc3 e3 ⊢
  refine Wp.bind (muladd_nn (a := a.w4) (by omega) hc zk3 z) ?_
  rintro ⟨k4, c4⟩ ⟨zk4, zc4, e4⟩
  dsimp only at zk4 zc4 e4 ⊢
  refine Wp.ret ⟨⟨⟨zc0, zc1, zc2, zc3⟩, zc4, ?_⟩, ?_⟩
  · constructor <;> simp only [new] <;> omega
  · simp only [DBIG.val, val, new]
    linear_combination e0 + e1 * 2 ^ 56 + e2 * 2 ^ 112 + e3 * 2 ^ 168 + e4 * 2 ^ 224

theorem plus_wp {a b : BIG} {A B : Int} (ha : Lim a A) (hb : Lim b B) (h : A + B < 2 ^ 63) :
    Wp (plus a b) fun r => Lim r (A + B) ∧ r.val = a.val + b.val := add_wp ha hb h

theorem imul_wp {a : BIG} {A C c : Int} (ha : Lim a A) (hc : Bd C c) (h : A * C < 2 ^ 63) :
    Wp (imul a c) fun r => Lim r (A * C) ∧ r.val = a.val * c := by
  obtain ⟨a0, a1, a2, a3, a4⟩ := ha
  have g : ∀ x, Bd A x → mul64 x c = some (x * c) ∧ Bd (A * C) (x * c) := fun x hx => by
    have := hx.mul hc
    exact ⟨Amcl.BIG.mul64_eq (by linarith [this.1]) (by linarith [this.2]), this⟩
  unfold imul zipM
  dsimp only
  rw [(g _ a0).1, (g _ a1).1, (g _ a2).1, (g _ a3).1, (g _ a4).1]
  refine Wp.of_eq rfl ⟨⟨(g _ a0).2, (g _ a1).2, (g _ a2).2, (g _ a3).2, (g _ a4).2⟩, ?_⟩
  simp only [val]; ring
end BIG

namespace DBIG

theorem divUp_wp {s : DBIG} {n : Int} (hs : Nrm s) (hn : 1 ≤ n) (hs1 : s.val < 2 ^ 560)
    (hs2 : s.val < n * 2 ^ 278) (j : Nat) :
    ∀ (m : DBIG) (e : BIG) (k : Nat), Nrm m → e.Nrm → m.val = n * 2 ^ k → e.val = 2 ^ k →
      m.val < 2 ^ 561 → s.val < m.val * 2 ^ j →
      Wp (divUp s m e k) fun r => Nrm r.1 ∧ r.2.1.Nrm ∧ r.1.val = n * 2 ^ r.2.2 ∧
        r.2.1.val = 2 ^ r.2.2 ∧ s.val < r.1.val ∧ r.1.val < 2 ^ 561 ∧
        (r.2.2 ≤ k ∨ r.1.val ≤ 2 * s.val) := by
  induction j with
  | zero =>
    intro m e k hm he hv hve h2 h3
    rw [divUp]
    rw [pow_zero, mul_one] at h3
    rw [if_neg (by rw [ge_iff_le, not_le, comp_lt hs hm]; exact h3)]
    exact Wp.ret ⟨hm, he, hv, hve, h3, h2, Or.inl le_rfl⟩
  | succ j ih =>
    intro m e k hm he hv hve h2 h3
    rw [divUp]
    by_cases h : s.val < m.val
    · rw [if_neg (by rw [ge_iff_le, not_le, comp_lt hs hm]; exact h)]
      exact Wp.ret ⟨hm, he, hv, hve, h, h2, Or.inl le_rfl⟩
    · rw [if_pos (by rw [ge_iff_le, ← not_lt, comp_lt hs hm]; exact h)]
      have hp : (0:Int) < 2 ^ k := by positivity
      have hk : (2:Int) ^ k < 2 ^ 278 := by
        by_contra hc
        have : n * 2 ^ 278 ≤ n * 2 ^ k := by nlinarith
        omega
      have h0 : 0 < m.val := by rw [hv]; positivity
      have ht := he.top (B := 2 ^ 57) (by omega) (by omega)
      refine Wp.bind (BIG.fshl_wp he (by norm_num) ht.1 (by omega)) ?_
      rintro e' ⟨ne, ve⟩
      have ht2 := hm.top
      refine Wp.bind (shl_wp hm (by norm_num) (by omega) (by omega)) ?_
      rintro m' ⟨nm, vm⟩
      refine (ih m' e' (k + 1) nm ne (by rw [vm, hv]; ring) (by rw [ve, hve]; ring) (by omega)
        (by rw [vm]; calc _ < _ := h3
          _ = _ := by ring)).mono ?_
      rintro r ⟨r1, r2, r3, r4, r5, r6, r7⟩
      refine ⟨r1, r2, r3, r4, r5, r6, Or.inr ?_⟩
      rcases r7 with r7 | r7
      · have : (2:Int) ^ r.2.2 ≤ 2 ^ (k + 1) := pow_le_pow_right₀ (by norm_num) r7
        rw [pow_succ] at this
        have : r.1.val ≤ 2 * m.val := by rw [r3, hv]; nlinarith
        omega
      · exact r7

theorem divDown_wp {n : Int} (hn : 0 < n) (k : Nat) : ∀ (s m : DBIG) (e a : BIG), Nrm s → Nrm m →
    e.Nrm → a.Nrm → 0 ≤ s.val → s.val < m.val → 0 ≤ a.val → m.val = n * 2 ^ k → e.val = 2 ^ k →
    m.val < 2 ^ 561 → a.val + 2 ^ k ≤ 2 ^ 280 →
    Wp (divDown k s m e a) fun r => r.Nrm ∧ r.val = a.val + s.val / n := by
  induction k with
  | zero =>
    intro s m e a hs hm he ha s0 h1 a0 hv hve _ _
    refine Wp.pure ⟨ha, ?_⟩
    rw [Int.ediv_eq_zero_of_lt s0 (by rw [hv] at h1; simpa using h1), add_zero]
  | succ k ih =>
    intro s m e a hs hm he ha s0 h1 a0 hv hve h2 h3
    rw [divDown]
    refine Wp.bind (shr_wp hm (by norm_num)) ?_
    rintro m' ⟨hm', hv'⟩
    have hv2 : m'.val = n * 2 ^ k := by
      rw [hv', hv, pow_succ, ← mul_assoc, pow_one, Int.mul_ediv_cancel _ (by norm_num)]
    have hmm : m.val = 2 * m'.val := by rw [hv, hv2]; ring
    have hp : 0 < m'.val := by rw [hv2]; positivity
    refine Wp.bind (BIG.shr_wp he (by norm_num)) ?_
    rintro e' ⟨he', hve'⟩
    have hve2 : e'.val = 2 ^ k := by
      rw [hve', hve, pow_succ, pow_one, Int.mul_ediv_cancel _ (by norm_num)]
    have hpk : (0:Int) < 2 ^ k := by positivity
    rw [pow_succ] at h3
    have ls := hs.lim s0 (B := 2 ^ 60) (by omega) (by norm_num)
    have lm := hm'.lim hp.le (B := 2 ^ 60) (by omega) (by norm_num)
    refine Wp.bind (sub_wp ls lm (by norm_num)) ?_
    rintro r ⟨lr, vr⟩
    refine Wp.bind (norm_wp (lr.mono (by norm_num))) ?_
    rintro r' ⟨nr, vr'⟩
    have htop := nr.top
    have ht : -2 ^ 62 ≤ r'.hi.w4 ∧ r'.hi.w4 ≤ 2 ^ 62 := by rw [htop]; constructor <;> omega
    refine Wp.bind (Wp.of_eq (BIG.signBit ht.1 ht.2) rfl) ?_
    rintro _ rfl
    have hlo := nr.loVal
    have lr' : Lim r' (2 ^ 62) := ⟨(nr.lo.lim56 hlo.1 hlo.2).mono (by norm_num), nr.hi.lim63 ht⟩
    have la := ha.lim a0 (B := 2 ^ 60) (by omega) (by norm_num)
    have le := he'.lim (by omega) (B := 2 ^ 60) (by omega) (by norm_num)
    dsimp only
    refine Wp.bind (BIG.add_wp la le (by norm_num)) ?_
    rintro q ⟨lq, vq⟩
    refine Wp.bind (BIG.norm_wp (lq.mono (by norm_num))) ?_
    rintro q' ⟨nq, vq'⟩
    have lq' := nq.lim (by omega) (B := 2 ^ 60) (by omega) (by norm_num)
    rw [cmove_eq (ls.mono (by norm_num)) lr' (by split <;> simp),
      BIG.cmove_eq (la.mono (by norm_num)) (lq'.mono (by norm_num)) (by split <;> simp)]
    by_cases hneg : r'.hi.w4 < 0
    · rw [if_pos hneg, if_pos rfl, if_pos rfl]
      exact ih s m' e' a hs hm' he' ha s0 (by omega) a0 hv2 hve2 (by omega) (by omega)
    · rw [if_neg hneg, if_neg (by norm_num), if_neg (by norm_num)]
      refine (ih r' m' e' q' nr hm' he' nq (by omega) (by omega) (by omega) hv2 hve2 (by omega)
        (by omega)).mono ?_
      rintro b ⟨hb, vb⟩
      refine ⟨hb, ?_⟩
      rw [vb, vq', vq, vr', vr, hv2, hve2,
        show s.val - n * 2 ^ k = s.val + n * (-2 ^ k) by ring, Int.add_mul_ediv_left _ _ hn.ne']
      ring

/-- Division of a double-length number, when the quotient is below `2^278`. -/
theorem div_wp {s : DBIG} {n : BIG} (hs : Lim s (2 ^ 62)) (h0 : 0 ≤ s.val) (h1 : s.val < 2 ^ 560)
    (hn : n.Nrm) (hn0 : 0 < n.val) (hn1 : n.val < 2 ^ 280) (hq : s.val < n.val * 2 ^ 278) :
    Wp (div s n) fun r => r.Nrm ∧ r.val = s.val / n.val := by
  unfold div
  refine Wp.bind (norm_wp hs) ?_
  rintro b ⟨nb, vb⟩
  rw [← vb] at h0 h1 hq ⊢
  have ht := hn.top (B := 2 ^ 56) hn0.le (by omega)
  obtain ⟨nm, vm, _⟩ := new_scopy_spec hn (by omega)
  refine Wp.bind (divUp_wp (n := n.val) nb hn0 h1 hq 278 _ (BIG.new_int 1) 0 nm
    (BIG.new_int_nrm (by norm_num) (by norm_num)) (by simp [vm]) (by simp [BIG.new_int_val])
    (by omega) (by rw [vm]; exact hq)) ?_
  rintro ⟨m, e, k⟩ ⟨nm, ne, vm, ve, hlt, hle, hk⟩
  simp only at nm ne vm ve hlt hle hk
  refine (divDown_wp hn0 k b m e BIG.new nb nm ne BIG.new_nrm h0 hlt (by rw [BIG.new_val]) vm ve hle
    ?_).mono ?_
  · rw [BIG.new_val]
    have hp : (0:Int) < 2 ^ k := by positivity
    rcases hk with hk | hk
    · have : k = 0 := by omega
      subst this; norm_num
    · by_contra hc
      have : n.val * 2 ^ 280 ≤ n.val * 2 ^ k := by nlinarith
      omega
  · rintro r ⟨nr, vr⟩
    exact ⟨nr, by rw [vr, BIG.new_val, zero_add]⟩

end DBIG
end Amcl.Secp
