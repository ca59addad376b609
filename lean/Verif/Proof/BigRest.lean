import Verif.Model.BigRest
import Verif.Proof.Show
import Verif.Proof.BigArith
import Verif.Proof.Rng
/-!
# Proofs about the rest of `big.rs` and `dbig.rs`
-/

set_option exponentiation.threshold 2000

namespace Amcl

open Spec

namespace BIG

/-! ### Shifts to the left -/

/-- The limbs moved up by `m`. -/
def wordShl (a : BIG) (m : Nat) : BIG :=
  let g := fun i => if i < m then 0 else a.limb (i - m)
  ⟨g 0, g 1, g 2, g 3, g 4, g 5, g 6⟩

theorem wordShl_spec {a : BIG} (h : Nrm a) (h0 : 0 ≤ a.val) {m : Nat} (hm : m ≤ 5)
    (h1 : a.val * 2 ^ (58 * m) < 2 ^ 406) :
    Nrm (wordShl a m) ∧ (wordShl a m).val = a.val * 2 ^ (58 * m) := by
  have h6 : 0 ≤ a.w6 := by rw [h.w6_eq]; positivity
  obtain ⟨g0, g1, g2, g3, g4, g5⟩ := h
  interval_cases m <;> (refine ⟨?_, ?_⟩ <;> [constructor; skip]) <;>
    simp [wordShl, limb, val] at * <;> omega

theorem fshlW_zero {n : Nat} (hn : n ≤ 58) (x : Int) : fshlW n x 0 = and64 (shl64 x n) BMASK := by
  have e : sar 0 (58 - n) = 0 := by simp [sar]
  have hm : and64 (shl64 x n) BMASK = shl64 x n % 2 ^ 58 := by rw [BMASK_eq, and64_mask (by norm_num)]
  rw [fshlW, e]
  exact or64_zero (by omega) (by omega)

theorem shlAny_eq {a : BIG} {k : Nat} (hk : k < 348) :
    shlAny a k = fshl (wordShl a (k / 58)) (k % 58) := by
  have hm : k / 58 ≤ 5 := by omega
  have hn : k % 58 ≤ 58 := by omega
  unfold shlAny
  rw [if_neg (by omega)]
  generalize k % 58 = n at hn
  generalize k / 58 = m at hm
  have s0 : ∀ n, and64 (shl64 0 n) BMASK = 0 := fun n => by simp [shl64, and64]
  interval_cases m <;> simp [shlAnyW, fshl, wordShl, limb, hn, fshlW_zero hn, s0]

theorem shlAny_wp {a : BIG} (h : Nrm a) (h0 : 0 ≤ a.val) {k : Nat} (hk : k < 348) (h1 : a.val * 2 ^ k < 2 ^ 406) :
    Wp (shlAny a k) fun r => Nrm r ∧ r.val = a.val * 2 ^ k := by
  have hp : (2:Int) ^ k = 2 ^ (58 * (k / 58)) * 2 ^ (k % 58) := by
    rw [← pow_add, show 58 * (k / 58) + k % 58 = k by omega]
  have hq : (1:Int) ≤ 2 ^ (k % 58) := one_le_pow₀ (by norm_num)
  have h2 : a.val * 2 ^ (58 * (k / 58)) < 2 ^ 406 := by
    refine lt_of_le_of_lt ?_ h1
    rw [hp]
    have : 0 ≤ a.val * 2 ^ (58 * (k / 58)) := by positivity
    nlinarith
  obtain ⟨hn, hv⟩ := wordShl_spec h h0 (m := k / 58) (by omega) h2
  rw [shlAny_eq hk]
  have hw : 0 ≤ (wordShl a (k / 58)).val := by rw [hv]; positivity
  have h6 := hn.top (B := 2 ^ 58) hw (by rw [hv]; omega)
  have hle : (wordShl a (k / 58)).w6 * 2 ^ 348 ≤ (wordShl a (k / 58)).val := by
    obtain ⟨g0, g1, g2, g3, g4, g5⟩ := hn
    simp only [val]; omega
  rw [hp, ← mul_assoc, ← hv] at h1
  refine (fshl_wp hn (k := k % 58) (by omega) h6.1 ?_).mono ?_
  · nlinarith
  · rintro r ⟨h3, h4⟩
    exact ⟨h3, by rw [h4, hv, mul_assoc, ← hp]⟩

/-- The same when the number moves into the top limb alone, where line 261 writes last. -/
theorem shlAny_top {a : BIG} (h : Nrm a) (h0 : 0 ≤ a.val) {k : Nat} (hk : 348 ≤ k ∧ k < 406) (h1 : a.val * 2 ^ k < 2 ^ 406) :
    Wp (shlAny a k) fun r => Nrm r ∧ r.val = a.val * 2 ^ k := by
  obtain ⟨n, rfl⟩ : ∃ n, k = 348 + n := ⟨k - 348, by omega⟩
  have hn : n < 58 := by omega
  have hp : (0:Int) < 2 ^ n := by positivity
  rw [pow_add] at h1 ⊢
  have hv : a.val * 2 ^ n < 2 ^ 58 := by nlinarith
  have hs : a.val < 2 ^ 58 := by nlinarith
  have e6 : a.w6 = 0 := by rw [h.w6_eq]; omega
  have e : a.val = a.w0 := by
    obtain ⟨g0, g1, g2, g3, g4, g5⟩ := h
    simp only [val] at h0 hs ⊢
    omega
  have hw : 0 ≤ a.w0 * 2 ^ n := by rw [← e]; positivity
  have hm : and64 (shl64 a.w0 n) BMASK = a.w0 * 2 ^ n := by
    rw [BMASK_eq, shl64_mask (by norm_num), Int.emod_eq_of_lt hw (by rw [← e]; exact hv)]
  refine ⟨⟨0, 0, 0, 0, 0, 0, a.w0 * 2 ^ n⟩, ?_, by constructor <;> norm_num, ?_⟩
  · unfold shlAny
    rw [show (348 + n) % 58 = n by omega, show (348 + n) / 58 = 6 by omega]
    simp [shlAnyW, hm]
  · rw [e]; simp only [val]; ring

/-! ### `invmod2m` -/

/-- Everything in a round up to the last shift: the number `t` that is shifted and added. -/
def inv2Mid (s u : BIG) (i : Nat) : Option BIG := do
  let b ← s.mod2m i
  let t1 ← smul u b
  let t1 ← t1.shrAny i
  let c ← s.shrAny i
  let c ← c.mod2m i
  let t2 ← smul u c
  let t2 ← t2.mod2m i
  let t1 ← t1.add t2
  let t1 ← t1.norm
  let b ← smul t1 u
  let t1 ← b.mod2m i
  let t2 ← (new_int 1).shlAny i
  let t1 ← t1.rsub t2
  t1.norm

theorem inv2Step_eq (s u : BIG) (i : Nat) : inv2Step s u i = (do
    let u ← u.norm
    let t ← inv2Mid s u i
    let t ← t.shlAny i
    u.add t) := by
  simp only [inv2Step, inv2Mid, Option.bind_eq_bind, Option.bind_assoc]

/-- The number theory of one round: `a = b + 2^i c + …`, `u b ≡ 1 + 2^i k`. -/
theorem inv2_math {a u i : Nat} {M : Nat} (hM : M ≤ i) {k t2 x : Int}
    (hu : (u * a : Int) ≡ 1 [ZMOD 2 ^ i])
    (hk : (u * (a % 2 ^ i) : Int) ≡ 1 + 2 ^ i * k [ZMOD 2 ^ (i + M)])
    (h2 : t2 ≡ u * (a / 2 ^ i) [ZMOD 2 ^ M])
    (hx : x ≡ -((k + t2) * u) [ZMOD 2 ^ M]) :
    (u + 2 ^ i * x) * a ≡ 1 [ZMOD 2 ^ (i + M)] := by
  obtain ⟨e, he⟩ := hu.symm.dvd
  obtain ⟨f, hf⟩ := hk.symm.dvd
  obtain ⟨g, hg⟩ := h2.symm.dvd
  obtain ⟨w, hw⟩ := hx.symm.dvd
  refine (Int.modEq_iff_dvd.2 ⟨f - g + a * w - 2 ^ (i - M) * e * (k + t2), ?_⟩).symm
  have hb : (a : Int) = a % 2 ^ i + 2 ^ i * (a / 2 ^ i) := by rw [Int.emod_add_mul_ediv]
  have hp : (2:Int) ^ i = 2 ^ M * 2 ^ (i - M) := by rw [← pow_add, show M + (i - M) = i by omega]
  have hq : (2:Int) ^ (i + M) = 2 ^ i * 2 ^ M := pow_add _ _ _
  generalize (a : Int) % 2 ^ i = b at *
  generalize (a : Int) / 2 ^ i = c at *
  rw [hq] at hf ⊢
  linear_combination (u : Int) * hb + hf + 2 ^ i * (a : Int) * hw - 2 ^ i * hg - 2 ^ i * (k + t2) * he
    - 2 ^ i * e * (k + t2) * hp

theorem inv2Mid_wp {s u : BIG} {a v i : Nat} (hi : 8 ≤ i ∧ i ≤ 256) (hs : s.Nrm) (sv : s.val = a) (sa : a < 2 ^ 406)
    (hu : u.Nrm) (uv : u.val = v) (v1 : v < 2 ^ (i + 1)) (hm : (v * a : Int) ≡ 1 [ZMOD 2 ^ i]) :
    Wp (inv2Mid s u i) fun t => t.Nrm ∧ 0 ≤ t.val ∧ t.val ≤ 2 ^ i ∧
      ((v + 2 ^ i * t.val) * a : Int) ≡ 1 [ZMOD 2 ^ (i + min i (406 - i))] := by
  have hp0 : (0:Int) < 2 ^ i := by positivity
  have hp1 : (2:Int) ^ i ≤ 2 ^ 256 := pow_le_pow_right₀ (by norm_num) hi.2
  have hp2 : (2:Int) ^ 8 ≤ 2 ^ i := pow_le_pow_right₀ (by norm_num) hi.1
  have hv1 : (v:Int) < 2 * 2 ^ i := by rw [← pow_succ']; exact_mod_cast v1
  have hd : (2:Int) ^ i ∣ 2 ^ 406 := pow_dvd_pow 2 (by omega)
  unfold inv2Mid
  refine Wp.bind (mod2m_wp hs (m := i) (by omega)) ?_
  rintro b ⟨nb, vb⟩
  rw [sv] at vb
  have b0 := Int.emod_nonneg (a:Int) hp0.ne'
  have b1 := Int.emod_lt_of_pos (a:Int) hp0
  refine Wp.bind (smul_wp hu (by omega) (by omega) nb (by omega) (by omega)) ?_
  rintro p ⟨np, vp⟩
  rw [uv, vb] at vp
  refine Wp.bind (shrAny_wp np (by omega) (by omega) (k := i) (by omega)) ?_
  rintro t1 ⟨n1, w1⟩
  refine Wp.bind (shrAny_wp hs (by omega) (by omega) (k := i) (by omega)) ?_
  rintro c ⟨nc, vc⟩
  refine Wp.bind (mod2m_wp nc (m := i) (by omega)) ?_
  rintro c' ⟨nc', vc'⟩
  rw [vc, sv] at vc'
  have c0 := Int.emod_nonneg ((a:Int) / 2 ^ i) hp0.ne'
  have c1 := Int.emod_lt_of_pos ((a:Int) / 2 ^ i) hp0
  refine Wp.bind (smul_wp hu (by omega) (by omega) nc' (by omega) (by omega)) ?_
  rintro q ⟨nq, vq⟩
  refine Wp.bind (mod2m_wp nq (m := i) (by omega)) ?_
  rintro t2 ⟨n2, w2⟩
  have d0 := Int.emod_nonneg q.val hp0.ne'
  have d1 := Int.emod_lt_of_pos q.val hp0
  have k0 : 0 ≤ t1.val := by rw [w1]; exact Int.ediv_nonneg (by omega) hp0.le
  have k1 : t1.val < 2 ^ 398 := by
    rw [w1, Int.ediv_lt_iff_lt_mul hp0]
    have : p.val < 2 ^ 406 := by omega
    nlinarith
  refine Wp.bind (add_wp (n1.lim58 k0 (by omega)) (n2.lim58 (by omega) (by omega)) (by norm_num)) ?_
  rintro s1 ⟨l1, x1⟩
  refine Wp.bind (norm_wp (l1.mono (by norm_num))) ?_
  rintro s2 ⟨m2, x2⟩
  refine Wp.bind (smul_wp m2 (by omega) (by omega) hu (by omega) (by omega)) ?_
  rintro z ⟨nz, vz⟩
  refine Wp.bind (mod2m_wp nz (m := i) (by omega)) ?_
  rintro y ⟨ny, vy⟩
  have y0 := Int.emod_nonneg z.val hp0.ne'
  have y1 := Int.emod_lt_of_pos z.val hp0
  refine Wp.bind (shlAny_wp (new_int_nrm (x := 1) (by norm_num) (by norm_num)) (by rw [new_int_val]; norm_num) (k := i)
    (by omega) (by rw [new_int_val]; omega)) ?_
  rintro o ⟨no, vo⟩
  rw [new_int_val, one_mul] at vo
  refine Wp.bind (rsub_wp (ny.lim58 (by omega) (by omega)) (no.lim58 (by omega) (by omega)) (by norm_num)) ?_
  rintro r ⟨lr, vr⟩
  refine (norm_wp (lr.mono (by norm_num))).mono ?_
  rintro t ⟨nt, vt⟩
  refine ⟨nt, by omega, by omega, ?_⟩
  have hM : min i (406 - i) ≤ i := min_le_left _ _
  have hM2 : i + min i (406 - i) ≤ 406 := by omega
  have dM : (2:Int) ^ min i (406 - i) ∣ 2 ^ i := pow_dvd_pow 2 hM
  have d4 : (2:Int) ^ (i + min i (406 - i)) ∣ 2 ^ 406 := pow_dvd_pow 2 hM2
  refine inv2_math hM hm (k := t1.val) (t2 := t2.val) ?_ ?_ ?_
  · have e1 : p.val % 2 ^ i = 1 := by
      rw [vp, Int.emod_emod_of_dvd _ hd]
      have : (v * (a % 2 ^ i) : Int) ≡ 1 [ZMOD 2 ^ i] :=
        ((Int.mod_modEq (a:Int) (2 ^ i)).mul_left v).trans hm
      rw [this, Int.emod_eq_of_lt (by norm_num) (by omega)]
    have e2 : p.val = 1 + 2 ^ i * t1.val := by
      rw [w1, ← e1, Int.emod_add_mul_ediv]
    rw [← e2, vp]
    exact ((Int.mod_modEq _ _).of_dvd d4).symm
  · rw [w2, vq, uv, vc']
    refine ((Int.mod_modEq _ _).of_dvd dM).trans ?_
    refine ((Int.mod_modEq _ _).of_dvd (dM.trans hd)).trans ?_
    exact ((Int.mod_modEq _ _).of_dvd dM).mul_left v
  · rw [vt, vr, vo, vy, vz, x2, x1, uv]
    have h1 : ((t1.val + t2.val) * v : Int) % 2 ^ 406 % 2 ^ i ≡ (t1.val + t2.val) * v [ZMOD 2 ^ min i (406 - i)] :=
      ((Int.mod_modEq _ _).of_dvd dM).trans ((Int.mod_modEq _ _).of_dvd (dM.trans hd))
    have h2 := (Int.modEq_zero_iff_dvd.2 dM).sub h1
    rwa [zero_sub] at h2

/-- A round other than the last. -/
theorem inv2Step_wp {s u : BIG} {a v i : Nat} (hi : 8 ≤ i ∧ i ≤ 128) (hs : s.Nrm) (sv : s.val = a)
    (sa : a < 2 ^ 406) (hu : Lim u (2 ^ 62)) (uv : u.val = v) (v1 : v < 2 ^ (i + 1))
    (hm : (v * a : Int) ≡ 1 [ZMOD 2 ^ i]) :
    Wp (inv2Step s u i) fun r => Lim r (2 ^ 62) ∧ ∃ v' : Nat, r.val = v' ∧ v' < 2 ^ (2 * i + 1) ∧
      (v' * a : Int) ≡ 1 [ZMOD 2 ^ (2 * i)] := by
  have hv1 : (v:Int) < 2 ^ (i + 1) := by exact_mod_cast v1
  have hp : (2:Int) ^ (i + 1) ≤ 2 ^ 129 := pow_le_pow_right₀ (by norm_num) (by omega)
  have hq : (2:Int) ^ i ≤ 2 ^ 128 := pow_le_pow_right₀ (by norm_num) (by omega)
  have hp2 : (2:Int) ^ (i + 1) ≤ 2 ^ (2 * i) := pow_le_pow_right₀ (by norm_num) (by omega)
  have hp0 : (0:Int) < 2 ^ i := by positivity
  rw [inv2Step_eq]
  refine Wp.bind (norm_wp hu) ?_
  rintro u' ⟨nu, vu⟩
  rw [uv] at vu
  refine Wp.bind (inv2Mid_wp ⟨hi.1, by omega⟩ hs sv sa nu vu v1 hm) ?_
  rintro t ⟨nt, t0, t1, hx⟩
  rw [show min i (406 - i) = i by omega] at hx
  have hb : t.val * 2 ^ i ≤ 2 ^ (2 * i) := by rw [two_mul, pow_add]; nlinarith
  have hb2 : (2:Int) ^ (2 * i) ≤ 2 ^ 256 := pow_le_pow_right₀ (by norm_num) (by omega)
  have hb0 : 0 ≤ t.val * 2 ^ i := by positivity
  refine Wp.bind (shlAny_wp nt t0 (k := i) (by omega) (by omega)) ?_
  rintro w ⟨nw, vw⟩
  refine (add_wp (nu.lim58 (by omega) (by omega)) (nw.lim58 (by omega) (by omega)) (by norm_num)).mono ?_
  rintro r ⟨lr, vr⟩
  refine ⟨lr.mono (by norm_num), r.val.toNat, by omega, ?_, ?_⟩
  · have : r.val < 2 ^ (2 * i + 1) := by rw [pow_succ]; omega
    zify
    rw [Int.toNat_of_nonneg (by omega)]
    exact this
  · rw [Int.toNat_of_nonneg (by omega), vr, vu, vw, two_mul, mul_comm t.val]
    exact hx

theorem and64_or (x y m : Int) : and64 (or64 x y) m = or64 (and64 x m) (and64 y m) := by
  simp only [and64, or64, BitVec.ofInt_toInt]
  congr 1
  ext j hj
  simp [Bool.and_or_distrib_right]

theorem or64_range (x y : Int) : -2 ^ 63 ≤ or64 x y ∧ or64 x y < 2 ^ 63 :=
  ⟨BitVec.le_toInt _, BitVec.toInt_lt⟩

/-- The last round moves `t` out of range; what `mod2m` leaves is still right. -/
theorem inv2_last {u t : BIG} (hu : u.Nrm) (u0 : 0 ≤ u.val) (u1 : u.val < 2 ^ 257) (ht : t.Nrm) :
    Wp (do
      let t ← t.shlAny 256
      let u ← u.add t
      let u ← u.mod2m 384
      u.norm) fun r => r.Nrm ∧ r.val = u.val + 2 ^ 256 * (t.val % 2 ^ 128) := by
  have e6 : u.w6 = 0 := by rw [hu.w6_eq]; omega
  obtain ⟨a0, a1, a2, a3, a4, a5⟩ := hu
  obtain ⟨b0, b1, b2, b3, b4, b5⟩ := ht
  have e5 : u.w5 = 0 := by simp only [val] at u0 u1; omega
  have e4 : u.w4 < 2 ^ 25 := by simp only [val] at u0 u1; omega
  have hm : and64 (shl64 t.w0 24) BMASK = t.w0 * 2 ^ 24 % 2 ^ 58 := by
    rw [BMASK_eq, shl64_mask (by norm_num)]
  have hm1 : and64 (shl64 t.w1 24) BMASK = t.w1 * 2 ^ 24 % 2 ^ 58 := by
    rw [BMASK_eq, shl64_mask (by norm_num)]
  have hs0 : sar t.w0 34 = t.w0 / 2 ^ 34 := rfl
  have hs1 : sar t.w1 34 = t.w1 / 2 ^ 34 := rfl
  have ho : or64 (t.w1 * 2 ^ 24 % 2 ^ 58) (t.w0 / 2 ^ 34) = t.w1 * 2 ^ 24 % 2 ^ 58 + t.w0 / 2 ^ 34 :=
    or64_add (n := 24) (by omega) (by omega) (by omega) (by omega) (by omega)
  have hsh : shlAny t 256 = some ⟨0, 0, 0, 0, t.w0 * 2 ^ 24 % 2 ^ 58,
      t.w1 * 2 ^ 24 % 2 ^ 58 + t.w0 / 2 ^ 34, or64 (shl64 t.w2 24) (t.w1 / 2 ^ 34)⟩ := by
    simp [shlAny, shlAnyW, limb, fshlW, hm, hm1, hs0, hs1, ho, -Int.reducePow]
  have hr := or64_range (shl64 t.w2 24) (t.w1 / 2 ^ 34)
  have hz : and64 (or64 (shl64 t.w2 24) (t.w1 / 2 ^ 34)) (shl64 1 36 - 1) =
      t.w2 * 2 ^ 24 % 2 ^ 36 + t.w1 / 2 ^ 34 := by
    have : shl64 1 36 = 2 ^ 36 := by rw [shl64_eq] <;> norm_num
    rw [this, and64_or, shl64_mask (by norm_num), and64_mask (by norm_num),
      Int.emod_eq_of_lt (a := t.w1 / 2 ^ 34) (by omega) (by omega)]
    exact or64_add (n := 24) (by omega) (by omega) (by omega) (by omega) (by omega)
  rw [hsh]
  generalize or64 (shl64 t.w2 24) (t.w1 / 2 ^ 34) = z at *
  refine Wp.bind (Wp.ret rfl) ?_
  rintro _ rfl
  have had : add u ⟨0, 0, 0, 0, t.w0 * 2 ^ 24 % 2 ^ 58, t.w1 * 2 ^ 24 % 2 ^ 58 + t.w0 / 2 ^ 34, z⟩ =
      some ⟨u.w0, u.w1, u.w2, u.w3, u.w4 + t.w0 * 2 ^ 24 % 2 ^ 58, t.w1 * 2 ^ 24 % 2 ^ 58 + t.w0 / 2 ^ 34, z⟩ := by
    have := zipM_wp (f := add64) (g := (· + ·)) (a := u)
      (b := ⟨0, 0, 0, 0, t.w0 * 2 ^ 24 % 2 ^ 58, t.w1 * 2 ^ 24 % 2 ^ 58 + t.w0 / 2 ^ 34, z⟩)
      (add64_eq (by dsimp only; omega) (by dsimp only; omega)) (add64_eq (by dsimp only; omega) (by dsimp only; omega))
      (add64_eq (by dsimp only; omega) (by dsimp only; omega)) (add64_eq (by dsimp only; omega) (by dsimp only; omega))
      (add64_eq (by dsimp only; omega) (by dsimp only; omega)) (add64_eq (by dsimp only; omega) (by dsimp only; omega))
      (add64_eq (by dsimp only; omega) (by dsimp only; omega))
    rw [add, this]
    simp [e5, e6]
  rw [had]
  refine Wp.bind (Wp.ret rfl) ?_
  rintro _ rfl
  refine Wp.bind (Wp.of_eq (show mod2m _ 384 = some _ from rfl) rfl) ?_
  rintro _ rfl
  simp only [mod2mW, Nat.reduceDiv, Nat.reduceMod, Nat.reduceLT, if_true, lt_irrefl, if_false, hz]
  refine (norm_wp ⟨?_, ?_, ?_, ?_, ?_, ?_, ?_⟩).mono ?_
  any_goals (dsimp only [Bd]; omega)
  rintro r ⟨nr, vr⟩
  refine ⟨nr, vr.trans ?_⟩
  simp only [val, e5, e6]
  omega

theorem invmod256_bound : ∀ i : Fin 128, 0 ≤ invmod256 (2 * i + 1) ∧ invmod256 (2 * i + 1) < 2 ^ 9 := by
  decide +kernel

/-- `invmod2m` inverts an odd number modulo `2^384`, but does not reduce the result to the last bit. -/
theorem invmod2m_wp {s : BIG} {a : Nat} (hs : Lim s (2 ^ 62)) (sv : s.val = a) (sa : a < 2 ^ 406) (ho : a % 2 = 1) :
    Wp (invmod2m s) fun r => r.Nrm ∧ 0 ≤ r.val ∧ r.val < 2 ^ 384 + 2 ^ 257 ∧ r.val * a ≡ 1 [ZMOD 2 ^ 384] := by
  unfold invmod2m
  refine Wp.bind (lastbits_wp hs (n := 8) (by norm_num)) ?_
  rintro ⟨l, s⟩ ⟨hl, ns, vs⟩
  dsimp only at hl ns vs ⊢
  rw [sv] at hl vs
  have hl2 : l = 2 * ((⟨a % 256 / 2, by omega⟩ : Fin 128) : Int) + 1 := by
    rw [hl]; push_cast; omega
  have hb := invmod256_bound ⟨a % 256 / 2, by omega⟩
  have hc := invmod256_spec ⟨a % 256 / 2, by omega⟩
  rw [← hl2] at hb hc
  generalize invmod256 l = x at hb hc
  refine Wp.bind (inc_wp (a := new) (by constructor <;> simp [new]) (by constructor <;> omega)) ?_
  rintro u ⟨vu, -, nu⟩
  have nu := nu (by constructor <;> simp [new]) (by simp [new]; omega) (by simp [new]; omega)
  rw [show new.val = 0 by simp [new, val], zero_add] at vu
  have hx : ((x.toNat : Nat) : Int) = x := Int.toNat_of_nonneg hb.1
  refine Wp.bind (inv2Step_wp (i := 8) (v := x.toNat) (by norm_num) ns vs sa
    ((nu.lim58 (by omega) (by omega)).mono (by norm_num)) (by omega) (by omega) ?_) ?_
  · rw [hx]
    have h1 : x * a ≡ x * l [ZMOD 2 ^ 8] := by rw [hl]; exact (Int.mod_modEq _ _).symm.mul_left x
    refine h1.trans ?_
    rw [mul_comm]
    exact hc
  rintro u ⟨nu, v, vu, v1, hv⟩
  refine Wp.bind (inv2Step_wp (i := 16) (by norm_num) ns vs sa nu vu v1 hv) ?_
  rintro u ⟨nu, v, vu, v1, hv⟩
  refine Wp.bind (inv2Step_wp (i := 32) (by norm_num) ns vs sa nu vu v1 hv) ?_
  rintro u ⟨nu, v, vu, v1, hv⟩
  refine Wp.bind (inv2Step_wp (i := 64) (by norm_num) ns vs sa nu vu v1 hv) ?_
  rintro u ⟨nu, v, vu, v1, hv⟩
  refine Wp.bind (inv2Step_wp (i := 128) (by norm_num) ns vs sa nu vu v1 hv) ?_
  rintro u ⟨nu, v, vu, v1, hv⟩
  norm_num only at v1 hv
  simp only [inv2Step_eq, Option.bind_eq_bind, Option.bind_assoc]
  refine Wp.bind (norm_wp nu) ?_
  rintro u' ⟨nu', vu'⟩
  rw [vu] at vu'
  refine Wp.bind (inv2Mid_wp (i := 256) (v := v) (by norm_num) ns vs sa nu' vu' (by omega) (by norm_num only; exact hv)) ?_
  rintro t ⟨nt, t0, t1, hx⟩
  have := inv2_last nu' (by omega) (by omega) nt
  simp only [Option.bind_eq_bind] at this
  refine this.mono ?_
  rintro r ⟨nr, vr⟩
  refine ⟨nr, by omega, by omega, ?_⟩
  have h3 := hx.of_dvd (pow_dvd_pow (2:Int) (show 384 ≤ 256 + min 256 (406 - 256) by norm_num))
  refine Int.ModEq.trans ?_ h3
  refine Int.ModEq.mul_right _ ?_
  rw [vr, vu']
  refine Int.ModEq.add_left _ ?_
  exact (Int.modEq_iff_dvd.2 ⟨t.val / 2 ^ 128, by omega⟩)

/-! ### `random` -/

open Rng

theorem random1Loop_wp {e : List UInt8} (i : Nat) : ∀ (n k : Nat) (j : Nat) (r : UInt8) (d : BIG) (g : RAND), k + n ≤ 384 →
    j = k % 8 → (j ≠ 0 → r.toNat = (byte e (i + k / 8)).toNat / 2 ^ (j - 1)) → RAND.Gen (sha256 e) (i + (k + 7) / 8) g →
    d.Nrm → d.val = (numberAt e i k : Int) →
    Wp (random1Loop n j r d g) fun q => q.1.Nrm ∧ q.1.val = (numberAt e i (k + n) : Int) ∧ RAND.Gen (sha256 e) (i + (k + n + 7) / 8) q.2
  | 0, k, j, r, d, g, _, _, _, hg, hd, hv => ⟨_, rfl, hd, hv, hg⟩
  | n + 1, k, j, r, d, g, hk, hj, hr, hg, hd, hv => by
    have tail : ∀ (r' : UInt8) (g' : RAND), r'.toNat = (byte e (i + k / 8)).toNat / 2 ^ j →
        RAND.Gen (sha256 e) (i + (k + 1 + 7) / 8) g' →
        Wp (do
          let d ← d.shlAny 1
          let w ← add64 d.w0 ((r' &&& 1).toNat : Int)
          random1Loop n ((j + 1) % 8) r' { d with w0 := w } g')
          fun q => q.1.Nrm ∧ q.1.val = (numberAt e i (k + (n + 1)) : Int) ∧ RAND.Gen (sha256 e) (i + (k + (n + 1) + 7) / 8) q.2 := by
      intro r' g' h1 h2
      have hlt : (numberAt e i k : Int) < 2 ^ 384 := by
        have := numberAt_lt e i k
        have h3 : 2 ^ k ≤ 2 ^ 384 := Nat.pow_le_pow_right (by norm_num) (by omega)
        have h4 : numberAt e i k < 2 ^ 384 := by omega
        exact_mod_cast h4
      refine Wp.bind (shlAny_wp hd (by omega) (k := 1) (by norm_num) (by omega)) ?_
      rintro d' ⟨nd, vd⟩
      have hb : (((r' &&& 1).toNat : Nat) : Int) = (Rng.bit e (8 * i + k) : Int) := by
        congr 1
        rw [UInt8.toNat_and]
        show r'.toNat &&& (2 ^ 1 - 1) = _
        rw [Nat.and_two_pow_sub_one_eq_mod, h1, Rng.bit, hj, show (8 * i + k) / 8 = i + k / 8 by omega,
          show (8 * i + k) % 8 = k % 8 by omega]
      have hbit : Rng.bit e (8 * i + k) < 2 := Nat.mod_lt _ (by norm_num)
      rw [hb]
      rw [hv] at vd
      have hev : d'.w0 % 2 = 0 := by
        simp only [val] at vd
        omega
      have h0 := nd.n0
      rw [add64_eq (by omega) (by omega)]
      simp only [Option.bind_eq_bind, Option.bind_some]
      have := random1Loop_wp i n (k + 1) ((j + 1) % 8) r' { d' with w0 := d'.w0 + Rng.bit e (8 * i + k) } g' (by omega)
        (by omega) ?_ h2 ?_ ?_
      · rwa [show k + 1 + n = k + (n + 1) by omega] at this
      · intro hne
        rw [h1]
        congr 2
        · congr 1
          omega
        · omega
      · obtain ⟨n0, n1, n2, n3, n4, n5⟩ := nd
        refine ⟨?_, n1, n2, n3, n4, n5⟩
        show 0 ≤ d'.w0 + Rng.bit e (8 * i + k) ∧ d'.w0 + Rng.bit e (8 * i + k) < 2 ^ 58
        omega
      · rw [numberAt]
        simp only [val] at vd ⊢
        push_cast
        omega
    rw [random1Loop]
    by_cases h0 : j = 0
    · rw [if_pos h0]
      refine Wp.bind (RAND.getbyte_wp hg) ?_
      rintro ⟨r', g'⟩ ⟨h1, h2⟩
      dsimp only at h1 h2
      refine tail r' g' ?_ ?_
      · rw [h1, h0, pow_zero, Nat.div_one]
        congr 2
        omega
      · rwa [show i + (k + 7) / 8 + 1 = i + (k + 1 + 7) / 8 by omega] at h2
    · rw [if_neg h0]
      refine tail (r >>> 1) g ?_ ?_
      · rw [UInt8.toNat_shiftRight, hr h0]
        show (_ / _) >>> 1 = _
        rw [Nat.shiftRight_eq_div_pow, Nat.div_div_eq_div_mul, ← pow_add, show j - 1 + 1 = j by omega]
      · rwa [show (k + 7) / 8 = (k + 1 + 7) / 8 by omega] at hg

theorem random_wp {e : List UInt8} {i : Nat} {g : RAND} (hg : RAND.Gen (sha256 e) i g) :
    Wp (random g) fun q => q.1.Nrm ∧ q.1.val = (numberAt e i 384 : Int) ∧ RAND.Gen (sha256 e) (i + 48) q.2 := by
  have := random1Loop_wp (e := e) i 384 0 0 0 new g (by norm_num) rfl (by simp) (by simpa using hg)
    (by constructor <;> simp [new]) (by simp [new, val, numberAt])
  simpa [random] using this

end BIG
namespace DBIG

/-- The limbs moved down by `m`. -/
def wordShr (d : DBIG) (m : Nat) : DBIG :=
  ⟨⟨d.limb m, d.limb (m + 1), d.limb (m + 2), d.limb (m + 3), d.limb (m + 4), d.limb (m + 5), d.limb (m + 6)⟩,
   ⟨d.limb (m + 7), d.limb (m + 8), d.limb (m + 9), d.limb (m + 10), d.limb (m + 11), d.limb (m + 12),
    d.limb (m + 13)⟩⟩

theorem Nrm.top_range {d : DBIG} (h : Nrm d) (h0 : 0 ≤ d.val) (h1 : d.val < 2 ^ 812) :
    0 ≤ d.hi.w6 ∧ d.hi.w6 < 2 ^ 58 := by
  have := h.top
  omega

/-- The number made of the lowest `k` limbs. -/
def low (d : DBIG) : Nat → Nat
  | 0 => 0
  | k + 1 => low d k + (d.limb k).toNat * 2 ^ (58 * k)

theorem low_lt {d : DBIG} (h : ∀ j < 14, 0 ≤ d.limb j ∧ d.limb j < 2 ^ 58) : ∀ k ≤ 14, low d k < 2 ^ (58 * k)
  | 0, _ => by simp [low]
  | k + 1, hk => by
    have ih := low_lt h k (by omega)
    have := h k (by omega)
    have e : (2:Nat) ^ (58 * (k + 1)) = 2 ^ 58 * 2 ^ (58 * k) := by rw [← pow_add]; congr 1; ring
    have hx : (d.limb k).toNat + 1 ≤ 2 ^ 58 := by omega
    have := Nat.mul_le_mul_right (2 ^ (58 * k)) hx
    rw [low, e]
    linarith

theorem nbitsFrom_eq {d : DBIG} (h : ∀ j < 14, 0 ≤ d.limb j ∧ d.limb j < 2 ^ 58) :
    ∀ k < 14, nbitsFrom d k = Nat.size (low d (k + 1))
  | 0, _ => by
    have h0 := h 0 (by norm_num)
    rw [nbitsFrom, low, low]
    split
    · rw [BIG.bitLen_eq 64 _ h0.1 (by omega)]; simp
    · next e => rw [not_not] at e; simp [e]
  | k + 1, hk => by
    have h0 := h (k + 1) hk
    rw [nbitsFrom, low]
    split
    · rw [BIG.bitLen_eq 64 _ h0.1 (by omega), BIG.size_top (low_lt h _ (by omega)) (by omega)]
    · next e =>
      rw [not_not] at e
      rw [nbitsFrom_eq h k (by omega), e]
      simp

theorem limbs {d : DBIG} (h : Nrm d) (h0 : 0 ≤ d.val) (h1 : d.val < 2 ^ 812) :
    ∀ j < 14, 0 ≤ d.limb j ∧ d.limb j < 2 ^ 58 := by
  have h6 := h.top_range h0 h1
  obtain ⟨⟨g0, g1, g2, g3, g4, g5⟩, g6, ⟨g7, g8, g9, g10, g11, g12⟩⟩ := h
  intro j hj
  interval_cases j <;> simp only [limb, BIG.limb, Nat.reduceLT, if_true, if_false, Nat.reduceSub] <;> assumption

theorem low_val {d : DBIG} (h : Nrm d) (h0 : 0 ≤ d.val) (h1 : d.val < 2 ^ 812) : (low d 14 : Int) = d.val := by
  have l := limbs h h0 h1
  have e : ∀ j < 14, ((d.limb j).toNat : Int) = d.limb j := fun j hj => Int.toNat_of_nonneg (l j hj).1
  simp only [low]
  push_cast
  rw [e 0 (by norm_num), e 1 (by norm_num), e 2 (by norm_num), e 3 (by norm_num), e 4 (by norm_num),
    e 5 (by norm_num), e 6 (by norm_num), e 7 (by norm_num), e 8 (by norm_num), e 9 (by norm_num),
    e 10 (by norm_num), e 11 (by norm_num), e 12 (by norm_num), e 13 (by norm_num)]
  simp only [limb, BIG.limb, Nat.reduceLT, if_true, if_false, Nat.reduceSub, val, BIG.val]
  ring

theorem limb_zero (d : DBIG) {j : Nat} (hj : 14 ≤ j) : d.limb j = 0 := by
  obtain ⟨k, rfl⟩ := Nat.exists_eq_add_of_le hj
  rw [limb, if_neg (by omega), show 14 + k - 7 = k + 7 by omega]
  rfl

theorem wordShr_spec {d : DBIG} (h : Nrm d) (h0 : 0 ≤ d.val) (h1 : d.val < 2 ^ 812) {m : Nat} (hm : m ≤ 13) :
    Nrm (wordShr d m) ∧ (wordShr d m).val = d.val / 2 ^ (58 * m) := by
  have l := limbs h h0 h1
  have l' : ∀ j, 0 ≤ d.limb j ∧ d.limb j < 2 ^ 58 := fun j => by
    by_cases hj : j < 14
    · exact l j hj
    · rw [limb_zero d (by omega)]; norm_num
  refine ⟨⟨⟨l' m, l' (m + 1), l' (m + 2), l' (m + 3), l' (m + 4), l' (m + 5)⟩, l' (m + 6),
    ⟨l' (m + 7), l' (m + 8), l' (m + 9), l' (m + 10), l' (m + 11), l' (m + 12)⟩⟩, ?_⟩
  have hl : (low d m : Int) < 2 ^ (58 * m) := by exact_mod_cast low_lt l m (by omega)
  have e : ∀ j < 14, ((d.limb j).toNat : Int) = d.limb j := fun j hj => Int.toNat_of_nonneg (l j hj).1
  have key : d.val = low d m + 2 ^ (58 * m) * (wordShr d m).val := by
    rw [← low_val h h0 h1]
    clear hl h h0 h1 l l'
    interval_cases m <;> simp only [low, wordShr, val, BIG.val, Nat.reduceAdd, Nat.reduceLeDiff, limb_zero, Nat.cast_add,
        Nat.cast_mul, Nat.cast_pow, Nat.cast_zero, Nat.cast_ofNat] <;>
      rw [e 0 (by norm_num), e 1 (by norm_num), e 2 (by norm_num), e 3 (by norm_num), e 4 (by norm_num),
        e 5 (by norm_num), e 6 (by norm_num), e 7 (by norm_num), e 8 (by norm_num), e 9 (by norm_num),
        e 10 (by norm_num), e 11 (by norm_num), e 12 (by norm_num), e 13 (by norm_num)] <;> ring
  rw [key, Int.add_mul_ediv_left _ _ (by positivity), Int.ediv_eq_zero_of_lt (by positivity) hl, zero_add]

theorem shrAny_eq {d : DBIG} (h : Nrm d) (h0 : 0 ≤ d.val) (h1 : d.val < 2 ^ 812) {k : Nat} (hk : k < 812) :
    shrAny d k = shr (wordShr d (k / 58)) (k % 58) := by
  have h6 := h.top_range h0 h1
  have hm : k / 58 ≤ 13 := by omega
  have e6 : ∀ n, BIG.fshrW n d.hi.w6 0 = sar d.hi.w6 n := fun n => BIG.fshrW_zero (by omega) (by omega)
  have e0 : ∀ n, BIG.fshrW n 0 0 = 0 := fun n => by rw [BIG.fshrW_zero (by omega) (by omega)]; simp [sar]
  have s0 : ∀ n, sar 0 n = 0 := fun n => by simp [sar]
  unfold shrAny
  rw [if_neg (by omega)]
  have hn : k % 58 < 58 := by omega
  generalize k % 58 = n at hn
  generalize k / 58 = m at hm
  interval_cases m <;> simp [shrAnyW, shr, wordShr, limb, BIG.limb, e6, e0, s0, hn]

theorem shrAny_wp {d : DBIG} (h : Nrm d) (h0 : 0 ≤ d.val) (h1 : d.val < 2 ^ 812) {k : Nat} (hk : k < 812) :
    Wp (shrAny d k) fun r => Nrm r ∧ r.val = d.val / 2 ^ k := by
  obtain ⟨hn, hv⟩ := wordShr_spec h h0 h1 (m := k / 58) (by omega)
  rw [shrAny_eq h h0 h1 hk]
  refine (shr_wp hn (k := k % 58) (by omega)).mono ?_
  rintro r ⟨h2, h3⟩
  refine ⟨h2, ?_⟩
  rw [h3, hv, Int.ediv_ediv_of_nonneg (by positivity), ← pow_add, show 58 * (k / 58) + k % 58 = k by omega]

theorem nbits_wp {d : DBIG} (hd : Lim d (2 ^ 62)) (h0 : 0 ≤ d.val) (h1 : d.val < 2 ^ 812) :
    Wp (nbits d) fun r => r.1 = Nat.size d.val.toNat ∧ r.2.Nrm ∧ r.2.val = d.val := by
  unfold nbits
  refine Wp.bind (norm_wp hd) ?_
  rintro d' ⟨nd, vd⟩
  refine Wp.ret ⟨?_, nd, vd⟩
  rw [← vd] at h0 h1 ⊢
  rw [nbitsFrom_eq (limbs nd h0 h1) 13 (by norm_num), ← low_val nd h0 h1, Int.toNat_natCast]

theorem to_stringLoop_wp {d : DBIG} (h : Nrm d) {v : Nat} (hv : d.val = v) (h1 : v < 2 ^ 812) (n : Nat)
    (hn : 4 * n ≤ 812) : ∀ s, to_stringLoop d n s = some (s ++ toHex n v) := by
  induction n with
  | zero => intro s; simp [to_stringLoop, toHex]
  | succ n ih =>
    intro s
    obtain ⟨b, e, hb, vb⟩ := shrAny_wp h (by omega) (by omega) (k := n * 4) (by omega)
    have hd : and64 b.lo.w0 15 = ((v / 16 ^ n % 16 : Nat) : Int) := by
      have e := and64_mask (show 4 < 64 by norm_num) b.lo.w0
      have e2 : (2:Int) ^ (n * 4) = ((16 ^ n : Nat) : Int) := by
        rw [mul_comm, pow_mul]; push_cast; norm_num
      rw [hv, e2, ← Int.natCast_ediv] at vb
      norm_num at e
      rw [e]
      simp only [val, BIG.val] at vb
      omega
    have hu := BIG.upperHex_eq ⟨v / 16 ^ n % 16, Nat.mod_lt _ (by norm_num)⟩
    rw [to_stringLoop, e]
    simp only [Option.bind_eq_bind, Option.bind_some]
    rw [ih (by omega), hd, hu, toHex_succ, List.append_assoc]
    rfl

theorem to_string_eq {d : DBIG} (hd : Lim d (2 ^ 62)) {v : Nat} (hv : d.val = v) (h1 : v < 2 ^ 812) :
    d.to_string = some (toHex ((Nat.size v + 3) / 4) v) := by
  obtain ⟨⟨n, d'⟩, e, hn, nd, vd⟩ := nbits_wp hd (by omega) (by omega)
  have hs : Nat.size v ≤ 812 := Nat.size_le.2 h1
  rw [to_string, e]
  simp only [Option.bind_eq_bind, Option.bind_some]
  rw [hv, Int.toNat_natCast] at hn
  dsimp only at hn vd nd
  have hl : (if n % 4 = 0 then n / 4 else n / 4 + 1) = (Nat.size v + 3) / 4 := by
    split_ifs <;> omega
  rw [hl, to_stringLoop_wp nd (vd.trans hv) h1 _ (by omega), List.nil_append]

theorem split_spec {d : DBIG} (h : Nrm d) (h0 : 0 ≤ d.val) {n : Nat} (hn : 348 ≤ n ∧ n < 406)
    (h1 : d.val < 2 ^ (n + 406)) :
    (split d n).1.Nrm ∧ (split d n).1.val = d.val / 2 ^ n ∧ (split d n).2.lo.Nrm ∧
      (split d n).2.lo.val = d.val % 2 ^ n ∧ (split d n).2.hi = d.hi := by
  obtain ⟨m, rfl⟩ : ∃ m, n = 348 + m := ⟨n - 348, by omega⟩
  have hm : m < 58 := by omega
  have em : (348 + m) % 58 = m := by omega
  have hp : (0:Int) < 2 ^ m := by positivity
  have hp2 : (2:Int) ^ 58 = 2 ^ (58 - m) * 2 ^ m := by rw [← pow_add]; congr 1; omega
  have hp3 : (0:Int) < 2 ^ (58 - m) := by positivity
  have ht : 0 ≤ d.hi.w6 ∧ d.hi.w6 < 2 ^ m := by
    rw [h.top]
    refine ⟨by positivity, ?_⟩
    rw [Int.ediv_lt_iff_lt_mul (by norm_num), ← pow_add, show m + 754 = 348 + m + 406 by omega]
    exact h1
  have hs : shl64 d.hi.w6 (58 - m) = d.hi.w6 * 2 ^ (58 - m) := by
    rw [shl64_eq]
    · have : 0 ≤ d.hi.w6 * 2 ^ (58 - m) := by have := ht.1; positivity
      omega
    · nlinarith
  have hs2 : and64 (shl64 d.hi.w6 (58 - m)) BMASK = shl64 d.hi.w6 (58 - m) := by
    rw [BMASK_eq, and64_mask (by norm_num), hs, Int.emod_eq_of_lt]
    · have := ht.1; positivity
    · nlinarith
  obtain ⟨r, hr, nr, vr⟩ := shr_wp h hm
  have hr' := hr
  rw [shr, if_pos hm, Option.some.injEq] at hr'
  have e13 : r.hi.w6 = 0 := by
    rw [← hr']
    show sar d.hi.w6 m = 0
    rw [sar]
    exact Int.ediv_eq_zero_of_lt ht.1 ht.2
  have et : (split d (348 + m)).1 = ⟨r.lo.w6, r.hi.w0, r.hi.w1, r.hi.w2, r.hi.w3, r.hi.w4, r.hi.w5⟩ := by
    rw [← hr']
    simp [split, em, splitW, limb, BIG.limb, BIG.fshrW, hs2]
  obtain ⟨q, hq, nq, vq⟩ := BIG.mod2m_wp h.lo (m := 348 + m) (by omega)
  have e6 : (348 + m) / 58 = 6 := by omega
  have eq : (split d (348 + m)).2.lo = q := by
    rw [BIG.mod2m, if_neg (by omega), Option.some.injEq] at hq
    rw [← hq]
    simp [split, em, e6, BIG.mod2mW]
  have evq : q.val = d.val % 2 ^ (348 + m) := by
    have hd : (2:Int) ^ (348 + m) ∣ 2 ^ 406 := pow_dvd_pow 2 (by omega)
    rw [vq, val, ← Int.emod_emod_of_dvd (d.lo.val + d.hi.val * 2 ^ 406) hd, Int.add_mul_emod_self_right,
      Int.emod_emod_of_dvd _ hd]
  refine ⟨?_, ?_, eq ▸ nq, eq ▸ evq, rfl⟩
  · rw [et]
    obtain ⟨⟨g0, g1, g2, g3, g4, g5⟩, g6, ⟨g7, g8, g9, g10, g11, g12⟩⟩ := nr
    exact ⟨g6, g7, g8, g9, g10, g11⟩
  · rw [pow_add, mul_comm, ← Int.ediv_ediv_of_nonneg hp.le, ← vr, et]
    obtain ⟨⟨g0, g1, g2, g3, g4, g5⟩, g6, ⟨g7, g8, g9, g10, g11, g12⟩⟩ := nr
    simp only [val, BIG.val, e13]
    omega

end DBIG

end Amcl
