import Verif.Proof.Secp.BigWords
import Verif.Proof.Secp.Codec1
import Verif.Proof.Secp.Rng
import Verif.Proof.BigRest
import Verif.Proof.BigOr
import Verif.Spec.Hex
/-!
# Proofs about the rest of `secp256k1/big.rs` and `dbig.rs`, and about the printed forms
-/

set_option exponentiation.threshold 2000

namespace Amcl.Secp

open Spec
open Amcl.BIG (or64_zero upperHex_eq inv2_math and64_or or64_range)

namespace BIG

/-- The digits moved down by `m`. -/
def wordShr (a : BIG) (m : Nat) : BIG :=
  ⟨a.digit m, a.digit (m + 1), a.digit (m + 2), a.digit (m + 3), a.digit (m + 4)⟩

theorem wordShr_spec {a : BIG} (h : Nrm a) (h0 : 0 ≤ a.val) (h1 : a.val < 2 ^ 280) {m : Nat} (hm : m ≤ 4) :
    Nrm (wordShr a m) ∧ (wordShr a m).val = a.val / 2 ^ (56 * m) := by
  have h6 := h.top (B := 2 ^ 56) h0 (by omega)
  obtain ⟨g0, g1, g2, g3⟩ := h
  interval_cases m <;> (refine ⟨?_, ?_⟩ <;> [constructor; skip]) <;>
    simp only [wordShr, digit, val] <;> omega

theorem fshrW_zero {n : Nat} {x : Int} (h1 : 0 ≤ x) (h2 : x < 2 ^ 63) : fshrW n x 0 = sar x n := by
  have e : and64 (shl64 0 (56 - n)) BMASK = 0 := by simp [shl64, and64]
  rw [fshrW, e]
  have hs : 0 ≤ sar x n ∧ sar x n ≤ x := by
    rw [sar]
    exact ⟨Int.ediv_nonneg h1 (by positivity), Int.ediv_le_self _ h1⟩
  exact or64_zero (by omega) (by omega)

theorem shrAny_eq {a : BIG} (h : Nrm a) (h0 : 0 ≤ a.val) (h1 : a.val < 2 ^ 280) {k : Nat} (hk : k < 280) :
    shrAny a k = fshr (wordShr a (k / 56)) (k % 56) := by
  have h6 := h.top (B := 2 ^ 56) h0 (by omega)
  have hm : k / 56 ≤ 4 := by omega
  have e6 : ∀ n, fshrW n a.w4 0 = sar a.w4 n := fun n => fshrW_zero (by omega) (by omega)
  have e0 : ∀ n, fshrW n 0 0 = 0 := fun n => by rw [fshrW_zero (by omega) (by omega)]; simp [sar]
  have s0 : ∀ n, sar 0 n = 0 := fun n => by simp [sar]
  unfold shrAny
  rw [if_neg (by omega)]
  have hn : k % 56 ≤ 56 := by omega
  generalize k % 56 = n at hn
  generalize k / 56 = m at hm
  interval_cases m <;> simp [shrAnyW, fshr, wordShr, digit, e6, e0, s0, hn]

theorem shrAny_wp {a : BIG} (h : Nrm a) (h0 : 0 ≤ a.val) (h1 : a.val < 2 ^ 280) {k : Nat} (hk : k < 280) :
    Wp (shrAny a k) fun r => Nrm r ∧ r.val = a.val / 2 ^ k := by
  obtain ⟨hn, hv⟩ := wordShr_spec h h0 h1 (m := k / 56) (by omega)
  rw [shrAny_eq h h0 h1 hk]
  refine (fshr_wp hn (k := k % 56) (by omega)).mono ?_
  rintro r ⟨h2, h3⟩
  refine ⟨h2, ?_⟩
  rw [h3, hv, Int.ediv_ediv_of_nonneg (by positivity), ← pow_add, show 56 * (k / 56) + k % 56 = k by omega]

theorem tostringLoop_wp {a : BIG} (h : Nrm a) {v : Nat} (hv : a.val = v) (h1 : v < 2 ^ 280) (n : Nat)
    (hn : 4 * n ≤ 280) : ∀ s, tostringLoop a n s = some (s ++ toHex n v) := by
  induction n with
  | zero => intro s; simp [tostringLoop, toHex]
  | succ n ih =>
    intro s
    obtain ⟨b, e, hb, vb⟩ := shrAny_wp h (by omega) (by omega) (k := n * 4) (by omega)
    have hd : and64 b.w0 15 = ((v / 16 ^ n % 16 : Nat) : Int) := by
      have e := and64_mask (show 4 < 64 by norm_num) b.w0
      have e2 : (2:Int) ^ (n * 4) = ((16 ^ n : Nat) : Int) := by
        rw [mul_comm, pow_mul]; push_cast; norm_num
      rw [hv, e2, ← Int.natCast_ediv] at vb
      have := hb.w0_eq
      norm_num at e
      rw [e]
      omega
    have hu := upperHex_eq ⟨v / 16 ^ n % 16, Nat.mod_lt _ (by norm_num)⟩
    rw [tostringLoop, e]
    simp only [Option.bind_eq_bind, Option.bind_some]
    rw [ih (by omega), hd, hu, toHex_succ, List.append_assoc]
    rfl

theorem tostring_eq {a : BIG} (h : Nrm a) {v : Nat} (hv : a.val = v) (h1 : v < 2 ^ 280) :
    a.tostring = some (toHex (max 64 ((Nat.size v + 3) / 4)) v) := by
  obtain ⟨n, e, hn⟩ := nbits_wp (h.lim56 (by omega) (by omega) |>.mono (by norm_num)) (by omega)
  have hs : Nat.size v ≤ 280 := Nat.size_le.2 h1
  rw [tostring, e]
  simp only [Option.bind_eq_bind, Option.bind_some]
  rw [hv, Int.toNat_natCast] at hn
  have hl : (if (if n % 4 = 0 then n / 4 else n / 4 + 1) < 64 then 64
      else if n % 4 = 0 then n / 4 else n / 4 + 1) = max 64 ((Nat.size v + 3) / 4) := by
    split_ifs <;> omega
  rw [hl, tostringLoop_wp h hv h1 _ (by omega), List.nil_append]

theorem tostring_256 {a : BIG} (h : Nrm a) {v : Nat} (hv : a.val = v) (h1 : v < 2 ^ 256) :
    a.tostring = some (hexOf (toBE 32 v)) := by
  have hs : Nat.size v ≤ 256 := Nat.size_le.2 h1
  rw [tostring_eq h hv (by omega), max_eq_left (by omega), ← toHex_eq]

/-! ### Shifts to the left -/

/-- The digits moved up by `m`. -/
def wordShl (a : BIG) (m : Nat) : BIG :=
  let g := fun i => if i < m then 0 else a.digit (i - m)
  ⟨g 0, g 1, g 2, g 3, g 4⟩

theorem wordShl_spec {a : BIG} (h : Nrm a) (h0 : 0 ≤ a.val) {m : Nat} (hm : m ≤ 3)
    (h1 : a.val * 2 ^ (56 * m) < 2 ^ 280) :
    Nrm (wordShl a m) ∧ (wordShl a m).val = a.val * 2 ^ (56 * m) := by
  have h6 : 0 ≤ a.w4 := by rw [h.w4_eq]; positivity
  obtain ⟨g0, g1, g2, g3⟩ := h
  interval_cases m <;> (refine ⟨?_, ?_⟩ <;> [constructor; skip]) <;>
    simp [wordShl, digit, val] at * <;> omega

theorem fshlW_zero {n : Nat} (hn : n ≤ 56) (x : Int) : fshlW n x 0 = and64 (shl64 x n) BMASK := by
  have e : sar 0 (56 - n) = 0 := by simp [sar]
  have hm : and64 (shl64 x n) BMASK = shl64 x n % 2 ^ 56 := by rw [BMASK_eq, and64_mask (by norm_num)]
  rw [fshlW, e]
  exact or64_zero (by omega) (by omega)

theorem shl_eq {a : BIG} {k : Nat} (hk : k < 224) :
    shl a k = fshl (wordShl a (k / 56)) (k % 56) := by
  have hm : k / 56 ≤ 3 := by omega
  have hn : k % 56 ≤ 56 := by omega
  unfold shl
  rw [if_neg (by omega)]
  generalize k % 56 = n at hn
  generalize k / 56 = m at hm
  have s0 : ∀ n, and64 (shl64 0 n) BMASK = 0 := fun n => by simp [shl64, and64]
  have s1 : ∀ x, or64 (and64 (shl64 x n) BMASK) (sar 0 (56 - n)) = and64 (shl64 x n) BMASK := fshlW_zero hn
  have s2 : or64 0 (sar 0 (56 - n)) = 0 := by have := s1 0; rwa [s0] at this
  interval_cases m <;> simp [shlW, fshl, fshlW, wordShl, digit, limb, hn, s1, s0, s2]

theorem shl_wp {a : BIG} (h : Nrm a) (h0 : 0 ≤ a.val) {k : Nat} (hk : k < 224) (h1 : a.val * 2 ^ k < 2 ^ 280) :
    Wp (shl a k) fun r => Nrm r ∧ r.val = a.val * 2 ^ k := by
  have hp : (2:Int) ^ k = 2 ^ (56 * (k / 56)) * 2 ^ (k % 56) := by
    rw [← pow_add, show 56 * (k / 56) + k % 56 = k by omega]
  have hq : (1:Int) ≤ 2 ^ (k % 56) := one_le_pow₀ (by norm_num)
  have h2 : a.val * 2 ^ (56 * (k / 56)) < 2 ^ 280 := by
    refine lt_of_le_of_lt ?_ h1
    rw [hp]
    have : 0 ≤ a.val * 2 ^ (56 * (k / 56)) := by positivity
    nlinarith
  obtain ⟨hn, hv⟩ := wordShl_spec h h0 (m := k / 56) (by omega) h2
  rw [shl_eq hk]
  have hw : 0 ≤ (wordShl a (k / 56)).val := by rw [hv]; positivity
  have h6 := hn.top (B := 2 ^ 56) hw (by rw [hv]; omega)
  have hle : (wordShl a (k / 56)).w4 * 2 ^ 224 ≤ (wordShl a (k / 56)).val := by
    obtain ⟨g0, g1, g2, g3⟩ := hn
    simp only [val]; omega
  rw [hp, ← mul_assoc, ← hv] at h1
  refine (fshl_wp hn (k := k % 56) (by omega) h6.1 ?_).mono ?_
  · nlinarith
  · rintro r ⟨h3, h4⟩
    exact ⟨h3, by rw [h4, hv, mul_assoc, ← hp]⟩

/-- The same when the number moves into the top limb alone, where line 261 writes last. -/
theorem shl_top {a : BIG} (h : Nrm a) (h0 : 0 ≤ a.val) {k : Nat} (hk : 224 ≤ k ∧ k < 280) (h1 : a.val * 2 ^ k < 2 ^ 280) :
    Wp (shl a k) fun r => Nrm r ∧ r.val = a.val * 2 ^ k := by
  obtain ⟨n, rfl⟩ : ∃ n, k = 224 + n := ⟨k - 224, by omega⟩
  have hn : n < 56 := by omega
  have hp : (0:Int) < 2 ^ n := by positivity
  rw [pow_add] at h1 ⊢
  have hv : a.val * 2 ^ n < 2 ^ 56 := by nlinarith
  have hs : a.val < 2 ^ 56 := by nlinarith
  have e6 : a.w4 = 0 := by rw [h.w4_eq]; omega
  have e : a.val = a.w0 := by
    obtain ⟨g0, g1, g2, g3⟩ := h
    simp only [val] at h0 hs ⊢
    omega
  have hw : 0 ≤ a.w0 * 2 ^ n := by rw [← e]; positivity
  have hm : and64 (shl64 a.w0 n) BMASK = a.w0 * 2 ^ n := by
    rw [BMASK_eq, shl64_mask (by norm_num), Int.emod_eq_of_lt hw (by rw [← e]; exact hv)]
  refine ⟨⟨0, 0, 0, 0, a.w0 * 2 ^ n⟩, ?_, by constructor <;> norm_num, ?_⟩
  · unfold shl
    rw [show (224 + n) % 56 = n by omega, show (224 + n) / 56 = 4 by omega]
    simp [shlW, hm]
  · rw [e]; simp only [val]; ring

/-! ### `invmod2m` -/

/-- Everything in a round up to the last shift: the number `t` that is shifted and added. -/
def inv2Mid (s u : BIG) (i : Nat) : Option BIG := do
  let b ← s.mod2m i
  let t1 ← smul u b
  let t1 ← t1.shrAny i
  let c ← s.shrAny i
  let c ← c.mod2m i
  let t2 ← smul u c
  let t2 ← t2.mod2m i
  let t1 ← t1.add t2
  let t1 ← t1.norm
  let b ← smul t1 u
  let t1 ← b.mod2m i
  let t2 ← (new_int 1).shl i
  let t1 ← t1.rsub t2
  t1.norm

theorem inv2Step_eq (s u : BIG) (i : Nat) : inv2Step s u i = (do
    let u ← u.norm
    let t ← inv2Mid s u i
    let t ← t.shl i
    u.add t) := by
  simp only [inv2Step, inv2Mid, Option.bind_eq_bind, Option.bind_assoc]

theorem inv2Mid_wp {s u : BIG} {a v i : Nat} (hi : 8 ≤ i ∧ i ≤ 128) (hs : s.Nrm) (sv : s.val = a) (sa : a < 2 ^ 280)
    (hu : u.Nrm) (uv : u.val = v) (v1 : v < 2 ^ (i + 1)) (hm : (v * a : Int) ≡ 1 [ZMOD 2 ^ i]) :
    Wp (inv2Mid s u i) fun t => t.Nrm ∧ 0 ≤ t.val ∧ t.val ≤ 2 ^ i ∧
      ((v + 2 ^ i * t.val) * a : Int) ≡ 1 [ZMOD 2 ^ (i + min i (280 - i))] := by
  have hp0 : (0:Int) < 2 ^ i := by positivity
  have hp1 : (2:Int) ^ i ≤ 2 ^ 128 := pow_le_pow_right₀ (by norm_num) hi.2
  have hp2 : (2:Int) ^ 8 ≤ 2 ^ i := pow_le_pow_right₀ (by norm_num) hi.1
  have hv1 : (v:Int) < 2 * 2 ^ i := by rw [← pow_succ']; exact_mod_cast v1
  have hd : (2:Int) ^ i ∣ 2 ^ 280 := pow_dvd_pow 2 (by omega)
  unfold inv2Mid
  refine Wp.bind (mod2m_wp hs (m := i) (by omega)) ?_
  rintro b ⟨nb, vb⟩
  rw [sv] at vb
  have b0 := Int.emod_nonneg (a:Int) hp0.ne'
  have b1 := Int.emod_lt_of_pos (a:Int) hp0
  refine Wp.bind (smul_wp hu (by omega) (by omega) nb (by omega) (by omega)) ?_
  rintro p ⟨np, vp⟩
  rw [uv, vb] at vp
  refine Wp.bind (shrAny_wp np (by omega) (by omega) (k := i) (by omega)) ?_
  rintro t1 ⟨n1, w1⟩
  refine Wp.bind (shrAny_wp hs (by omega) (by omega) (k := i) (by omega)) ?_
  rintro c ⟨nc, vc⟩
  refine Wp.bind (mod2m_wp nc (m := i) (by omega)) ?_
  rintro c' ⟨nc', vc'⟩
  rw [vc, sv] at vc'
  have c0 := Int.emod_nonneg ((a:Int) / 2 ^ i) hp0.ne'
  have c1 := Int.emod_lt_of_pos ((a:Int) / 2 ^ i) hp0
  refine Wp.bind (smul_wp hu (by omega) (by omega) nc' (by omega) (by omega)) ?_
  rintro q ⟨nq, vq⟩
  refine Wp.bind (mod2m_wp nq (m := i) (by omega)) ?_
  rintro t2 ⟨n2, w2⟩
  have d0 := Int.emod_nonneg q.val hp0.ne'
  have d1 := Int.emod_lt_of_pos q.val hp0
  have k0 : 0 ≤ t1.val := by rw [w1]; exact Int.ediv_nonneg (by omega) hp0.le
  have k1 : t1.val < 2 ^ 272 := by
    rw [w1, Int.ediv_lt_iff_lt_mul hp0]
    have : p.val < 2 ^ 280 := by omega
    nlinarith
  refine Wp.bind (add_wp (n1.lim56 k0 (by omega)) (n2.lim56 (by omega) (by omega)) (by norm_num)) ?_
  rintro s1 ⟨l1, x1⟩
  refine Wp.bind (norm_wp (l1.mono (by norm_num))) ?_
  rintro s2 ⟨m2, x2⟩
  refine Wp.bind (smul_wp m2 (by omega) (by omega) hu (by omega) (by omega)) ?_
  rintro z ⟨nz, vz⟩
  refine Wp.bind (mod2m_wp nz (m := i) (by omega)) ?_
  rintro y ⟨ny, vy⟩
  have y0 := Int.emod_nonneg z.val hp0.ne'
  have y1 := Int.emod_lt_of_pos z.val hp0
  refine Wp.bind (shl_wp (new_int_nrm (x := 1) (by norm_num) (by norm_num)) (by rw [new_int_val]; norm_num) (k := i)
    (by omega) (by rw [new_int_val]; omega)) ?_
  rintro o ⟨no, vo⟩
  rw [new_int_val, one_mul] at vo
  refine Wp.bind (rsub_wp (ny.lim56 (by omega) (by omega)) (no.lim56 (by omega) (by omega)) (by norm_num)) ?_
  rintro r ⟨lr, vr⟩
  refine (norm_wp (lr.mono (by norm_num))).mono ?_
  rintro t ⟨nt, vt⟩
  refine ⟨nt, by omega, by omega, ?_⟩
  have hM : min i (280 - i) ≤ i := min_le_left _ _
  have hM2 : i + min i (280 - i) ≤ 280 := by omega
  have dM : (2:Int) ^ min i (280 - i) ∣ 2 ^ i := pow_dvd_pow 2 hM
  have d4 : (2:Int) ^ (i + min i (280 - i)) ∣ 2 ^ 280 := pow_dvd_pow 2 hM2
  refine inv2_math hM hm (k := t1.val) (t2 := t2.val) ?_ ?_ ?_
  · have e1 : p.val % 2 ^ i = 1 := by
      rw [vp, Int.emod_emod_of_dvd _ hd]
      have : (v * (a % 2 ^ i) : Int) ≡ 1 [ZMOD 2 ^ i] :=
        ((Int.mod_modEq (a:Int) (2 ^ i)).mul_left v).trans hm
      rw [this, Int.emod_eq_of_lt (by norm_num) (by omega)]
    have e2 : p.val = 1 + 2 ^ i * t1.val := by
      rw [w1, ← e1, Int.emod_add_mul_ediv]
    rw [← e2, vp]
    exact ((Int.mod_modEq _ _).of_dvd d4).symm
  · rw [w2, vq, uv, vc']
    refine ((Int.mod_modEq _ _).of_dvd dM).trans ?_
    refine ((Int.mod_modEq _ _).of_dvd (dM.trans hd)).trans ?_
    exact ((Int.mod_modEq _ _).of_dvd dM).mul_left v
  · rw [vt, vr, vo, vy, vz, x2, x1, uv]
    have h1 : ((t1.val + t2.val) * v : Int) % 2 ^ 280 % 2 ^ i ≡ (t1.val + t2.val) * v [ZMOD 2 ^ min i (280 - i)] :=
      ((Int.mod_modEq _ _).of_dvd dM).trans ((Int.mod_modEq _ _).of_dvd (dM.trans hd))
    have h2 := (Int.modEq_zero_iff_dvd.2 dM).sub h1
    rwa [zero_sub] at h2

/-- The limbs of a sum of two normalised numbers, not yet carried. -/
structure Wide (r : BIG) : Prop where
  h0 : 0 ≤ r.w0 ∧ r.w0 < 2 ^ 57
  h1 : 0 ≤ r.w1 ∧ r.w1 < 2 ^ 57
  h2 : 0 ≤ r.w2 ∧ r.w2 < 2 ^ 57
  h3 : 0 ≤ r.w3 ∧ r.w3 < 2 ^ 57
  h4 : 0 ≤ r.w4 ∧ r.w4 < 2 ^ 57

theorem Wide.lim {r : BIG} (h : Wide r) : Lim r (2 ^ 62) := by
  obtain ⟨h0, h1, h2, h3, h4⟩ := h
  constructor <;> constructor <;> omega

theorem add_wide {u w : BIG} (hu : u.Nrm) (u0 : 0 ≤ u.val) (u1 : u.val < 2 ^ 280) (hw : w.Nrm) (w0 : 0 ≤ w.val)
    (w1 : w.val < 2 ^ 280) : Wp (u.add w) fun r => Wide r ∧ r.val = u.val + w.val := by
  have a4 := hu.top (B := 2 ^ 56) u0 (by omega)
  have b4 := hw.top (B := 2 ^ 56) w0 (by omega)
  obtain ⟨a0, a1, a2, a3⟩ := hu
  obtain ⟨b0, b1, b2, b3⟩ := hw
  have := zipM_wp (f := add64) (g := (· + ·)) (a := u) (b := w)
    (add64_eq (by omega) (by omega)) (add64_eq (by omega) (by omega)) (add64_eq (by omega) (by omega))
    (add64_eq (by omega) (by omega)) (add64_eq (by omega) (by omega))
  rw [add, this]
  refine Wp.ret ⟨⟨?_, ?_, ?_, ?_, ?_⟩, ?_⟩
  any_goals (dsimp only; omega)
  simp only [val]; ring

theorem Nrm.wide {u : BIG} (hu : u.Nrm) (u0 : 0 ≤ u.val) (u1 : u.val < 2 ^ 280) : Wide u := by
  have a4 := hu.top (B := 2 ^ 56) u0 (by omega)
  obtain ⟨a0, a1, a2, a3⟩ := hu
  constructor <;> omega

/-- One round. -/
theorem inv2Step_wp {s u : BIG} {a v i : Nat} (hi : 8 ≤ i ∧ i ≤ 128) (hs : s.Nrm) (sv : s.val = a)
    (sa : a < 2 ^ 280) (hu : Wide u) (uv : u.val = v) (v1 : v < 2 ^ (i + 1))
    (hm : (v * a : Int) ≡ 1 [ZMOD 2 ^ i]) :
    Wp (inv2Step s u i) fun r => Wide r ∧ ∃ v' : Nat, r.val = v' ∧ v' < 2 ^ (2 * i + 1) ∧
      (v' * a : Int) ≡ 1 [ZMOD 2 ^ (2 * i)] := by
  have hv1 : (v:Int) < 2 ^ (i + 1) := by exact_mod_cast v1
  have hp : (2:Int) ^ (i + 1) ≤ 2 ^ 129 := pow_le_pow_right₀ (by norm_num) (by omega)
  have hq : (2:Int) ^ i ≤ 2 ^ 128 := pow_le_pow_right₀ (by norm_num) (by omega)
  have hp2 : (2:Int) ^ (i + 1) ≤ 2 ^ (2 * i) := pow_le_pow_right₀ (by norm_num) (by omega)
  have hp0 : (0:Int) < 2 ^ i := by positivity
  rw [inv2Step_eq]
  refine Wp.bind (norm_wp hu.lim) ?_
  rintro u' ⟨nu, vu⟩
  rw [uv] at vu
  refine Wp.bind (inv2Mid_wp ⟨hi.1, by omega⟩ hs sv sa nu vu v1 hm) ?_
  rintro t ⟨nt, t0, t1, hx⟩
  rw [show min i (280 - i) = i by omega] at hx
  have hb : t.val * 2 ^ i ≤ 2 ^ (2 * i) := by rw [two_mul, pow_add]; nlinarith
  have hb2 : (2:Int) ^ (2 * i) ≤ 2 ^ 256 := pow_le_pow_right₀ (by norm_num) (by omega)
  have hb0 : 0 ≤ t.val * 2 ^ i := by positivity
  refine Wp.bind (shl_wp nt t0 (k := i) (by omega) (by omega)) ?_
  rintro w ⟨nw, vw⟩
  refine (add_wide nu (by omega) (by omega) nw (by omega) (by omega)).mono ?_
  rintro r ⟨lr, vr⟩
  refine ⟨lr, r.val.toNat, by omega, ?_, ?_⟩
  · have : r.val < 2 ^ (2 * i + 1) := by rw [pow_succ]; omega
    zify
    rw [Int.toNat_of_nonneg (by omega)]
    exact this
  · rw [Int.toNat_of_nonneg (by omega), vr, vu, vw, two_mul, mul_comm t.val]
    exact hx

/-- What is left of a number whose limbs carry one extra bit. -/
theorem mod2m_top {u : BIG} (h0 : 0 ≤ u.w0 ∧ u.w0 < 2 ^ 57) (h1 : 0 ≤ u.w1 ∧ u.w1 < 2 ^ 57)
    (h2 : 0 ≤ u.w2 ∧ u.w2 < 2 ^ 57) (h3 : 0 ≤ u.w3 ∧ u.w3 < 2 ^ 57) :
    Wp (do
      let u ← u.mod2m 256
      u.norm) fun r => r.Nrm ∧ 0 ≤ r.val ∧ r.val < 2 ^ 256 + 2 ^ 226 ∧ r.val ≡ u.val [ZMOD 2 ^ 256] := by
  refine Wp.bind (Wp.of_eq (show mod2m _ 256 = some _ from rfl) rfl) ?_
  rintro _ rfl
  have e : shl64 1 32 = 2 ^ 32 := by rw [shl64_eq] <;> norm_num
  have hz : and64 u.w4 (shl64 1 32 - 1) = u.w4 % 2 ^ 32 := by rw [e, and64_mask (by norm_num)]
  simp only [mod2mW, Nat.reduceDiv, Nat.reduceMod, Nat.reduceLT, if_true, lt_irrefl, if_false, hz]
  refine (norm_wp ⟨?_, ?_, ?_, ?_, ?_⟩).mono ?_
  any_goals (dsimp only [Bd]; omega)
  rintro r ⟨nr, vr⟩
  have hv : r.val = u.val - 2 ^ 256 * (u.w4 / 2 ^ 32) := by rw [vr]; simp only [val]; omega
  refine ⟨nr, ?_, ?_, ?_⟩
  · rw [vr]; simp only [val]; omega
  · rw [vr]; simp only [val]; omega
  · rw [hv]; exact (Int.modEq_iff_dvd.2 ⟨u.w4 / 2 ^ 32, by ring⟩)

theorem invmod256_bound : ∀ i : Fin 128, 0 ≤ invmod256 (2 * i + 1) ∧ invmod256 (2 * i + 1) < 2 ^ 9 := by
  decide +kernel

/-- `invmod2m` inverts an odd number modulo `2^256`, but does not reduce the result to the last bit. -/
theorem invmod2m_wp {s : BIG} {a : Nat} (hs : Lim s (2 ^ 62)) (sv : s.val = a) (sa : a < 2 ^ 280) (ho : a % 2 = 1) :
    Wp (invmod2m s) fun r => r.Nrm ∧ 0 ≤ r.val ∧ r.val < 2 ^ 256 + 2 ^ 226 ∧ r.val * a ≡ 1 [ZMOD 2 ^ 256] := by
  unfold invmod2m
  refine Wp.bind (lastbits_wp hs (n := 8) (by norm_num)) ?_
  rintro ⟨l, s⟩ ⟨hl, ns, vs⟩
  dsimp only at hl ns vs ⊢
  rw [sv] at hl vs
  have hl2 : l = 2 * ((⟨a % 256 / 2, by omega⟩ : Fin 128) : Int) + 1 := by
    rw [hl]; push_cast; omega
  have hb := invmod256_bound ⟨a % 256 / 2, by omega⟩
  have hc : _ = (1:Int) := Amcl.BIG.invmod256_spec ⟨a % 256 / 2, by omega⟩
  rw [← hl2] at hb hc
  rw [← invmod256] at hc
  generalize invmod256 l = x at hb hc
  refine Wp.bind (inc_wp (a := new) (by constructor <;> simp [new]) (by constructor <;> omega)) ?_
  rintro u ⟨vu, -, nu⟩
  have nu := nu (by constructor <;> simp [new]) (by simp [new]; omega) (by simp [new]; omega)
  rw [show new.val = 0 by simp [new, val], zero_add] at vu
  have hx : ((x.toNat : Nat) : Int) = x := Int.toNat_of_nonneg hb.1
  refine Wp.bind (inv2Step_wp (i := 8) (v := x.toNat) (by norm_num) ns vs sa
    (nu.wide (by omega) (by omega)) (by omega) (by omega) ?_) ?_
  · rw [hx]
    have h1 : x * a ≡ x * l [ZMOD 2 ^ 8] := by rw [hl]; exact (Int.mod_modEq _ _).symm.mul_left x
    refine h1.trans ?_
    rw [mul_comm]
    exact hc
  rintro u ⟨nu, v, vu, v1, hv⟩
  refine Wp.bind (inv2Step_wp (i := 16) (by norm_num) ns vs sa nu vu v1 hv) ?_
  rintro u ⟨nu, v, vu, v1, hv⟩
  refine Wp.bind (inv2Step_wp (i := 32) (by norm_num) ns vs sa nu vu v1 hv) ?_
  rintro u ⟨nu, v, vu, v1, hv⟩
  refine Wp.bind (inv2Step_wp (i := 64) (by norm_num) ns vs sa nu vu v1 hv) ?_
  rintro u ⟨nu, v, vu, v1, hv⟩
  refine Wp.bind (inv2Step_wp (i := 128) (by norm_num) ns vs sa nu vu v1 hv) ?_
  rintro u ⟨nu, v, vu, v1, hv⟩
  refine (mod2m_top nu.h0 nu.h1 nu.h2 nu.h3).mono ?_
  rintro r ⟨nr, r0, r1, hr⟩
  refine ⟨nr, r0, r1, ?_⟩
  rw [vu] at hr
  exact (hr.mul_right _).trans hv
theorem or_bits {a b : BIG} (ha : a.Nrm) (hb : b.Nrm) {x y : Nat} (hx : a.val = x) (hy : b.val = y) (x1 : x < 2 ^ 280)
    (y1 : y < 2 ^ 280) : (a.or b).Nrm ∧ (a.or b).val = ((x ||| y : Nat) : Int) := by
  have ta := ha.top (B := 2 ^ 56) (by omega) (by omega)
  have tb := hb.top (B := 2 ^ 56) (by omega) (by omega)
  obtain ⟨a0, a1, a2, a3⟩ := ha
  obtain ⟨b0, b1, b2, b3⟩ := hb
  obtain ⟨w0, w1, w2, w3, w4⟩ := a
  obtain ⟨v0, v1, v2, v3, v4⟩ := b
  dsimp only at *
  lift w0 to Nat using a0.1
  lift w1 to Nat using a1.1
  lift w2 to Nat using a2.1
  lift w3 to Nat using a3.1
  lift w4 to Nat using ta.1
  lift v0 to Nat using b0.1
  lift v1 to Nat using b1.1
  lift v2 to Nat using b2.1
  lift v3 to Nat using b3.1
  lift v4 to Nat using tb.1
  have hx : x = w0 + (w1 + (w2 + (w3 + w4 * 2 ^ 56) * 2 ^ 56) * 2 ^ 56) * 2 ^ 56 := by
    simp only [val] at hx; omega
  have hy : y = v0 + (v1 + (v2 + (v3 + v4 * 2 ^ 56) * 2 ^ 56) * 2 ^ 56) * 2 ^ 56 := by
    simp only [val] at hy; omega
  have o0 := Nat.or_lt_two_pow (n := 56) (x := w0) (y := v0) (by omega) (by omega)
  have o1 := Nat.or_lt_two_pow (n := 56) (x := w1) (y := v1) (by omega) (by omega)
  have o2 := Nat.or_lt_two_pow (n := 56) (x := w2) (y := v2) (by omega) (by omega)
  have o3 := Nat.or_lt_two_pow (n := 56) (x := w3) (y := v3) (by omega) (by omega)
  rw [hx, hy, Amcl.or_digits 56 _ _ (by omega) (by omega), Amcl.or_digits 56 _ _ (by omega) (by omega),
    Amcl.or_digits 56 _ _ (by omega) (by omega), Amcl.or_digits 56 _ _ (by omega) (by omega), BIG.or]
  dsimp only
  rw [Amcl.or64_nat (by omega) (by omega), Amcl.or64_nat (by omega) (by omega), Amcl.or64_nat (by omega) (by omega),
    Amcl.or64_nat (by omega) (by omega), Amcl.or64_nat (by omega) (by omega)]
  refine ⟨?_, ?_⟩
  · constructor <;> dsimp only <;> omega
  · simp only [val]; push_cast; ring

theorem isok_iff (a : BIG) : a.isok = true ↔ a.Nrm ∧ 0 ≤ a.w4 ∧ a.w4 < 2 ^ 56 := by
  simp only [isok, Bool.and_eq_true, beq_iff_eq, Amcl.BIG.sar_zero_iff]
  constructor
  · rintro ⟨⟨⟨⟨h0, h1⟩, h2⟩, h3⟩, h4⟩
    exact ⟨⟨h0, h1, h2, h3⟩, h4⟩
  · rintro ⟨⟨h0, h1, h2, h3⟩, h4⟩
    exact ⟨⟨⟨⟨h0, h1⟩, h2⟩, h3⟩, h4⟩

/-! ### `random` -/

open Rng

theorem random1Loop_wp {e : List UInt8} (i : Nat) : ∀ (n k : Nat) (j : Nat) (r : UInt8) (d : BIG) (g : RAND), k + n ≤ 256 →
    j = k % 8 → (j ≠ 0 → r.toNat = (byte e (i + k / 8)).toNat / 2 ^ (j - 1)) → RAND.Gen (sha256 e) (i + (k + 7) / 8) g →
    d.Nrm → d.val = (numberAt e i k : Int) →
    Wp (random1Loop n j r d g) fun q => q.1.Nrm ∧ q.1.val = (numberAt e i (k + n) : Int) ∧ RAND.Gen (sha256 e) (i + (k + n + 7) / 8) q.2
  | 0, k, j, r, d, g, _, _, _, hg, hd, hv => ⟨_, rfl, hd, hv, hg⟩
  | n + 1, k, j, r, d, g, hk, hj, hr, hg, hd, hv => by
    have tail : ∀ (r' : UInt8) (g' : RAND), r'.toNat = (byte e (i + k / 8)).toNat / 2 ^ j →
        RAND.Gen (sha256 e) (i + (k + 1 + 7) / 8) g' →
        Wp (do
          let d ← d.shl 1
          let w ← add64 d.w0 ((r' &&& 1).toNat : Int)
          random1Loop n ((j + 1) % 8) r' { d with w0 := w } g')
          fun q => q.1.Nrm ∧ q.1.val = (numberAt e i (k + (n + 1)) : Int) ∧ RAND.Gen (sha256 e) (i + (k + (n + 1) + 7) / 8) q.2 := by
      intro r' g' h1 h2
      have hlt : (numberAt e i k : Int) < 2 ^ 256 := by
        have := Amcl.BIG.numberAt_lt e i k
        have h3 : 2 ^ k ≤ 2 ^ 256 := Nat.pow_le_pow_right (by norm_num) (by omega)
        have h4 : numberAt e i k < 2 ^ 256 := by omega
        exact_mod_cast h4
      refine Wp.bind (shl_wp hd (by omega) (k := 1) (by norm_num) (by omega)) ?_
      rintro d' ⟨nd, vd⟩
      have hb : (((r' &&& 1).toNat : Nat) : Int) = (Rng.bit e (8 * i + k) : Int) := by
        congr 1
        rw [UInt8.toNat_and]
        show r'.toNat &&& (2 ^ 1 - 1) = _
        rw [Nat.and_two_pow_sub_one_eq_mod, h1, Rng.bit, hj, show (8 * i + k) / 8 = i + k / 8 by omega,
          show (8 * i + k) % 8 = k % 8 by omega]
      have hbit : Rng.bit e (8 * i + k) < 2 := Nat.mod_lt _ (by norm_num)
      rw [hb]
      rw [hv] at vd
      have hev : d'.w0 % 2 = 0 := by
        simp only [val] at vd
        omega
      have h0 := nd.n0
      rw [add64_eq (by omega) (by omega)]
      simp only [Option.bind_eq_bind, Option.bind_some]
      have := random1Loop_wp i n (k + 1) ((j + 1) % 8) r' { d' with w0 := d'.w0 + Rng.bit e (8 * i + k) } g' (by omega)
        (by omega) ?_ h2 ?_ ?_
      · rwa [show k + 1 + n = k + (n + 1) by omega] at this
      · intro hne
        rw [h1]
        congr 2
        · congr 1
          omega
        · omega
      · obtain ⟨n0, n1, n2, n3⟩ := nd
        refine ⟨?_, n1, n2, n3⟩
        show 0 ≤ d'.w0 + Rng.bit e (8 * i + k) ∧ d'.w0 + Rng.bit e (8 * i + k) < 2 ^ 56
        omega
      · rw [numberAt]
        simp only [val] at vd ⊢
        push_cast
        omega
    rw [random1Loop]
    by_cases h0 : j = 0
    · rw [if_pos h0]
      refine Wp.bind (RAND.getbyte_wp hg) ?_
      rintro ⟨r', g'⟩ ⟨h1, h2⟩
      dsimp only at h1 h2
      refine tail r' g' ?_ ?_
      · rw [h1, h0, pow_zero, Nat.div_one]
        congr 2
        omega
      · rwa [show i + (k + 7) / 8 + 1 = i + (k + 1 + 7) / 8 by omega] at h2
    · rw [if_neg h0]
      refine tail (r >>> 1) g ?_ ?_
      · rw [UInt8.toNat_shiftRight, hr h0]
        show (_ / _) >>> 1 = _
        rw [Nat.shiftRight_eq_div_pow, Nat.div_div_eq_div_mul, ← pow_add, show j - 1 + 1 = j by omega]
      · rwa [show (k + 7) / 8 = (k + 1 + 7) / 8 by omega] at hg

theorem random_wp {e : List UInt8} {i : Nat} {g : RAND} (hg : RAND.Gen (sha256 e) i g) :
    Wp (random g) fun q => q.1.Nrm ∧ q.1.val = (numberAt e i 256 : Int) ∧ RAND.Gen (sha256 e) (i + 32) q.2 := by
  have := random1Loop_wp (e := e) i 256 0 0 0 new g (by norm_num) rfl (by simp) (by simpa using hg)
    (by constructor <;> simp [new]) (by simp [new, val, numberAt])
  simpa [random] using this

end BIG

namespace DBIG

/-- The digits moved down by `m`. -/
def wordShr (d : DBIG) (m : Nat) : DBIG :=
  ⟨⟨d.digit m, d.digit (m + 1), d.digit (m + 2), d.digit (m + 3), d.digit (m + 4)⟩,
   ⟨d.digit (m + 5), d.digit (m + 6), d.digit (m + 7), d.digit (m + 8), d.digit (m + 9)⟩⟩

theorem Nrm.top_range {d : DBIG} (h : Nrm d) (h0 : 0 ≤ d.val) (h1 : d.val < 2 ^ 560) :
    0 ≤ d.hi.w4 ∧ d.hi.w4 < 2 ^ 56 := by
  have := h.top
  omega

/-- The number made of the lowest `k` limbs. -/
def low (d : DBIG) : Nat → Nat
  | 0 => 0
  | k + 1 => low d k + (d.digit k).toNat * 2 ^ (56 * k)

theorem low_lt {d : DBIG} (h : ∀ j < 10, 0 ≤ d.digit j ∧ d.digit j < 2 ^ 56) : ∀ k ≤ 10, low d k < 2 ^ (56 * k)
  | 0, _ => by simp [low]
  | k + 1, hk => by
    have ih := low_lt h k (by omega)
    have := h k (by omega)
    have e : (2:Nat) ^ (56 * (k + 1)) = 2 ^ 56 * 2 ^ (56 * k) := by rw [← pow_add]; congr 1; ring
    have hx : (d.digit k).toNat + 1 ≤ 2 ^ 56 := by omega
    have := Nat.mul_le_mul_right (2 ^ (56 * k)) hx
    rw [low, e]
    linarith

theorem nbitsFrom_eq {d : DBIG} (h : ∀ j < 10, 0 ≤ d.digit j ∧ d.digit j < 2 ^ 56) :
    ∀ k < 10, nbitsFrom d k = Nat.size (low d (k + 1))
  | 0, _ => by
    have h0 := h 0 (by norm_num)
    rw [nbitsFrom, low, low]
    split
    · rw [BIG.bitLen_eq 64 _ h0.1 (by omega)]; simp
    · next e => rw [not_not] at e; simp [e]
  | k + 1, hk => by
    have h0 := h (k + 1) hk
    rw [nbitsFrom, low]
    split
    · rw [BIG.bitLen_eq 64 _ h0.1 (by omega), BIG.size_top (low_lt h _ (by omega)) (by omega)]
    · next e =>
      rw [not_not] at e
      rw [nbitsFrom_eq h k (by omega), e]
      simp

theorem digits {d : DBIG} (h : Nrm d) (h0 : 0 ≤ d.val) (h1 : d.val < 2 ^ 560) :
    ∀ j < 10, 0 ≤ d.digit j ∧ d.digit j < 2 ^ 56 := by
  have h6 := h.top_range h0 h1
  obtain ⟨⟨g0, g1, g2, g3⟩, g4, ⟨g5, g6, g7, g8⟩⟩ := h
  intro j hj
  interval_cases j <;> simp only [digit, BIG.digit, Nat.reduceLT, if_true, if_false, Nat.reduceSub] <;> assumption

theorem low_val {d : DBIG} (h : Nrm d) (h0 : 0 ≤ d.val) (h1 : d.val < 2 ^ 560) : (low d 10 : Int) = d.val := by
  have l := digits h h0 h1
  have e : ∀ j < 10, ((d.digit j).toNat : Int) = d.digit j := fun j hj => Int.toNat_of_nonneg (l j hj).1
  simp only [low]
  push_cast
  rw [e 0 (by norm_num), e 1 (by norm_num), e 2 (by norm_num), e 3 (by norm_num), e 4 (by norm_num),
    e 5 (by norm_num), e 6 (by norm_num), e 7 (by norm_num), e 8 (by norm_num), e 9 (by norm_num)]
  simp only [digit, BIG.digit, Nat.reduceLT, if_true, if_false, Nat.reduceSub, val, BIG.val]
  ring

theorem digit_zero (d : DBIG) {j : Nat} (hj : 10 ≤ j) : d.digit j = 0 := by
  obtain ⟨k, rfl⟩ := Nat.exists_eq_add_of_le hj
  rw [digit, if_neg (by omega), show 10 + k - 5 = k + 5 by omega]
  rfl

theorem wordShr_spec {d : DBIG} (h : Nrm d) (h0 : 0 ≤ d.val) (h1 : d.val < 2 ^ 560) {m : Nat} (hm : m ≤ 9) :
    Nrm (wordShr d m) ∧ (wordShr d m).val = d.val / 2 ^ (56 * m) := by
  have l := digits h h0 h1
  have l' : ∀ j, 0 ≤ d.digit j ∧ d.digit j < 2 ^ 56 := fun j => by
    by_cases hj : j < 10
    · exact l j hj
    · rw [digit_zero d (by omega)]; norm_num
  refine ⟨⟨⟨l' m, l' (m + 1), l' (m + 2), l' (m + 3)⟩, l' (m + 4),
    ⟨l' (m + 5), l' (m + 6), l' (m + 7), l' (m + 8)⟩⟩, ?_⟩
  have hl : (low d m : Int) < 2 ^ (56 * m) := by exact_mod_cast low_lt l m (by omega)
  have e : ∀ j < 10, ((d.digit j).toNat : Int) = d.digit j := fun j hj => Int.toNat_of_nonneg (l j hj).1
  have key : d.val = low d m + 2 ^ (56 * m) * (wordShr d m).val := by
    rw [← low_val h h0 h1]
    clear hl h h0 h1 l l'
    interval_cases m <;> simp only [low, wordShr, val, BIG.val, Nat.reduceAdd, Nat.reduceLeDiff, digit_zero, Nat.cast_add,
        Nat.cast_mul, Nat.cast_pow, Nat.cast_zero, Nat.cast_ofNat] <;>
      rw [e 0 (by norm_num), e 1 (by norm_num), e 2 (by norm_num), e 3 (by norm_num), e 4 (by norm_num),
        e 5 (by norm_num), e 6 (by norm_num), e 7 (by norm_num), e 8 (by norm_num), e 9 (by norm_num)] <;> ring
  rw [key, Int.add_mul_ediv_left _ _ (by positivity), Int.ediv_eq_zero_of_lt (by positivity) hl, zero_add]

theorem shrAny_eq {d : DBIG} (h : Nrm d) (h0 : 0 ≤ d.val) (h1 : d.val < 2 ^ 560) {k : Nat} (hk : k < 560) :
    shrAny d k = shr (wordShr d (k / 56)) (k % 56) := by
  have h6 := h.top_range h0 h1
  have hm : k / 56 ≤ 9 := by omega
  have e6 : ∀ n, BIG.fshrW n d.hi.w4 0 = sar d.hi.w4 n := fun n => BIG.fshrW_zero (by omega) (by omega)
  have e0 : ∀ n, BIG.fshrW n 0 0 = 0 := fun n => by rw [BIG.fshrW_zero (by omega) (by omega)]; simp [sar]
  have s0 : ∀ n, sar 0 n = 0 := fun n => by simp [sar]
  unfold shrAny
  rw [if_neg (by omega)]
  have hn : k % 56 < 56 := by omega
  generalize k % 56 = n at hn
  generalize k / 56 = m at hm
  interval_cases m <;> simp [shrAnyW, shr, wordShr, digit, BIG.digit, e6, e0, s0, hn]

theorem shrAny_wp {d : DBIG} (h : Nrm d) (h0 : 0 ≤ d.val) (h1 : d.val < 2 ^ 560) {k : Nat} (hk : k < 560) :
    Wp (shrAny d k) fun r => Nrm r ∧ r.val = d.val / 2 ^ k := by
  obtain ⟨hn, hv⟩ := wordShr_spec h h0 h1 (m := k / 56) (by omega)
  rw [shrAny_eq h h0 h1 hk]
  refine (shr_wp hn (k := k % 56) (by omega)).mono ?_
  rintro r ⟨h2, h3⟩
  refine ⟨h2, ?_⟩
  rw [h3, hv, Int.ediv_ediv_of_nonneg (by positivity), ← pow_add, show 56 * (k / 56) + k % 56 = k by omega]

theorem nbits_wp {d : DBIG} (hd : Lim d (2 ^ 62)) (h0 : 0 ≤ d.val) (h1 : d.val < 2 ^ 560) :
    Wp (nbits d) fun r => r.1 = Nat.size d.val.toNat ∧ r.2.Nrm ∧ r.2.val = d.val := by
  unfold nbits
  refine Wp.bind (norm_wp hd) ?_
  rintro d' ⟨nd, vd⟩
  refine Wp.ret ⟨?_, nd, vd⟩
  rw [← vd] at h0 h1 ⊢
  rw [nbitsFrom_eq (digits nd h0 h1) 9 (by norm_num), ← low_val nd h0 h1, Int.toNat_natCast]

theorem to_stringLoop_wp {d : DBIG} (h : Nrm d) {v : Nat} (hv : d.val = v) (h1 : v < 2 ^ 560) (n : Nat)
    (hn : 4 * n ≤ 560) : ∀ s, to_stringLoop d n s = some (s ++ toHex n v) := by
  induction n with
  | zero => intro s; simp [to_stringLoop, toHex]
  | succ n ih =>
    intro s
    obtain ⟨b, e, hb, vb⟩ := shrAny_wp h (by omega) (by omega) (k := n * 4) (by omega)
    have hd : and64 b.lo.w0 15 = ((v / 16 ^ n % 16 : Nat) : Int) := by
      have e := and64_mask (show 4 < 64 by norm_num) b.lo.w0
      have e2 : (2:Int) ^ (n * 4) = ((16 ^ n : Nat) : Int) := by
        rw [mul_comm, pow_mul]; push_cast; norm_num
      rw [hv, e2, ← Int.natCast_ediv] at vb
      norm_num at e
      rw [e]
      simp only [val, BIG.val] at vb
      omega
    have hu := Amcl.BIG.upperHex_eq ⟨v / 16 ^ n % 16, Nat.mod_lt _ (by norm_num)⟩
    rw [to_stringLoop, e]
    simp only [Option.bind_eq_bind, Option.bind_some]
    rw [ih (by omega), hd, hu, toHex_succ, List.append_assoc]
    rfl

theorem to_string_eq {d : DBIG} (hd : Lim d (2 ^ 62)) {v : Nat} (hv : d.val = v) (h1 : v < 2 ^ 560) :
    d.to_string = some (toHex ((Nat.size v + 3) / 4) v) := by
  obtain ⟨⟨n, d'⟩, e, hn, nd, vd⟩ := nbits_wp hd (by omega) (by omega)
  have hs : Nat.size v ≤ 560 := Nat.size_le.2 h1
  rw [to_string, e]
  simp only [Option.bind_eq_bind, Option.bind_some]
  rw [hv, Int.toNat_natCast] at hn
  dsimp only at hn vd nd
  have hl : (if n % 4 = 0 then n / 4 else n / 4 + 1) = (Nat.size v + 3) / 4 := by
    split_ifs <;> omega
  rw [hl, to_stringLoop_wp nd (vd.trans hv) h1 _ (by omega), List.nil_append]

theorem split_spec {d : DBIG} (h : Nrm d) (h0 : 0 ≤ d.val) {n : Nat} (hn : 224 ≤ n ∧ n < 280)
    (h1 : d.val < 2 ^ (n + 280)) :
    (split d n).1.Nrm ∧ (split d n).1.val = d.val / 2 ^ n ∧ (split d n).2.lo.Nrm ∧
      (split d n).2.lo.val = d.val % 2 ^ n ∧ (split d n).2.hi = d.hi := by
  obtain ⟨m, rfl⟩ : ∃ m, n = 224 + m := ⟨n - 224, by omega⟩
  have hm : m < 56 := by omega
  have em : (224 + m) % 56 = m := by omega
  have hp : (0:Int) < 2 ^ m := by positivity
  have hp2 : (2:Int) ^ 56 = 2 ^ (56 - m) * 2 ^ m := by rw [← pow_add]; congr 1; omega
  have hp3 : (0:Int) < 2 ^ (56 - m) := by positivity
  have ht : 0 ≤ d.hi.w4 ∧ d.hi.w4 < 2 ^ m := by
    rw [h.top]
    refine ⟨by positivity, ?_⟩
    rw [Int.ediv_lt_iff_lt_mul (by norm_num), ← pow_add, show m + 504 = 224 + m + 280 by omega]
    exact h1
  have hs : shl64 d.hi.w4 (56 - m) = d.hi.w4 * 2 ^ (56 - m) := by
    rw [shl64_eq]
    · have : 0 ≤ d.hi.w4 * 2 ^ (56 - m) := by have := ht.1; positivity
      omega
    · nlinarith
  have hs2 : and64 (shl64 d.hi.w4 (56 - m)) BMASK = shl64 d.hi.w4 (56 - m) := by
    rw [BMASK_eq, and64_mask (by norm_num), hs, Int.emod_eq_of_lt]
    · have := ht.1; positivity
    · nlinarith
  obtain ⟨r, hr, nr, vr⟩ := shr_wp h hm
  have hr' := hr
  rw [shr, if_pos hm, Option.some.injEq] at hr'
  have e13 : r.hi.w4 = 0 := by
    rw [← hr']
    show sar d.hi.w4 m = 0
    rw [sar]
    exact Int.ediv_eq_zero_of_lt ht.1 ht.2
  have et : (split d (224 + m)).1 = ⟨r.lo.w4, r.hi.w0, r.hi.w1, r.hi.w2, r.hi.w3⟩ := by
    rw [← hr']
    simp [split, em, splitW, digit, BIG.digit, BIG.fshrW, hs2]
  obtain ⟨q, hq, nq, vq⟩ := BIG.mod2m_wp h.lo (m := 224 + m) (by omega)
  have e6 : (224 + m) / 56 = 4 := by omega
  have eq : (split d (224 + m)).2.lo = q := by
    rw [BIG.mod2m, if_neg (by omega), Option.some.injEq] at hq
    rw [← hq]
    simp [split, em, e6, BIG.mod2mW]
  have evq : q.val = d.val % 2 ^ (224 + m) := by
    have hd : (2:Int) ^ (224 + m) ∣ 2 ^ 280 := pow_dvd_pow 2 (by omega)
    rw [vq, val, ← Int.emod_emod_of_dvd (d.lo.val + d.hi.val * 2 ^ 280) hd, Int.add_mul_emod_self_right,
      Int.emod_emod_of_dvd _ hd]
  refine ⟨?_, ?_, eq ▸ nq, eq ▸ evq, rfl⟩
  · rw [et]
    obtain ⟨⟨g0, g1, g2, g3⟩, g4, ⟨g5, g6, g7, g8⟩⟩ := nr
    exact ⟨g4, g5, g6, g7⟩
  · rw [pow_add, mul_comm, ← Int.ediv_ediv_of_nonneg hp.le, ← vr, et]
    obtain ⟨⟨g0, g1, g2, g3⟩, g4, ⟨g5, g6, g7, g8⟩⟩ := nr
    simp only [val, BIG.val, e13]
    omega

end DBIG


end Amcl.Secp
