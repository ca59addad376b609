import Verif.Proof.B383.Mpin
import Verif.Proof.Rng
import Verif.Proof.Joint
import Verif.Spec.B383.MpinCode
/-!
# `encoding` and `decoding` of M-Pin
-/

set_option exponentiation.threshold 2000

namespace Amcl.B383

open Spec.B383
open Spec (Pt toBE beNat length_toBE beNat_toBE sha256)

seal Spec.toBE

theorem _root_.Spec.B383.Lifts.unique {x : Fp} {s : Nat} {g g' : G1} (h : Lifts x s g) (h' : Lifts x s g') : g = g' := by
  obtain ⟨k, y, e, hn, hp, rfl⟩ := h
  obtain ⟨k', y', e', hn', hp', rfl⟩ := h'
  have hk : k = k' := by
    rcases lt_trichotomy k k' with hlt | he | hlt
    · exact absurd ⟨y, by rw [← e, pow_two]⟩ (hn' k hlt)
    · exact he
    · exact absurd ⟨y', by rw [← e', pow_two]⟩ (hn k' hlt)
  subst hk
  have := root_unique (Pt.y_ne e) (e.trans e'.symm) (hp.trans hp'.symm)
  subst this
  rfl

theorem exists_square1 (x : Fp) : ∃ k : Nat, k < p ∧ IsSquare ((x + (k : Nat)) ^ 3 + b1) := by
  obtain ⟨k, hk, hu⟩ := exists_usable1 x
  exact ⟨k, hk, ECP.isSquare_of_usable hu⟩

theorem exists_lifts (x : Fp) (s : Nat) (hs : s < 2) : ∃ g, Lifts x s g := by
  classical
  obtain ⟨k, -, hk⟩ := exists_square1 x
  have hex : ∃ k : Nat, IsSquare ((x + (k : Nat)) ^ 3 + b1) := ⟨k, hk⟩
  obtain ⟨y, hy⟩ := Nat.find_spec hex
  have hy' : y ^ 2 = (x + (Nat.find hex : Nat)) ^ 3 + b1 := by rw [hy, pow_two]
  by_cases hs' : y.val % 2 = s
  · exact ⟨_, Nat.find hex, y, hy', fun j hj => Nat.find_min hex hj, hs', rfl⟩
  · refine ⟨_, Nat.find hex, -y, by rw [neg_sq]; exact hy', fun j hj => Nat.find_min hex hj, ?_, rfl⟩
    have := val_neg_parity (Pt.y_ne hy')
    omega

namespace ECP

theorem getx_wpY {P : ECP} {E : Int} {x y : Fp} {h : y ^ 2 = x ^ 3 + b1} (hP : OkY P E (Pt.mk x y h))
    (hE : E ≤ 2 ^ 23) :
    Wp P.getx fun r => r.1.Nrm ∧ r.1.val = (P.xOut x : Int) ∧ OkY r.2 E (Pt.mk x y h) := by
  unfold getx
  refine Wp.bind (affine_coordsY hP hE) ?_
  rintro Q ⟨hQ, hx, -, -, eo⟩
  refine Wp.bind (FP.redc_nat hx (by omega)) ?_
  rintro X ⟨nX, vX⟩
  rw [eo] at vX
  exact Wp.ret ⟨nX, vX, hQ⟩

end ECP

namespace mpin

theorem emapLoop_wp {s : Nat} (hs : s < 2) (k : Nat) : ∀ x : BIG, x.Nrm → 0 ≤ x.val → x.val + k ≤ 2 ^ 10 * p →
    (∀ j < k, ¬ IsSquare (((x.val : Fp) + (j : Nat)) ^ 3 + b1)) → IsSquare (((x.val : Fp) + (k : Nat)) ^ 3 + b1) →
    Wp (emapLoop x s) fun P => ∃ g, Lifts (x.val : Fp) s g ∧ ECP.OkY P 2 g := by
  induction k with
  | zero =>
    intro x nx x0 x1 _ hu
    have hp := p_pos
    have hpl := p_lt
    rw [emapLoop]
    have lx : x.Lim (2 ^ 61) := (nx.lim58 x0 (by omega)).mono (by norm_num)
    refine Wp.bind (ECP.new_bigint_wp lx x0 (by omega) hs) ?_
    rintro P ⟨hP, -⟩
    rw [Nat.cast_zero, add_zero] at hu
    obtain ⟨y, h, hy, hP, -⟩ := hP hu
    refine Wp.bind (ECP.is_infinity_wpY hP (by norm_num)) fun b hb => ?_
    rw [if_neg (fun e => Pt.mk_ne h (hb.1 e))]
    refine Wp.ret ⟨_, ⟨0, y, by rw [Nat.cast_zero, add_zero]; exact h, fun j hj => absurd hj (by omega), hy, ?_⟩, hP⟩
    rw [Pt.mk_inj]
    exact ⟨by rw [Nat.cast_zero, add_zero], rfl⟩
  | succ k ih =>
    intro x nx x0 x1 hn hu
    have hp := p_pos
    have hpl := p_lt
    rw [emapLoop]
    have lx : x.Lim (2 ^ 61) := (nx.lim58 x0 (by omega)).mono (by norm_num)
    refine Wp.bind (ECP.new_bigint_wp lx x0 (by omega) hs) ?_
    rintro P ⟨-, hP0⟩
    have h0 := hn 0 (by omega)
    have h0' : ¬ IsSquare ((x.val : Fp) ^ 3 + b1) := by rwa [Nat.cast_zero, add_zero] at h0
    refine Wp.bind (ECP.is_infinity_wpY (hP0 h0') (by norm_num)) fun b hb => ?_
    rw [if_pos (hb.2 rfl)]
    refine Wp.bind (BIG.inc_lim (x := 1) nx x0 (by omega) ⟨by norm_num, by norm_num⟩) ?_
    rintro a ⟨va, la⟩
    refine Wp.bind (BIG.norm_wp la) ?_
    rintro t ⟨nt, vt⟩
    have et : (t.val : Fp) = (x.val : Fp) + 1 := by rw [vt, va]; push_cast; rfl
    have e : ∀ j : Nat, (t.val : Fp) + j = (x.val : Fp) + (j + 1 : Nat) := by
      intro j; rw [et]; push_cast; ring
    refine (ih t nt (by omega) (by push_cast at x1; omega) (fun j hj => by rw [e]; exact hn (j + 1) (by omega))
      (by rw [e]; exact hu)).mono ?_
    rintro Q ⟨g, ⟨k', y, h, hk, hy, eg⟩, hQ⟩
    refine ⟨g, ⟨k' + 1, y, by rw [← e]; exact h, ?_, hy, ?_⟩, hQ⟩
    · rintro (_ | j) hj
      · exact h0
      · rw [← e]; exact hk j (by omega)
    · rw [eg, Pt.mk_inj]
      exact ⟨e k', rfl⟩

theorem emap_wp {u : BIG} {s : Nat} (hs : s < 2) (nu : u.Nrm) (u0 : 0 ≤ u.val) (u1 : u.val < 2 ^ 384) :
    Wp (emap u s) fun P => ∃ g, Lifts (u.val : Fp) s g ∧ ECP.OkY P 2 g := by
  classical
  unfold emap
  have hp := p_pos
  refine Wp.bind (BIG.rmod_wp ((nu.lim58 (by omega) (by omega)).mono (by norm_num)) (by omega) (by omega) modulus_nrm
    (by rw [modulus_val]; exact hp)) ?_
  rintro x ⟨nx, vx⟩
  rw [modulus_val] at vx
  have ex : (x.val : Fp) = (u.val : Fp) := by
    rw [vx]
    exact ((ZMod.intCast_eq_intCast_iff _ _ _).2 (Int.mod_modEq _ _))
  have x0 : 0 ≤ x.val := by rw [vx]; exact Int.emod_nonneg _ hp.ne'
  have x1 : x.val < p := by rw [vx]; exact Int.emod_lt_of_pos _ hp
  obtain ⟨k, hk, hu⟩ := exists_square1 (x.val : Fp)
  have hex : ∃ k : Nat, IsSquare (((x.val : Fp) + (k : Nat)) ^ 3 + b1) := ⟨k, hu⟩
  have hle := Nat.find_min' hex hu
  rw [← ex]
  exact emapLoop_wp hs (Nat.find hex) x nx x0 (by omega) (fun j hj => Nat.find_min hex hj) (Nat.find_spec hex)

theorem isSquare_b1 : IsSquare ((((0 : Nat) : Fp)) ^ 3 + b1) := ⟨Props.B383.root15, by rw [← pow_two, Nat.cast_zero, Props.B383.order3_on]⟩

theorem exists_gap {x : Nat} (h : 0 < x) : ∃ n, Gap x n := by
  classical
  have hex : ∃ n, 0 < n ∧ n ≤ x ∧ IsSquare ((((x - n : Nat) : Fp)) ^ 3 + b1) :=
    ⟨x, h, le_rfl, by rw [Nat.sub_self]; exact isSquare_b1⟩
  obtain ⟨h1, h2, h3⟩ := Nat.find_spec hex
  refine ⟨Nat.find hex, h1, h2, h3, fun j j0 hj hs => ?_⟩
  exact Nat.find_min hex hj ⟨j0, by omega, hs⟩

theorem _root_.Spec.B383.Gap.unique {x n n' : Nat} (h : Gap x n) (h' : Gap x n') : n = n' := by
  obtain ⟨h1, h2, h3, h4⟩ := h
  obtain ⟨h1', h2', h3', h4'⟩ := h'
  rcases lt_trichotomy n n' with hlt | he | hlt
  · exact absurd h3 (h4' n h1 hlt)
  · exact he
  · exact absurd h3' (h4 n' h1' hlt)

theorem unmapLoop_wp {s : Nat} (hs : s < 2) (x n : Nat) (hx : x < p) (hg : Gap x n) : ∀ (d k : Nat) (u : BIG), k + d + 1 = n →
    u.Nrm → u.val = ((x - k : Nat) : Int) → Wp (unmapLoop u s k) fun r => r.1.Nrm ∧ r.1.val = ((x - n : Nat) : Int) ∧ r.2 = n := by
  intro d
  have hpl := p_lt
  obtain ⟨g1, g2, g3, g4⟩ := hg
  induction d with
  | zero =>
    intro k u hk nu vu
    rw [unmapLoop]
    refine Wp.bind (BIG.dec_lim (x := 1) nu (by omega) (by omega) ⟨by norm_num, by norm_num⟩) ?_
    rintro a ⟨va, la⟩
    refine Wp.bind (BIG.norm_wp la) ?_
    rintro t ⟨nt, vt⟩
    have et : t.val = ((x - n : Nat) : Int) := by omega
    refine Wp.bind (ECP.new_bigint_wp ((nt.lim58 (by omega) (by omega)).mono (by norm_num)) (by omega) (by omega) hs) ?_
    rintro P ⟨hP, -⟩
    rw [et, Int.cast_natCast] at hP
    obtain ⟨y, h, hy, hP, -⟩ := hP g3
    refine Wp.bind (ECP.is_infinity_wpY hP (by norm_num)) fun b hb => ?_
    rw [if_neg (fun e => Pt.mk_ne h (hb.1 e))]
    exact Wp.ret ⟨nt, et, by omega⟩
  | succ d ih =>
    intro k u hk nu vu
    rw [unmapLoop]
    refine Wp.bind (BIG.dec_lim (x := 1) nu (by omega) (by omega) ⟨by norm_num, by norm_num⟩) ?_
    rintro a ⟨va, la⟩
    refine Wp.bind (BIG.norm_wp la) ?_
    rintro t ⟨nt, vt⟩
    have et : t.val = ((x - (k + 1) : Nat) : Int) := by omega
    refine Wp.bind (ECP.new_bigint_wp ((nt.lim58 (by omega) (by omega)).mono (by norm_num)) (by omega) (by omega) hs) ?_
    rintro P ⟨-, hP⟩
    rw [et, Int.cast_natCast] at hP
    refine Wp.bind (ECP.is_infinity_wpY (hP (g4 (k + 1) (by omega) (by omega))) (by norm_num)) fun b hb => ?_
    rw [if_pos (hb.2 rfl)]
    exact ih (k + 1) t (by omega) nt et

theorem unmap_wp {P : ECP} {E : Int} {x y : Fp} {h : y ^ 2 = x ^ 3 + b1} (hP : ECP.OkY P E (Pt.mk x y h)) (hE : E ≤ 2 ^ 23)
    (hx : x ≠ 0) : Wp (unmap P) fun r => Gap x.val r.2.1 ∧ r.1.Nrm ∧ r.1.val = ((x.val - r.2.1 : Nat) : Int) := by
  unfold unmap
  refine Wp.bind (ECP.gets_wp hP hE) ?_
  rintro ⟨s, Q⟩ ⟨es, hQ⟩
  dsimp only at es hQ ⊢
  refine Wp.bind (ECP.getx_wpY hQ hE) ?_
  rintro ⟨X, R⟩ ⟨nX, vX, -⟩
  dsimp only at nX vX ⊢
  rw [ECP.xOut_of_ne hx] at vX
  have x0 : 0 < x.val := Nat.pos_of_ne_zero fun h => hx ((ZMod.val_eq_zero _).1 h)
  obtain ⟨n, hn⟩ := exists_gap x0
  have hn0 := hn.1
  rw [es]
  refine Wp.bind (unmapLoop_wp (Nat.mod_lt _ (by norm_num)) x.val n (ZMod.val_lt x) hn (n - 1) 0 X (by omega) nX (by rw [vX, Nat.sub_zero])) ?_
  rintro ⟨u, m⟩ ⟨nu, vu, em⟩
  dsimp only at nu vu em ⊢
  subst em
  exact Wp.ret ⟨hn, nu, vu⟩

/-- The numbers between two abscissas on the curve give the upper one. -/
theorem lifts_of_gap {x y : Fp} {h : y ^ 2 = x ^ 3 + b1} {n m : Nat} (hg : Gap x.val n) (hm : m < n) :
    Lifts ((x.val - n + m + 1 : Nat) : Fp) (y.val % 2) (Pt.mk x y h) := by
  obtain ⟨g1, g2, g3, g4⟩ := hg
  have e : ∀ j : Nat, ((x.val - n + m + 1 : Nat) : Fp) + (j : Nat) = ((x.val - n + m + 1 + j : Nat) : Fp) := by
    intro j; push_cast; rfl
  have ex : ((x.val - n + m + 1 : Nat) : Fp) + ((n - m - 1 : Nat) : Fp) = x := by
    rw [e, show x.val - n + m + 1 + (n - m - 1) = x.val by omega, ZMod.natCast_zmod_val]
  refine ⟨n - m - 1, y, by rw [ex]; exact h, ?_, rfl, ?_⟩
  · intro j hj
    rw [e, show x.val - n + m + 1 + j = x.val - (n - m - 1 - j) by omega]
    exact g4 _ (by omega) (by omega)
  · rw [Pt.mk_inj]
    exact ⟨ex.symm, rfl⟩

theorem size_p : Nat.size p = 383 := by
  refine le_antisymm (Nat.size_le.2 (by norm_num [p])) (not_lt.1 fun h => ?_)
  have := Nat.size_le.1 (show Nat.size p ≤ 382 by omega)
  norm_num [p] at this

theorem encodePoint_wp {e : List UInt8} {i : Nat} {rng : RAND} {P : ECP} {g : G1} (hg : RAND.Gen (sha256 e) i rng)
    (hP : ECP.OkY P (2 ^ 14) g)
    (hne : ∀ W, Lifts ((Spec.Rng.numberAt e i 766 % p : Nat) : Fp) ((Spec.Rng.byte e (i + 96)).toNat % 2) W → ∃ x y h, x ≠ 0 ∧ g - W = Pt.mk x y h) :
    Wp (encodePoint rng P) fun r => EncodedFrom e i g r.1 ∧ RAND.Gen (sha256 e) (i + 98) r.2 := by
  have hp := p_pos
  have hpl := p_lt
  unfold encodePoint
  refine Wp.bind (BIG.randomnum_at hg modulus_nrm (by rw [modulus_val]; exact hp) (by rw [modulus_val]; omega)) ?_
  rintro ⟨u, g1⟩ ⟨nu, vu, hg1⟩
  dsimp only at nu vu hg1 ⊢
  rw [modulus_val, Int.toNat_natCast, size_p] at vu hg1
  change u.val = (Spec.Rng.numberAt e i 766 : Int) % p at vu
  change RAND.Gen (sha256 e) (i + 96) g1 at hg1
  refine Wp.bind (RAND.getbyte_wp hg1) ?_
  rintro ⟨b, g2⟩ ⟨eb, hg2⟩
  dsimp only at eb hg2 ⊢
  have vu' : u.val = ((Spec.Rng.numberAt e i 766 % p : Nat) : Int) := by rw [vu]; rfl
  generalize hU : Spec.Rng.numberAt e i 766 % p = U at *
  have hUp : U < p := by rw [← hU]; exact Nat.mod_lt _ (by exact_mod_cast hp)
  rw [eb]
  refine Wp.bind (emap_wp (Nat.mod_lt _ (by norm_num)) nu (by omega) (by omega)) ?_
  rintro W ⟨w, hw, hW⟩
  rw [vu', Int.cast_natCast] at hw
  obtain ⟨x, y, h, hx, egw⟩ := hne w hw
  refine Wp.bind (ECP.sub_wpY hP (hW.mono (by norm_num))) ?_
  intro P1 hP1
  rw [egw] at hP1
  refine Wp.bind (ECP.gets_wp hP1.okY (by norm_num)) ?_
  rintro ⟨sv, P2⟩ ⟨es, hP2⟩
  dsimp only at es hP2 ⊢
  refine Wp.bind (unmap_wp hP2 (by norm_num) hx) ?_
  rintro ⟨v, n, P3⟩ ⟨hgap, nv, vv⟩
  dsimp only at hgap nv vv ⊢
  refine Wp.bind (RAND.getbyte_wp hg2) ?_
  rintro ⟨b', g3⟩ ⟨eb', hg3⟩
  dsimp only at eb' hg3 ⊢
  rw [eb', show i + 96 + 1 = i + 97 from rfl]
  have hn0 := hgap.1
  have hn1 := hgap.2.1
  have hxp := ZMod.val_lt x
  have hm : (Spec.Rng.byte e (i + 97)).toNat % n < n := Nat.mod_lt _ hn0
  have hm' : (Spec.Rng.byte e (i + 97)).toNat % n < 256 := lt_of_le_of_lt (Nat.mod_le _ _) (UInt8.toNat_lt _)
  refine Wp.bind (BIG.inc_lim nv (by omega) (by omega) ⟨by omega, by omega⟩) ?_
  rintro V ⟨vV, lV⟩
  refine Wp.bind (R := fun t => t = toBE 48 U) (Wp.eq ?_) ?_
  · rw [BIG.tobytes_eq ((nu.lim58 (by omega) (by omega)).mono (by norm_num)) (by omega), vu', Int.toNat_natCast]
  rintro _ rfl
  refine Wp.bind (R := fun t => t = toBE 48 (x.val - n + (Spec.Rng.byte e (i + 97)).toNat % n + 1)) (Wp.eq ?_) ?_
  · rw [BIG.tobytes_eq lV (by omega)]
    congr 2
    omega
  rintro _ rfl
  refine Wp.ret ⟨⟨U, _, n, w, x, y, h, hU.symm, rfl, hw, egw, hgap, ?_⟩, hg3⟩
  dsimp only
  rw [es]
  congr 2

theorem encoding_wp {e : List UInt8} {i : Nat} {rng : RAND} {c0 : UInt8} {a b : List UInt8} (hg : RAND.Gen (sha256 e) i rng)
    (ha : a.length = 48) (hb : b.length = 48) (h : (beNat b : Fp) ^ 2 = (beNat a : Fp) ^ 3 + b1)
    (hne : ∀ W, Lifts ((Spec.Rng.numberAt e i 766 % p : Nat) : Fp) ((Spec.Rng.byte e (i + 96)).toNat % 2) W →
      ∃ x y h', x ≠ 0 ∧ Pt.mk _ _ h - W = Pt.mk x y h') :
    Wp (encoding rng (c0 :: (a ++ b))) fun r => ∃ d rng', r = .ok (d, rng') ∧ EncodedFrom e i (Pt.mk _ _ h) d ∧
      RAND.Gen (sha256 e) (i + 98) rng' := by
  have h25 : (2 : Int) ^ 384 ≤ 2 ^ 23 * p := by norm_num [p]
  have hA := beNat_lt48 ha
  have hB := beNat_lt48 hb
  unfold encoding
  rw [if_neg (by simp [ha, hb])]
  have e1 : ((c0 :: (a ++ b)).drop 1).take 48 = a := by rw [List.drop_one, List.tail_cons, List.take_left' ha]
  have e2 : ((c0 :: (a ++ b)).drop 49).take 48 = b := by
    rw [List.drop_succ_cons, List.drop_left' ha, List.take_of_length_le hb.le]
  rw [e1, e2]
  refine Wp.bind (BIG.frombytes_wp ha.ge) ?_
  rintro u ⟨nu, vu⟩
  rw [List.take_of_length_le ha.le] at vu
  refine Wp.bind (BIG.frombytes_wp hb.ge) ?_
  rintro v ⟨nv, vv⟩
  rw [List.take_of_length_le hb.le] at vv
  refine Wp.bind (ECP.new_bigs_wp ((nu.lim58 (by omega) (by omega)).mono (by norm_num))
    ((nv.lim58 (by omega) (by omega)).mono (by norm_num)) (by omega) (by omega) (by omega) (by omega)) ?_
  rintro P ⟨hP, -⟩
  simp only [vu, vv, Int.cast_natCast] at hP
  obtain ⟨hP, -⟩ := hP h
  refine Wp.bind (ECP.is_infinity_wp hP (by norm_num)) fun b hb => ?_
  rw [if_neg (fun e => Pt.mk_ne h (hb.1 e))]
  refine Wp.bind (encodePoint_wp hg (hP.okY.mono (by norm_num)) hne) ?_
  rintro ⟨d, rng'⟩ ⟨h1, h2⟩
  exact Wp.ret ⟨d, rng', rfl, h1, h2⟩

theorem encoding_off {rng : RAND} {c0 : UInt8} {a b : List UInt8}
    (ha : a.length = 48) (hb : b.length = 48) (h : ¬ (beNat b : Fp) ^ 2 = (beNat a : Fp) ^ 3 + b1) :
    encoding rng (c0 :: (a ++ b)) = some (.error INVALID_POINT) := by
  have h25 : (2 : Int) ^ 384 ≤ 2 ^ 23 * p := by norm_num [p]
  have hA := beNat_lt48 ha
  have hB := beNat_lt48 hb
  suffices hw : Wp (encoding rng (c0 :: (a ++ b))) fun r => r = .error INVALID_POINT by
    obtain ⟨r, e, rfl⟩ := hw
    exact e
  unfold encoding
  rw [if_neg (by simp [ha, hb])]
  have e1 : ((c0 :: (a ++ b)).drop 1).take 48 = a := by rw [List.drop_one, List.tail_cons, List.take_left' ha]
  have e2 : ((c0 :: (a ++ b)).drop 49).take 48 = b := by
    rw [List.drop_succ_cons, List.drop_left' ha, List.take_of_length_le hb.le]
  rw [e1, e2]
  refine Wp.bind (BIG.frombytes_wp ha.ge) ?_
  rintro u ⟨nu, vu⟩
  rw [List.take_of_length_le ha.le] at vu
  refine Wp.bind (BIG.frombytes_wp hb.ge) ?_
  rintro v ⟨nv, vv⟩
  rw [List.take_of_length_le hb.le] at vv
  refine Wp.bind (ECP.new_bigs_wp ((nu.lim58 (by omega) (by omega)).mono (by norm_num))
    ((nv.lim58 (by omega) (by omega)).mono (by norm_num)) (by omega) (by omega) (by omega) (by omega)) ?_
  rintro P ⟨-, hP⟩
  simp only [vu, vv, Int.cast_natCast] at hP
  refine Wp.bind (ECP.is_infinity_wp (hP h) (by norm_num)) fun b hb => ?_
  rw [if_pos (hb.2 rfl)]
  exact Wp.ret rfl

theorem byte_all {q : UInt8 → Prop} (h : ∀ n : Fin 256, q (UInt8.ofNat n)) (d : UInt8) : q d := by
  have := h ⟨d.toNat, UInt8.toNat_lt d⟩
  rwa [UInt8.ofNat_toNat] at this

theorem and_four (d : UInt8) : d &&& 4 ≠ 0 ↔ d.toNat / 4 % 2 = 1 := by
  revert d
  exact byte_all (by decide +kernel)

theorem and_one (d : UInt8) : (d &&& 1).toNat = d.toNat % 2 := by
  revert d
  exact byte_all (by decide +kernel)

theorem shift_one (d : UInt8) : ((d >>> 1) &&& 1).toNat = d.toNat / 2 % 2 := by
  revert d
  exact byte_all (by decide +kernel)

theorem decoding_wp {d : List UInt8} {x y : Fp} {h : y ^ 2 = x ^ 3 + b1} (hd : Encodes d (Pt.mk x y h)) :
    Wp (decoding d) fun r => ∃ n : Nat, (n : Fp) = x ∧ n ≤ p ∧ (x ≠ 0 → n = x.val) ∧
      r = .ok (4 :: (toBE 48 n ++ toBE 48 y.val)) := by
  obtain ⟨d0, a, b, W, V, rfl, ha, hb, h4, hW, hV, eg⟩ := hd
  have hple := p_le_pow
  have hA := beNat_lt48 ha
  have hB := beNat_lt48 hb
  have hyl := ZMod.val_lt y
  unfold decoding
  rw [if_neg (by simp [ha, hb])]
  simp only [List.head?_cons]
  refine Wp.bind (R := fun c => c = d0) (Wp.pure rfl) ?_
  rintro _ rfl
  rename_i d0
  rw [if_neg (fun h' => by rw [and_four] at h'; omega)]
  refine Wp.bind (R := fun r => ∃ n : Nat, (n : Fp) = x ∧ n ≤ p ∧ (x ≠ 0 → n = x.val) ∧ r = 4 :: (toBE 48 n ++ toBE 48 y.val)) ?_ ?_
  · unfold decodeBody
    have e1 : ((d0 :: (a ++ b)).drop 1).take 48 = a := by rw [List.drop_one, List.tail_cons, List.take_left' ha]
    have e2 : ((d0 :: (a ++ b)).drop 49).take 48 = b := by
      rw [List.drop_succ_cons, List.drop_left' ha, List.take_of_length_le hb.le]
    rw [e1, e2]
    refine Wp.bind (BIG.frombytes_wp ha.ge) ?_
    rintro u ⟨nu, vu⟩
    rw [List.take_of_length_le ha.le] at vu
    refine Wp.bind (BIG.frombytes_wp hb.ge) ?_
    rintro v ⟨nv, vv⟩
    rw [List.take_of_length_le hb.le] at vv
    rw [and_one, shift_one]
    refine Wp.bind (emap_wp (Nat.mod_lt _ (by norm_num)) nu (by omega) (by omega)) ?_
    rintro W' ⟨w, hw, hW'⟩
    refine Wp.bind (emap_wp (Nat.mod_lt _ (by norm_num)) nv (by omega) (by omega)) ?_
    rintro V' ⟨v', hv, hV'⟩
    rw [vu, Int.cast_natCast] at hw
    rw [vv, Int.cast_natCast] at hv
    obtain rfl := hw.unique hW
    obtain rfl := hv.unique hV
    refine Wp.bind (ECP.add_wpY (hV'.mono (by norm_num)) (hW'.mono (by norm_num))) ?_
    intro R hR
    rw [← eg] at hR
    have hxo := R.xOut_le x
    refine Wp.bind (ECP.getx_wp hR (by norm_num)) ?_
    rintro ⟨X, R1⟩ ⟨nX, vX, hR1⟩
    dsimp only at nX vX hR1 ⊢
    refine Wp.bind (ECP.gety_wp hR1 (by norm_num)) ?_
    rintro ⟨Y, R2⟩ ⟨nY, vY, -⟩
    dsimp only at nY vY ⊢
    refine Wp.bind (R := fun t => t = toBE 48 (R.xOut x)) (Wp.eq ?_) ?_
    · rw [BIG.tobytes_eq ((nX.lim58 (by omega) (by omega)).mono (by norm_num)) (by omega), vX, Int.toNat_natCast]
    rintro _ rfl
    refine Wp.bind (R := fun t => t = toBE 48 y.val) (Wp.eq ?_) ?_
    · rw [BIG.tobytes_eq ((nY.lim58 (by omega) (by omega)).mono (by norm_num)) (by omega), vY, Int.toNat_natCast]
    rintro _ rfl
    refine Wp.ret ⟨R.xOut x, ?_, hxo, fun hx => ECP.xOut_of_ne hx, rfl⟩
    rw [ECP.xOut]
    split
    · rename_i h'
      rw [h'.1]
      exact ZMod.natCast_self p
    · exact ZMod.natCast_zmod_val x
  · rintro _ ⟨n, h1, h2, h3, rfl⟩
    exact Wp.ret ⟨n, h1, h2, h3, rfl⟩

theorem decoding_bad {d0 : UInt8} {d : List UInt8} (hl : 96 ≤ d.length) (h : d0.toNat / 4 % 2 = 1) :
    decoding (d0 :: d) = some (.error INVALID_POINT) := by
  unfold decoding
  rw [if_neg (by simp; omega)]
  simp only [List.head?_cons, Option.bind_eq_bind, Option.bind_some]
  rw [if_pos ((and_four d0).2 h)]
  rfl

/-- What is made from the generator stands for the point. -/
theorem _root_.Spec.B383.EncodedFrom.encodes {e : List UInt8} {i : Nat} {g : G1} {d : List UInt8} (h : EncodedFrom e i g d) :
    Encodes d g := by
  obtain ⟨u, su, n, W, x, y, h, hu, hsu, hW, eg, hgap, rfl⟩ := h
  have hp := p_pos
  have hple := p_le_pow
  have hxp := ZMod.val_lt x
  have hn0 := hgap.1
  have hn1 := hgap.2.1
  have hm : (Spec.Rng.byte e (i + 97)).toNat % n < n := Nat.mod_lt _ hn0
  have hup : u < p := by rw [hu]; exact Nat.mod_lt _ (by exact_mod_cast hp)
  have hs2 : su < 2 := by rw [hsu]; exact Nat.mod_lt _ (by norm_num)
  have ev : (UInt8.ofNat (su + 2 * (y.val % 2))).toNat = su + 2 * (y.val % 2) := by
    rw [UInt8.toNat_ofNat']
    omega
  refine ⟨_, _, _, W, g - W, rfl, length_toBE _ _, length_toBE _ _, ?_, ?_, ?_, (sub_add_cancel g W).symm⟩
  · rw [ev]; omega
  · rw [ev, beNat_toBE, Nat.mod_eq_of_lt (by omega), show (su + 2 * (y.val % 2)) % 2 = su by omega]
    exact hW
  · rw [ev, beNat_toBE, Nat.mod_eq_of_lt (by omega), show (su + 2 * (y.val % 2)) / 2 % 2 = y.val % 2 by omega, eg]
    exact lifts_of_gap hgap hm

end mpin

end Amcl.B383
