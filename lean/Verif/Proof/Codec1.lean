import Verif.Proof.Ecp
import Verif.Proof.SignBit
import Verif.Proof.Bytes48
import Verif.Spec.Encoding
import Verif.Model.Api
/-!
# Encoding and decoding of points of the first curve
-/

set_option exponentiation.threshold 2000

namespace Amcl

open Spec

seal Spec.toBE Spec.signBit Spec.enc1

/-- The number `redc` returns: the least residue, except that a nonzero representation of 0 gives `p`. -/
def FP.outNat (f : FP) (v : Fp) : Nat := if v = 0 ∧ f.x.val ≠ 0 then p else v.val

theorem FP.outNat_le (f : FP) (v : Fp) : FP.outNat f v ≤ p := by
  unfold FP.outNat
  split
  · exact le_rfl
  · exact (ZMod.val_lt v).le

theorem FP.outNat_of_ne {f : FP} {v : Fp} (h : v ≠ 0) : FP.outNat f v = v.val := by
  rw [FP.outNat, if_neg (by simp [h])]

theorem FP.Can.outNat {f : FP} {v : Fp} (h : FP.Can f v) : FP.outNat f v = v.val := by
  rw [FP.outNat, if_neg]
  rintro ⟨h0, h1⟩
  exact h1 (h.zero_iff.2 h0)

theorem FP.redc_nat {f : FP} {L E : Int} {v : Fp} (hf : FP.Ok f L E v) (h : 1 ≤ L ∧ L ≤ 8 ∧ E ≤ 2 ^ 25) :
    Wp f.redc fun r => r.Nrm ∧ r.val = (FP.outNat f v : Int) := by
  refine (FP.redc_wp hf h).mono ?_
  rintro r ⟨hn, h0, h1, hv, hz⟩
  refine ⟨hn, ?_⟩
  rw [FP.outNat]
  have hp := p_val
  split
  · rename_i hc
    obtain ⟨hc, hc'⟩ := hc
    have hr : r.val ≠ 0 := fun e => hc' (hz.1 e)
    rw [hc, ZMod.intCast_zmod_eq_zero_iff_dvd] at hv
    obtain ⟨k, hk⟩ := hv
    have : k = 1 := by
      rw [hk] at h0 h1 hr
      have hp0 := p_pos
      have : 0 < k := by
        rcases lt_trichotomy k 0 with h | h | h
        · nlinarith
        · simp [h] at hr
        · exact h
      nlinarith
    rw [hk, this, mul_one]
  · rename_i hc
    have hlt : r.val < p := by
      rcases h1.lt_or_eq with h | h
      · exact h
      · exfalso
        have hv0 : v = 0 := by rw [← hv, h]; simp
        refine hc ⟨hv0, fun e => ?_⟩
        have := hz.2 e
        have := p_pos
        omega
    have : r.val.toNat = v.val := by
      rw [← hv, ← Int.toNat_of_nonneg h0, Int.cast_natCast, Int.toNat_natCast, ZMod.val_natCast,
        Nat.mod_eq_of_lt (by omega)]
    omega

namespace ECP

/-- The first coordinate the encoders write for a representation `P` of a point with abscissa `x`. -/
def xOut (P : ECP) (x : Fp) : Nat := if x = 0 ∧ P.z.toF = 1 ∧ P.x.x.val ≠ 0 then p else x.val

theorem xOut_le (P : ECP) (x : Fp) : P.xOut x ≤ p := by
  unfold xOut
  split
  · exact le_rfl
  · exact (ZMod.val_lt x).le

theorem xOut_of_ne {P : ECP} {x : Fp} (h : x ≠ 0) : P.xOut x = x.val := by
  rw [xOut, if_neg (by simp [h])]

theorem affine_coords {P : ECP} {E : Int} {x y : Fp} {h : y ^ 2 = x ^ 3 + b1} (hP : Ok P E (Pt.mk x y h))
    (hE : E ≤ 2 ^ 25) :
    Wp P.affine fun r => Ok r E (Pt.mk x y h) ∧ FP.Ok r.x 1 E x ∧ FP.Ok r.y 1 E y ∧ r.z.toF = 1 ∧
      FP.outNat r.x x = P.xOut x := by
  refine (affine_wp hP hE).mono ?_
  rintro r ⟨hr, -, hz, h1, h2⟩
  have hz := (hz (Pt.mk_ne h)).res
  obtain ⟨h', e⟩ := hr.coords hz
  rw [Pt.mk_inj] at e
  refine ⟨hr, e.1 ▸ hr.x, e.2 ▸ hr.y, hz, ?_⟩
  rw [FP.outNat, xOut]
  by_cases hc : P.z.toF = 1
  · rw [(h1 hc).1]; simp [hc]
  · have := (h2 (Pt.mk_ne h) hc).1.zero_iff
    rw [← e.1] at this
    rw [if_neg, if_neg]
    · simp [hc]
    · rintro ⟨e0, e1⟩
      exact e1 (this.2 e0)

theorem getx_wp {P : ECP} {E : Int} {x y : Fp} {h : y ^ 2 = x ^ 3 + b1} (hP : Ok P E (Pt.mk x y h))
    (hE : E ≤ 2 ^ 25) :
    Wp P.getx fun r => r.1.Nrm ∧ r.1.val = (P.xOut x : Int) ∧ Ok r.2 E (Pt.mk x y h) := by
  unfold getx
  refine Wp.bind (affine_coords hP hE) ?_
  rintro Q ⟨hQ, hx, hy, hz, eo⟩
  refine Wp.bind (FP.redc_nat hx (by omega)) ?_
  rintro r ⟨hn, hv⟩
  exact Wp.ret ⟨hn, by rw [hv, eo], hQ⟩

theorem gety_wp {P : ECP} {E : Int} {x y : Fp} {h : y ^ 2 = x ^ 3 + b1} (hP : Ok P E (Pt.mk x y h))
    (hE : E ≤ 2 ^ 25) :
    Wp P.gety fun r => r.1.Nrm ∧ r.1.val = (y.val : Int) ∧ Ok r.2 E (Pt.mk x y h) ∧ r.2.z.toF = 1 ∧
      (P.z.toF = 1 → r.2.x = P.x) := by
  unfold gety
  refine Wp.bind ((affine_coords hP hE).and (affine_wp hP hE)) ?_
  rintro Q ⟨⟨hQ, hx, hy, hz, eo⟩, -, -, -, hq, -⟩
  refine Wp.bind (FP.redc_nat hy (by omega)) ?_
  rintro r ⟨hn, hv⟩
  exact Wp.ret ⟨hn, by rw [hv, FP.outNat_of_ne (Pt.y_ne h)], hQ, hz, fun h => (hq h).1⟩

end ECP

theorem ECP.neg_xz {P : ECP} {E : Int} {g : G1} (hP : ECP.Ok P E g) (hE : E ≤ 2 ^ 20) :
    Wp P.neg fun r => r.x = P.x ∧ r.z = P.z := by
  unfold ECP.neg
  have h1 := hP.one_le
  refine Wp.bind (FP.neg_wp hP.y (by omega)) fun a ha => ?_
  refine Wp.bind (FP.norm_ok ha (by omega)) fun b hb => ?_
  exact Wp.ret ⟨rfl, rfl⟩

theorem p_le_pow : p ≤ 2 ^ 381 := by norm_num [p]

theorem setFlags_eq {x s : Nat} (hx : x < 2 ^ 381) (hs : s < 2) (l : List UInt8) :
    utils.setFlags (toBE 48 x ++ l) (UInt8.ofNat s) = some (enc1 x s ++ l) := by
  rw [enc1, toBE_succ 47 x, toBE_succ 47 (2 ^ 383 + s * 2 ^ 381 + x)]
  have e2 : toBE 47 (2 ^ 383 + s * 2 ^ 381 + x) = toBE 47 x := toBE_congr _ (by omega)
  rw [e2]
  have hb : x / 256 ^ 47 % 256 < 32 := by omega
  have eb : (2 ^ 383 + s * 2 ^ 381 + x) / 256 ^ 47 % 256 = 128 + 32 * s + x / 256 ^ 47 % 256 := by omega
  rw [eb]
  generalize x / 256 ^ 47 % 256 = c at *
  show (do
    let h ← u8add (UInt8.ofNat c) (32 * UInt8.ofNat s)
    let h ← u8add h 128
    return h :: (toBE 47 x ++ l) : Option (List UInt8)) = _
  have e1 : (32 * UInt8.ofNat s).toNat = 32 * s := by
    rw [UInt8.toNat_mul, UInt8.toNat_ofNat']
    show 32 * (s % 2 ^ 8) % 2 ^ 8 = _
    omega
  have e3 : (UInt8.ofNat c).toNat = c := by rw [UInt8.toNat_ofNat']; omega
  have e4 : (UInt8.ofNat c + 32 * UInt8.ofNat s).toNat = c + 32 * s := by
    rw [UInt8.toNat_add, e1, e3]; omega
  rw [u8add, if_pos (by rw [e1, e3]; omega), Option.bind_eq_bind, Option.bind_some, u8add,
    if_pos (by rw [e4]; show _ + 128 < 256; omega), Option.bind_some]
  show some _ = some _
  congr 2
  apply UInt8.toNat_inj.1
  rw [UInt8.toNat_add, e4, UInt8.toNat_ofNat']
  show (c + 32 * s + 128) % 2 ^ 8 = _
  congr 1
  omega

theorem compress_g1_inf {P : ECP} {E : Int} (hP : ECP.Ok P E 0) (hE : E ≤ 2 ^ 25) :
    utils.compress_g1 P = some (encInf 48) := by
  obtain ⟨r, e, hr⟩ := ECP.is_infinity_wp hP hE
  rw [utils.compress_g1, e, hr.2 rfl]
  rfl

theorem ECP.tobytes_wp {P : ECP} {E : Int} {x y : Fp} {h : y ^ 2 = x ^ 3 + b1}
    (hP : ECP.Ok P E (Pt.mk x y h)) (hE : E ≤ 2 ^ 25) :
    Wp P.tobytes fun r => r.1 = 4 :: (toBE 48 (P.xOut x) ++ toBE 48 y.val) := by
  unfold ECP.tobytes
  have hp := p_le_pow
  have hx1 := P.xOut_le x
  have hyl := ZMod.val_lt y
  refine Wp.bind (ECP.affine_coords hP hE) ?_
  rintro Q ⟨hQ, hx, hy, hz, eo⟩
  refine Wp.bind (FP.redc_nat hx (by omega)) ?_
  rintro X ⟨nX, vX⟩
  rw [eo] at vX
  refine Wp.bind (Wp.eq (nX.tobytes vX (by omega))) ?_
  rintro _ rfl
  refine Wp.bind (FP.redc_nat hy (by omega)) ?_
  rintro Y ⟨nY, vY⟩
  rw [FP.outNat_of_ne (Pt.y_ne h)] at vY
  refine Wp.bind (Wp.eq (nY.tobytes vY (by omega))) ?_
  rintro _ rfl
  exact Wp.ret rfl

theorem a_flag_wp {n : Nat} (hn : n ≤ p) {l : List UInt8} (hl : l = toBE 48 n) :
    Wp (BIG.frombytes l) fun b => utils.calc_a_flag b = some (UInt8.ofNat (signBit n)) := by
  subst hl
  have hp := p_le_pow
  refine (frombytes_toBE (n := n) (by omega)).mono ?_
  rintro b ⟨nb, vb⟩
  rw [calc_a_flag_eq ((nb.lim58 (by omega) (by omega)).mono (by norm_num)) (by omega) (by omega), vb,
    Int.toNat_natCast]

theorem compress_g1_eq {P : ECP} {E : Int} {x y : Fp} {h : y ^ 2 = x ^ 3 + b1}
    (hP : ECP.Ok P E (Pt.mk x y h)) (hE : E ≤ 2 ^ 25) :
    utils.compress_g1 P = some (enc1 (P.xOut x) (signBit y.val)) := by
  suffices Wp (utils.compress_g1 P) fun r => r = enc1 (P.xOut x) (signBit y.val) by
    obtain ⟨r, e, rfl⟩ := this
    exact e
  unfold utils.compress_g1
  refine Wp.bind (ECP.is_infinity_wp hP hE) fun r hr => ?_
  rw [if_neg (fun e => Pt.mk_ne h (hr.1 e))]
  refine Wp.bind (ECP.tobytes_wp hP hE) ?_
  rintro ⟨_, Q⟩ rfl
  dsimp only
  have l1 : (((4 : UInt8) :: (toBE 48 (P.xOut x) ++ toBE 48 y.val)).drop 1).take 48 = toBE 48 (P.xOut x) := by
    rw [List.drop_one, List.tail_cons, List.take_append_of_le_length (by rw [length_toBE]),
      List.take_of_length_le (by rw [length_toBE])]
  have l2 : ((4 : UInt8) :: (toBE 48 (P.xOut x) ++ toBE 48 y.val)).drop 49 = toBE 48 y.val := by
    rw [List.drop_succ_cons, List.drop_append_of_le_length (by rw [length_toBE]),
      List.drop_of_length_le (by rw [length_toBE]), List.nil_append]
  refine Wp.bind (a_flag_wp (ZMod.val_lt y).le l2) fun b hb => ?_
  refine Wp.bind (Wp.eq hb) ?_
  rintro _ rfl
  rw [l1]
  have := setFlags_eq (x := P.xOut x) (by
    have : p < 2 ^ 381 := by norm_num [p]
    have := P.xOut_le x
    omega) (signBit_lt y.val) []
  rw [List.append_nil, List.append_nil] at this
  exact Wp.eq this

/-- The leading byte of a 48-byte number, split into its flags. -/
theorem head_flags {N : Nat} (hN : N < 2 ^ 384) (b0 : UInt8) (hb : b0 = UInt8.ofNat (N / 256 ^ 47 % 256)) :
    (b0 / 128 ≠ 1 ↔ N < 2 ^ 383) ∧ (b0 % 128 / 64 = 1 ↔ N / 2 ^ 382 % 2 = 1) ∧
    (b0 % 64 / 32 = UInt8.ofNat (N / 2 ^ 381 % 2)) ∧ (b0 % 64 = 0 ↔ N / 2 ^ 376 % 64 = 0) ∧
    ((b0 % 64 / 32 ≠ 0 ∨ b0 % 32 ≠ 0) ↔ N / 2 ^ 376 % 64 ≠ 0) ∧
    b0 % 32 = UInt8.ofNat (N % 2 ^ 381 / 256 ^ 47 % 256) := by
  have e : b0.toNat = N / 2 ^ 376 := by
    rw [hb, UInt8.toNat_ofNat']
    rw [show (256 : Nat) ^ 47 = 2 ^ 376 by norm_num]
    omega
  simp only [← UInt8.toNat_inj, Ne, UInt8.toNat_div, UInt8.toNat_mod, e, UInt8.toNat_ofNat']
  rw [show (128 : UInt8).toNat = 128 from rfl, show (1 : UInt8).toNat = 1 from rfl,
    show (64 : UInt8).toNat = 64 from rfl, show (32 : UInt8).toNat = 32 from rfl,
    show (0 : UInt8).toNat = 0 from rfl, show (256 : Nat) ^ 47 = 2 ^ 376 by norm_num]
  refine ⟨?_, ?_, ?_, ?_, ?_, ?_⟩ <;> omega

theorem any_ne_iff (n N : Nat) : (toBE n N).any (· ≠ 0) = true ↔ N % 256 ^ n ≠ 0 := by
  induction n with
  | zero => simp [toBE, Nat.mod_one]
  | succ n ih =>
    rw [toBE_succ, List.any_cons, Bool.or_eq_true, ih]
    have : N % 256 ^ (n + 1) = 256 ^ n * (N / 256 ^ n % 256) + N % 256 ^ n := by
      rw [pow_succ, Nat.mod_mul]; ring
    rw [this]
    have e : (decide (UInt8.ofNat (N / 256 ^ n % 256) ≠ 0) = true) ↔ N / 256 ^ n % 256 ≠ 0 := by
      rw [decide_eq_true_iff, Ne, ← UInt8.toNat_inj, UInt8.toNat_ofNat']
      show ¬ (_ = 0) ↔ _
      omega
    rw [e]
    have h2 : 0 < 256 ^ n := by positivity
    constructor
    · intro h h'
      rw [Nat.add_eq_zero_iff, Nat.mul_eq_zero] at h'
      omega
    · intro h
      by_contra hc
      push Not at hc
      rw [hc.1, hc.2] at h
      simp at h

theorem ofNat_lt2 {a b : Nat} (ha : a < 2) (hb : b < 2) : UInt8.ofNat a = UInt8.ofNat b ↔ a = b := by
  rw [← UInt8.toNat_inj, UInt8.toNat_ofNat', UInt8.toNat_ofNat']
  omega

/-- What `decompress_g1` does with 48 bytes of value `N`. -/
def Dec1 (N : Nat) (r : Except DecodeError ECP) : Prop :=
  (N < 2 ^ 383 → r = .error .InvalidCFlag) ∧
  (2 ^ 383 ≤ N → N / 2 ^ 382 % 2 = 1 → N % 2 ^ 382 ≠ 0 → r = .error .BadPoint) ∧
  (2 ^ 383 ≤ N → N / 2 ^ 382 % 2 = 1 → N % 2 ^ 382 = 0 → ∃ P, r = .ok P ∧ ECP.Ok P 2 0) ∧
  (2 ^ 383 ≤ N → N / 2 ^ 382 % 2 = 0 → ¬ IsSquare (((N % 2 ^ 381 : Nat) : Fp) ^ 3 + b1) →
    r = .error .BadPoint) ∧
  (2 ^ 383 ≤ N → N / 2 ^ 382 % 2 = 0 → IsSquare (((N % 2 ^ 381 : Nat) : Fp) ^ 3 + b1) →
    ∃ P y h, r = .ok P ∧ IsSquare y ∧ P.z.toF = 1 ∧ (P.x.x.val = 0 ↔ N % 2 ^ 381 = 0) ∧
      ECP.Ok P 4 (if signBit y.val = N / 2 ^ 381 % 2 then Pt.mk ((N % 2 ^ 381 : Nat) : Fp) y h
        else - Pt.mk ((N % 2 ^ 381 : Nat) : Fp) y h))

theorem decompress_g1_wp {b : List UInt8} (hb : b.length = 48) :
    Wp (utils.decompress_g1 b) (Dec1 (beNat b)) := by
  have hN := beNat_lt48 hb
  have e := toBE_of_bytes hb
  generalize beNat b = N at *
  rw [toBE_succ] at e
  generalize hb0 : UInt8.ofNat (N / 256 ^ 47 % 256) = b0 at e
  obtain ⟨f1, f2, f3, -, f5, f6⟩ := head_flags hN b0 hb0.symm
  unfold utils.decompress_g1
  rw [if_neg (by simpa using hb)]
  subst e
  dsimp only
  have hx : N % 2 ^ 381 < 2 ^ 381 := Nat.mod_lt _ (by norm_num)
  have e48 : b0 % 32 :: toBE 47 N = toBE 48 (N % 2 ^ 381) := by
    rw [toBE_succ 47 (N % 2 ^ 381), f6]
    congr 1
    refine toBE_congr _ ?_
    rw [show (256 : Nat) ^ 47 = 2 ^ 376 by norm_num, Nat.mod_mod_of_dvd _ (by norm_num)]
  unfold Dec1
  by_cases h1 : N < 2 ^ 383
  · rw [if_pos (f1.2 h1)]
    exact Wp.ret ⟨fun _ => rfl, fun h => absurd h (by omega), fun h => absurd h (by omega),
      fun h => absurd h (by omega), fun h => absurd h (by omega)⟩
  · rw [if_neg (fun h => h1 (f1.1 h))]
    by_cases h2 : N / 2 ^ 382 % 2 = 1
    · rw [if_pos (f2.2 h2)]
      by_cases h3 : N % 2 ^ 382 = 0
      · rw [if_neg (fun h => f5.1 h (by omega)), if_neg (by rw [any_ne_iff, not_not, show (256 : Nat) ^ 47 = 2 ^ 376 by norm_num]; omega)]
        refine Wp.bind ECP.new_wp fun P hP => ?_
        exact Wp.ret ⟨fun h => absurd h h1, fun _ _ h => absurd h3 h, fun _ _ _ => ⟨P, rfl, hP⟩,
          fun _ h => absurd h (by omega), fun _ h => absurd h (by omega)⟩
      · have : Wp (Pure.pure (.error .BadPoint) : Option (Except DecodeError ECP)) (Dec1 N) :=
          Wp.ret ⟨fun h => absurd h h1, fun _ _ _ => rfl, fun _ _ h => absurd h h3,
            fun _ h => absurd h (by omega), fun _ h => absurd h (by omega)⟩
        by_cases h4 : N / 2 ^ 376 % 64 = 0
        · rw [if_neg (fun h => f5.1 h h4), if_pos (by rw [any_ne_iff, show (256 : Nat) ^ 47 = 2 ^ 376 by norm_num]; omega)]
          exact this
        · rw [if_pos (f5.2 h4)]
          exact this
    · rw [if_neg (fun h => h2 (f2.1 h)), e48]
      refine Wp.bind (frombytes_toBE (by omega)) ?_
      rintro ix ⟨nx, vx⟩
      have hp : (2 : Int) ^ 381 ≤ 2 ^ 25 * p := by norm_num [p]
      refine Wp.bind (ECP.new_big_wp ((nx.lim58 (by omega) (by omega)).mono (by norm_num)) (by omega)
        (by omega)) ?_
      rintro P ⟨hs, hns⟩
      rw [vx, Int.cast_natCast] at hs hns
      by_cases hsq : IsSquare (((N % 2 ^ 381 : Nat) : Fp) ^ 3 + b1)
      · obtain ⟨y, h, hP, hz, -, hy, hx0⟩ := hs hsq
        refine Wp.bind (ECP.is_infinity_wp hP (by norm_num)) fun r hr => ?_
        rw [if_neg (fun e => Pt.mk_ne h (hr.1 e))]
        refine Wp.bind (ECP.gety_wp hP (by norm_num)) ?_
        rintro ⟨Y, Q⟩ ⟨nY, vY, hQ, hzQ, hxQ⟩
        dsimp only at nY vY hQ hzQ hxQ ⊢
        have hyl := ZMod.val_lt y
        have hxQ := hxQ hz
        have hp := p_le_pow
        refine Wp.bind (Wp.eq (calc_a_flag_eq ((nY.lim58 (by omega) (by omega)).mono (by norm_num)) (by omega)
          (by omega))) ?_
        rintro _ rfl
        rw [vY, Int.toNat_natCast, f3]
        have hbit := ofNat_lt2 (signBit_lt y.val) (b := N / 2 ^ 381 % 2) (by omega)
        rw [show ((N % 2 ^ 381 : Nat) : Int) = 0 ↔ N % 2 ^ 381 = 0 from Nat.cast_eq_zero] at hx0
        by_cases hc : signBit y.val = N / 2 ^ 381 % 2
        · rw [if_neg (fun h => h (hbit.2 hc))]
          refine Wp.ret ⟨fun h => absurd h h1, fun _ h => absurd h h2, fun _ h => absurd h h2,
            fun _ _ h => absurd hsq h, fun _ _ _ => ⟨Q, y, h, rfl, hy, hzQ, by rw [hxQ]; exact hx0, ?_⟩⟩
          rw [if_pos hc]
          exact hQ.mono (by norm_num)
        · rw [if_pos (fun h => hc (hbit.1 h))]
          refine Wp.bind (ECP.neg_wp hQ (by norm_num) |>.and (ECP.neg_xz hQ (by norm_num))) ?_
          rintro R ⟨hR, ex, ez⟩
          refine Wp.ret ⟨fun h => absurd h h1, fun _ h => absurd h h2, fun _ h => absurd h h2,
            fun _ _ h => absurd hsq h, fun _ _ _ => ⟨R, y, h, rfl, hy, by rw [ez, hzQ], by
              rw [ex, hxQ]; exact hx0, ?_⟩⟩
          rw [if_neg hc]
          exact hR.mono (by norm_num)
      · refine Wp.bind (ECP.is_infinity_wp (hns hsq) (by norm_num)) fun r hr => ?_
        rw [if_pos (hr.2 rfl)]
        exact Wp.ret ⟨fun h => absurd h h1, fun _ h => absurd h h2, fun _ h => absurd h h2,
          fun _ _ _ => rfl, fun _ _ h => absurd h hsq⟩

end Amcl
