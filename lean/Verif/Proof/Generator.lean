import Verif.Spec.Generators
import Verif.Proof.Codec2
import Verif.Proof.EcpMul
import Verif.Proof.Ecp2Mul
/-!
# The generators, the API invariants, and the uncompressed encoding
-/

set_option exponentiation.threshold 2000

namespace Amcl

open Spec

seal Spec.toBE Spec.signBit Spec.enc1

theorem ECP.generator_wp : Wp ECP.generator fun P => ECP.Ok P 2 gen1 ∧ P.z.toF = 1 := by
  have ex : rom.CURVE_GX.val = (g1x : Int) := by norm_num [rom.CURVE_GX, BIG.val, g1x]
  have ey : rom.CURVE_GY.val = (g1y : Int) := by norm_num [rom.CURVE_GY, BIG.val, g1y]
  have hp := p_val
  have h := ECP.new_bigs_wp (ix := rom.CURVE_GX) (iy := rom.CURVE_GY)
    (by constructor <;> norm_num [rom.CURVE_GX]) (by constructor <;> norm_num [rom.CURVE_GY])
    (by rw [ex]; exact Int.natCast_nonneg _) (by rw [ey]; exact Int.natCast_nonneg _)
    (by rw [ex]; norm_num [g1x, p]) (by rw [ey]; norm_num [g1y, p])
  refine h.mono ?_
  rintro P ⟨h, -⟩
  rw [ex, ey, Int.cast_natCast, Int.cast_natCast] at h
  obtain ⟨h1, h2, -⟩ := h g1_on
  exact ⟨h1, h2⟩

theorem ECP2.generator_wp : Wp ECP2.generator fun P => ECP2.Ok P 2 gen2 ∧ P.z.toF = 1 := by
  have ex : rom.CURVE_PXA.val = (g2xa : Int) := by norm_num [rom.CURVE_PXA, BIG.val, g2xa]
  have ex' : rom.CURVE_PXB.val = (g2xb : Int) := by norm_num [rom.CURVE_PXB, BIG.val, g2xb]
  have ey : rom.CURVE_PYA.val = (g2ya : Int) := by norm_num [rom.CURVE_PYA, BIG.val, g2ya]
  have ey' : rom.CURVE_PYB.val = (g2yb : Int) := by norm_num [rom.CURVE_PYB, BIG.val, g2yb]
  unfold ECP2.generator
  refine Wp.bind (FP2.new_bigs_wp (c := rom.CURVE_PXA) (d := rom.CURVE_PXB)
    (by constructor <;> norm_num [rom.CURVE_PXA]) (by constructor <;> norm_num [rom.CURVE_PXB])
    (by rw [ex]; exact Int.natCast_nonneg _) (by rw [ex']; exact Int.natCast_nonneg _)
    (by rw [ex]; norm_num [g2xa, p]) (by rw [ex']; norm_num [g2xb, p])) ?_
  rintro x ⟨hx, -⟩
  refine Wp.bind (FP2.new_bigs_wp (c := rom.CURVE_PYA) (d := rom.CURVE_PYB)
    (by constructor <;> norm_num [rom.CURVE_PYA]) (by constructor <;> norm_num [rom.CURVE_PYB])
    (by rw [ey]; exact Int.natCast_nonneg _) (by rw [ey']; exact Int.natCast_nonneg _)
    (by rw [ey]; norm_num [g2ya, p]) (by rw [ey']; norm_num [g2yb, p])) ?_
  rintro y ⟨hy, -⟩
  rw [ex, ex', Int.cast_natCast, Int.cast_natCast] at hx
  rw [ey, ey', Int.cast_natCast, Int.cast_natCast] at hy
  refine (ECP2.new_fp2s_wp hx hy (by norm_num)).mono ?_
  rintro P ⟨h, -⟩
  obtain ⟨h1, h2, -⟩ := h g2_on
  exact ⟨h1, h2⟩

/-! ### What a value of the API stands for -/

/-- The projective coordinates `P` represent the point `g` of the first curve: every coordinate is a
normalised representative of a field element (in Montgomery form) with excess counter at most `2^10`,
and `(X : Y : Z)` are projective coordinates of `g`. -/
def ECP.Rep (P : ECP) (g : G1) : Prop := ECP.Ok P (2 ^ 10) g

/-- The same on the twist. -/
def ECP2.Rep (P : ECP2) (g : G2) : Prop := ECP2.Ok P (2 ^ 10) g

/-- The limbs of the key are normalised and their value is `n < 2^384`. -/
structure SecretKey.Rep (sk : SecretKey) (n : Nat) : Prop where
  nrm : sk.x.Nrm
  val : sk.x.val = (n : Int)
  lt : n < 2 ^ 384

/-- The key stands for the point `g`. -/
def PublicKey.Rep (k : PublicKey) (g : G1) : Prop := k.point.Rep g
@[inherit_doc PublicKey.Rep] def AggregatePublicKey.Rep (k : AggregatePublicKey) (g : G1) : Prop := k.point.Rep g
/-- The signature stands for the point `g`. -/
def Signature.Rep (s : Signature) (g : G2) : Prop := s.point.Rep g
@[inherit_doc Signature.Rep] def AggregateSignature.Rep (s : AggregateSignature) (g : G2) : Prop := s.point.Rep g

theorem PublicKey.from_secret_key_wp {sk : SecretKey} {n : Nat} (h : sk.Rep n) :
    Wp (PublicKey.from_secret_key sk) fun pk => pk.Rep (n • gen1) ∧
      (n • gen1 ≠ 0 → FP.Can pk.point.z 1) := by
  unfold PublicKey.from_secret_key
  have hl := h.lt
  have hv := h.val
  refine Wp.bind ECP.generator_wp ?_
  rintro g ⟨hg, -⟩
  refine Wp.bind (ECP.mul_wp (hg.mono (by norm_num)) h.nrm (by omega) (by omega)) fun P hP => ?_
  rw [hv, natCast_zsmul] at hP
  exact Wp.ret ⟨hP.1, hP.2⟩

theorem as_uncompressed_inf {pk : PublicKey} (h : pk.Rep 0) :
    pk.as_uncompressed_bytes = some (List.replicate 96 0, pk) := by
  obtain ⟨r, e, hr⟩ := ECP.is_infinity_wp h (by norm_num)
  rw [PublicKey.as_uncompressed_bytes, e, hr.2 rfl]
  rfl

theorem as_uncompressed_wp {pk : PublicKey} {x y : Fp} {h : y ^ 2 = x ^ 3 + b1} (hk : pk.Rep (Pt.mk x y h)) :
    Wp pk.as_uncompressed_bytes fun r => r.1 = toBE 48 (pk.point.xOut x) ++ toBE 48 y.val ∧
      r.2.Rep (Pt.mk x y h) := by
  unfold PublicKey.as_uncompressed_bytes
  have hp := p_le_pow
  have h1 := pk.point.xOut_le x
  have h2 := ZMod.val_lt y
  refine Wp.bind (ECP.is_infinity_wp hk (by norm_num)) fun r hr => ?_
  rw [if_neg (fun e => Pt.mk_ne h (hr.1 e))]
  refine Wp.bind (ECP.getx_wp hk (by norm_num)) ?_
  rintro ⟨X, P⟩ ⟨nX, vX, hP⟩
  dsimp only at nX vX hP ⊢
  refine Wp.bind (Wp.eq (nX.tobytes vX (by omega))) ?_
  rintro _ rfl
  refine Wp.bind (ECP.gety_wp hP (by norm_num)) ?_
  rintro ⟨Y, Q⟩ ⟨nY, vY, hQ, -⟩
  dsimp only at nY vY hQ ⊢
  refine Wp.bind (Wp.eq (nY.tobytes vY (by omega))) ?_
  rintro _ rfl
  exact Wp.ret ⟨rfl, hQ⟩

/-- What `from_uncompressed_bytes` does with two times 48 bytes of values `N` and `M`. -/
def DecU (N M : Nat) (r : Except DecodeError PublicKey) : Prop :=
  (N = 0 ∧ M = 0 → ∃ pk, r = .ok pk ∧ pk.Rep 0) ∧
  (¬ (N = 0 ∧ M = 0) → ¬ (M : Fp) ^ 2 = (N : Fp) ^ 3 + b1 → r = .error .BadPoint) ∧
  (¬ (N = 0 ∧ M = 0) → ∀ h : (M : Fp) ^ 2 = (N : Fp) ^ 3 + b1, ∃ pk, r = .ok pk ∧ pk.Rep (Pt.mk _ _ h) ∧
    pk.point.z.toF = 1 ∧ (pk.point.x.x.val = 0 ↔ N = 0))

theorem from_uncompressed_wp {b : List UInt8} (hb : b.length = 96) :
    Wp (PublicKey.from_uncompressed_bytes b) (DecU (beNat (b.take 48)) (beNat (b.drop 48))) := by
  have hl1 : (b.take 48).length = 48 := by rw [List.length_take, hb]; rfl
  have hl2 : (b.drop 48).length = 48 := by rw [List.length_drop, hb]
  have e1 := toBE_of_bytes hl1
  have e2 := toBE_of_bytes hl2
  have e : b = toBE 48 (beNat (b.take 48)) ++ toBE 48 (beNat (b.drop 48)) := by
    rw [← e1, ← e2, List.take_append_drop]
  have hN := beNat_lt48 hl1
  have hM := beNat_lt48 hl2
  clear hl1 hl2
  unfold PublicKey.from_uncompressed_bytes
  rw [if_neg (by simpa using hb)]
  generalize beNat (b.take 48) = N at *
  generalize beNat (b.drop 48) = M at *
  have hall : b.all (· = 0) = true ↔ N = 0 ∧ M = 0 := by
    have h1 := any_ne_iff 48 N
    have h2 := any_ne_iff 48 M
    rw [Nat.mod_eq_of_lt (by omega)] at h1 h2
    rw [e, List.all_append, Bool.and_eq_true, List.all_eq_not_any_not, List.all_eq_not_any_not]
    simp only [Bool.not_eq_true', ← decide_not]
    rw [← Bool.not_eq_true, ← Bool.not_eq_true]
    exact and_congr (by simpa using not_congr h1) (by simpa using not_congr h2)
  unfold DecU
  by_cases h0 : N = 0 ∧ M = 0
  · rw [if_pos (hall.2 h0)]
    refine Wp.bind ECP.new_wp fun P hP => ?_
    exact Wp.ret ⟨fun _ => ⟨_, rfl, hP.mono (by norm_num)⟩, fun h => absurd h0 h, fun h => absurd h0 h⟩
  · rw [if_neg (fun h => h0 (hall.1 h)), e1, e2]
    refine Wp.bind (frombytes_toBE hN) ?_
    rintro ix ⟨nx, vx⟩
    refine Wp.bind (frombytes_toBE hM) ?_
    rintro iy ⟨ny, vy⟩
    have hp : (2 : Int) ^ 384 ≤ 2 ^ 25 * p := by norm_num [p]
    refine Wp.bind (ECP.new_bigs_wp ((nx.lim58 (by omega) (by omega)).mono (by norm_num))
      ((ny.lim58 (by omega) (by omega)).mono (by norm_num)) (by omega) (by omega) (by omega) (by omega)) ?_
    rintro P ⟨hs, hns⟩
    rw [vx, vy, Int.cast_natCast, Int.cast_natCast] at hs hns
    by_cases hc : (M : Fp) ^ 2 = (N : Fp) ^ 3 + b1
    · obtain ⟨hP, hz, hx, -⟩ := hs hc
      refine Wp.bind (ECP.is_infinity_wp hP (by norm_num)) fun r hr => ?_
      rw [if_neg (fun e => Pt.mk_ne hc (hr.1 e))]
      rw [Nat.cast_eq_zero] at hx
      exact Wp.ret ⟨fun h => absurd h h0, fun _ h => absurd hc h,
        fun _ _ => ⟨_, rfl, hP.mono (by norm_num), hz, hx⟩⟩
    · refine Wp.bind (ECP.is_infinity_wp (hns hc) (by norm_num)) fun r hr => ?_
      rw [if_pos (hr.2 rfl)]
      exact Wp.ret ⟨fun h => absurd h h0, fun _ _ => rfl, fun _ h => absurd h hc⟩

end Amcl
