import Verif.Spec.B383.Generators
import Verif.Proof.B383.EcpMul
import Verif.Proof.B383.Ecp2Mul
import Verif.Proof.B383.Orders
/-!
# The generators; representations of points
-/

set_option exponentiation.threshold 2000

namespace Spec.B383

open Spec

theorem prime_r' : Nat.Prime r := Primes.B383.prime_r

theorem gen1_ne : gen1 ≠ 0 := Pt.mk_ne _

theorem gen2_ne : gen2 ≠ 0 := Pt.mk_ne _

theorem addOrderOf_gen1 : addOrderOf gen1 = r :=
  have := Fact.mk Primes.B383.prime_r
  addOrderOf_eq_prime Amcl.B383.r_gen1 gen1_ne

theorem addOrderOf_gen2 : addOrderOf gen2 = r :=
  have := Fact.mk Primes.B383.prime_r
  addOrderOf_eq_prime Amcl.B383.r_gen2 gen2_ne

theorem smul_gen1_iff {n m : Nat} : n • gen1 = m • gen1 ↔ n % r = m % r := by
  have := nsmul_eq_nsmul_iff_modEq (x := gen1) (n := n) (m := m)
  rw [addOrderOf_gen1] at this
  exact this

theorem smul_gen1_zero {n : Nat} : n • gen1 = 0 ↔ r ∣ n := by
  rw [← addOrderOf_gen1, addOrderOf_dvd_iff_nsmul_eq_zero]

section
variable {F : Type} [Field F] [DecidableEq F] {b : F} [g : GoodB b]

/-- A point with abscissa 0 has order 3. -/
theorem Pt.three_smul_zero {y : F} (h : y ^ 2 = (0 : F) ^ 3 + b) : 3 • (Pt.mk 0 y h : Pt b) = 0 := by
  have h2 : (Pt.mk 0 y h : Pt b) + Pt.mk 0 y h = - Pt.mk 0 y h := by
    obtain ⟨h3, e⟩ := Pt.add_self h (l := 0) (x3 := 0) (y3 := -y) (by ring) (by ring) (by ring)
    rw [e, Pt.neg_mk]
  rw [show (3 : ℕ) = 2 + 1 from rfl, add_nsmul, two_nsmul, one_nsmul, h2, neg_add_cancel]

/-- A finite point of order dividing `r` has a nonzero abscissa. -/
theorem Pt.x_ne_of_order {x y : F} {h : y ^ 2 = x ^ 3 + b} (hr : r • (Pt.mk x y h : Pt b) = 0) : x ≠ 0 := by
  rintro rfl
  have h3 := Pt.three_smul_zero h
  have hg := Nat.dvd_gcd (addOrderOf_dvd_of_nsmul_eq_zero h3) (addOrderOf_dvd_of_nsmul_eq_zero hr)
  rw [show Nat.gcd 3 r = 1 by norm_num [r], Nat.dvd_one, AddMonoid.addOrderOf_eq_one_iff] at hg
  exact Pt.mk_ne h hg

end

end Spec.B383

namespace Amcl.B383

open Spec Spec.B383

theorem ECP.generator_wp : Wp ECP.generator fun P => ECP.Ok P 2 gen1 ∧ P.z.toF = 1 := by
  have ex : rom.CURVE_GX.val = (g1x : Int) := by norm_num [rom.CURVE_GX, BIG.val, g1x]
  have ey : rom.CURVE_GY.val = (g1y : Int) := by norm_num [rom.CURVE_GY, BIG.val, g1y]
  have hp := p_val
  have h := ECP.new_bigs_wp (ix := rom.CURVE_GX) (iy := rom.CURVE_GY)
    (by constructor <;> norm_num [rom.CURVE_GX]) (by constructor <;> norm_num [rom.CURVE_GY])
    (by rw [ex]; exact Int.natCast_nonneg _) (by rw [ey]; exact Int.natCast_nonneg _)
    (by rw [ex]; norm_num [g1x, p]) (by rw [ey]; norm_num [g1y, p])
  refine h.mono ?_
  rintro P ⟨h, -⟩
  rw [ex, ey, Int.cast_natCast, Int.cast_natCast] at h
  obtain ⟨h1, h2, -⟩ := h g1_on
  exact ⟨h1, h2⟩

theorem ECP2.generator_wp : Wp ECP2.generator fun P => ECP2.Ok P 2 gen2 ∧ P.z.toF = 1 := by
  have ex : rom.CURVE_PXA.val = (g2xa : Int) := by norm_num [rom.CURVE_PXA, BIG.val, g2xa]
  have ex' : rom.CURVE_PXB.val = (g2xb : Int) := by norm_num [rom.CURVE_PXB, BIG.val, g2xb]
  have ey : rom.CURVE_PYA.val = (g2ya : Int) := by norm_num [rom.CURVE_PYA, BIG.val, g2ya]
  have ey' : rom.CURVE_PYB.val = (g2yb : Int) := by norm_num [rom.CURVE_PYB, BIG.val, g2yb]
  unfold ECP2.generator
  refine Wp.bind (FP2.new_bigs_wp (c := rom.CURVE_PXA) (d := rom.CURVE_PXB)
    (by constructor <;> norm_num [rom.CURVE_PXA]) (by constructor <;> norm_num [rom.CURVE_PXB])
    (by rw [ex]; exact Int.natCast_nonneg _) (by rw [ex']; exact Int.natCast_nonneg _)
    (by rw [ex]; norm_num [g2xa, p]) (by rw [ex']; norm_num [g2xb, p])) ?_
  rintro x ⟨hx, -⟩
  refine Wp.bind (FP2.new_bigs_wp (c := rom.CURVE_PYA) (d := rom.CURVE_PYB)
    (by constructor <;> norm_num [rom.CURVE_PYA]) (by constructor <;> norm_num [rom.CURVE_PYB])
    (by rw [ey]; exact Int.natCast_nonneg _) (by rw [ey']; exact Int.natCast_nonneg _)
    (by rw [ey]; norm_num [g2ya, p]) (by rw [ey']; norm_num [g2yb, p])) ?_
  rintro y ⟨hy, -⟩
  rw [ex, ex', Int.cast_natCast, Int.cast_natCast] at hx
  rw [ey, ey', Int.cast_natCast, Int.cast_natCast] at hy
  refine (ECP2.new_fp2s_wp hx hy (by norm_num)).mono ?_
  rintro P ⟨h, -⟩
  obtain ⟨h1, h2, -⟩ := h g2_on
  exact ⟨h1, h2⟩

/-- The projective coordinates `P` represent the point `g` of the first curve: every coordinate is a
normalised representative of a field element (in Montgomery form) with excess counter at most `2^10`,
and `(X : Y : Z)` are projective coordinates of `g`. -/
def ECP.Rep (P : ECP) (g : G1) : Prop := ECP.Ok P (2 ^ 10) g

/-- The same on the twist. -/
def ECP2.Rep (P : ECP2) (g : G2) : Prop := ECP2.Ok P (2 ^ 10) g

theorem p_le_pow : p ≤ 2 ^ 383 := by norm_num [p]

/-- A big integer of 7 limbs for every number below `2^384`. -/
theorem exists_of_nat {n : Nat} (hn : n < 2 ^ 384) : ∃ b : BIG, b.Nrm ∧ b.val = (n : Int) := by
  obtain ⟨b, -, h1, h2⟩ := BIG.frombytes_wp (b := toBE 48 n) (by rw [length_toBE])
  refine ⟨b, h1, ?_⟩
  rw [h2, List.take_of_length_le (by rw [length_toBE]), beNat_toBE, Nat.mod_eq_of_lt (by omega)]

theorem val_lt_384 (x : Fp) : x.val < 2 ^ 384 := by
  have := ZMod.val_lt x
  have := p_le_pow
  omega

theorem big_of_fp (x : Fp) : ∃ b : BIG, b.Lim (2 ^ 61) ∧ 0 ≤ b.val ∧ b.val ≤ 2 ^ 23 * p ∧ (b.val : Fp) = x := by
  obtain ⟨b, h1, h2⟩ := exists_of_nat (val_lt_384 x)
  have := ZMod.val_lt x
  have := p_le_pow
  have hp := p_val
  refine ⟨b, (h1.lim58 (by omega) (by omega)).mono (by norm_num), by omega, by omega, ?_⟩
  rw [h2, Int.cast_natCast, ZMod.natCast_val, ZMod.cast_id', id]

/-- Every point of the first curve is represented. -/
theorem ECP.exists_rep (g : G1) : ∃ P : ECP, P.Rep g := by
  rcases Pt.cases g with rfl | ⟨x, y, h, rfl⟩
  · obtain ⟨P, -, hP⟩ := ECP.new_wp
    exact ⟨P, hP.mono (by norm_num)⟩
  · obtain ⟨bx, x1, x2, x3, ex⟩ := big_of_fp x
    obtain ⟨byy, y1, y2, y3, ey⟩ := big_of_fp y
    obtain ⟨P, -, hP, -⟩ := ECP.new_bigs_wp x1 y1 x2 y2 x3 y3
    subst ex ey
    exact ⟨P, (hP h).1.mono (by norm_num)⟩

/-- Every point of the twist is represented. -/
theorem ECP2.exists_rep (g : G2) : ∃ P : ECP2, P.Rep g := by
  rcases Pt.cases g with rfl | ⟨⟨xa, xb⟩, ⟨ya, yb⟩, h, rfl⟩
  · obtain ⟨P, -, hP⟩ := ECP2.new_wp
    exact ⟨P, hP.mono (by norm_num)⟩
  · obtain ⟨b1, x1, x2, x3, ex⟩ := big_of_fp xa
    obtain ⟨b2, y1, y2, y3, ey⟩ := big_of_fp xb
    obtain ⟨b3, z1, z2, z3, ez⟩ := big_of_fp ya
    obtain ⟨b4, w1, w2, w3, ew⟩ := big_of_fp yb
    obtain ⟨X, -, hX, -⟩ := FP2.new_bigs_wp x1 y1 x2 y2 x3 y3
    obtain ⟨Y, -, hY, -⟩ := FP2.new_bigs_wp z1 w1 z2 w2 z3 w3
    rw [ex, ey] at hX
    rw [ez, ew] at hY
    obtain ⟨P, -, hP, -⟩ := ECP2.new_fp2s_wp hX hY (by norm_num)
    exact ⟨P, (hP h).1.mono (by norm_num)⟩

/-- A representation determines the point. -/
theorem ECP.Rep.inj {P : ECP} {g h : G1} (hg : P.Rep g) (hh : P.Rep h) : g = h := by
  obtain ⟨r, e, h1⟩ := ECP.equals_wp hg hh (by norm_num)
  obtain ⟨r', e', h2⟩ := ECP.equals_wp hg hg (by norm_num)
  rw [e] at e'
  cases e'
  exact h1.1 (h2.2 rfl)

theorem ECP2.Rep.inj {P : ECP2} {g h : G2} (hg : P.Rep g) (hh : P.Rep h) : g = h := by
  obtain ⟨r, e, h1⟩ := ECP2.equals_wp hg hh (by norm_num)
  obtain ⟨r', e', h2⟩ := ECP2.equals_wp hg hg (by norm_num)
  rw [e] at e'
  cases e'
  exact h1.1 (h2.2 rfl)

end Amcl.B383
