import Verif.Proof.Generator
import Verif.Proof.Orders
/-!
# Points of order dividing `r`; every point has a representation
-/

set_option exponentiation.threshold 2000

namespace Spec

theorem prime_r' : Nat.Prime r := Primes.prime_r

theorem gen1_ne : gen1 ≠ 0 := Pt.mk_ne _

theorem gen2_ne : gen2 ≠ 0 := Pt.mk_ne _

theorem addOrderOf_gen1 : addOrderOf gen1 = r :=
  have := Fact.mk Primes.prime_r
  addOrderOf_eq_prime Amcl.r_gen1 gen1_ne

theorem addOrderOf_gen2 : addOrderOf gen2 = r :=
  have := Fact.mk Primes.prime_r
  addOrderOf_eq_prime Amcl.r_gen2 gen2_ne

theorem smul_gen1_iff {n m : Nat} : n • gen1 = m • gen1 ↔ n % r = m % r := by
  have := nsmul_eq_nsmul_iff_modEq (x := gen1) (n := n) (m := m)
  rw [addOrderOf_gen1] at this
  exact this

theorem smul_gen1_zero {n : Nat} : n • gen1 = 0 ↔ r ∣ n := by
  rw [← addOrderOf_gen1, addOrderOf_dvd_iff_nsmul_eq_zero]

section
variable {F : Type} [Field F] [DecidableEq F] {b : F} [g : GoodB b]

/-- A point with abscissa 0 has order 3. -/
theorem Pt.three_smul_zero {y : F} (h : y ^ 2 = (0 : F) ^ 3 + b) : 3 • (Pt.mk 0 y h : Pt b) = 0 := by
  have h2 : (Pt.mk 0 y h : Pt b) + Pt.mk 0 y h = - Pt.mk 0 y h := by
    obtain ⟨h3, e⟩ := Pt.add_self h (l := 0) (x3 := 0) (y3 := -y) (by ring) (by ring) (by ring)
    rw [e, Pt.neg_mk]
  rw [show (3 : ℕ) = 2 + 1 from rfl, add_nsmul, two_nsmul, one_nsmul, h2, neg_add_cancel]

/-- A finite point of order dividing `r` has a nonzero abscissa. -/
theorem Pt.x_ne_of_order {x y : F} {h : y ^ 2 = x ^ 3 + b} (hr : r • (Pt.mk x y h : Pt b) = 0) : x ≠ 0 := by
  rintro rfl
  have h3 := Pt.three_smul_zero h
  have hg := Nat.dvd_gcd (addOrderOf_dvd_of_nsmul_eq_zero h3) (addOrderOf_dvd_of_nsmul_eq_zero hr)
  rw [show Nat.gcd 3 r = 1 by norm_num [r], Nat.dvd_one, AddMonoid.addOrderOf_eq_one_iff] at hg
  exact Pt.mk_ne h hg

end

end Spec

namespace Amcl

open Spec

/-- A big integer of 7 limbs for every number below `2^384`. -/
theorem BIG.exists_of_nat {n : Nat} (hn : n < 2 ^ 384) : ∃ b : BIG, b.Nrm ∧ b.val = (n : Int) := by
  obtain ⟨b, -, h⟩ := frombytes_toBE hn
  exact ⟨b, h⟩

theorem SecretKey.exists_rep {n : Nat} (hn : n < 2 ^ 384) : ∃ sk : SecretKey, sk.Rep n := by
  obtain ⟨b, h1, h2⟩ := BIG.exists_of_nat hn
  exact ⟨⟨b⟩, h1, h2, hn⟩

theorem val_lt_384 (x : Fp) : x.val < 2 ^ 384 := by
  have := ZMod.val_lt x
  have := p_le_pow
  omega

theorem big_of_fp (x : Fp) : ∃ b : BIG, b.Lim (2 ^ 61) ∧ 0 ≤ b.val ∧ b.val ≤ 2 ^ 25 * p ∧ (b.val : Fp) = x := by
  obtain ⟨b, h1, h2⟩ := BIG.exists_of_nat (val_lt_384 x)
  have := ZMod.val_lt x
  have := p_le_pow
  have hp := p_val
  refine ⟨b, (h1.lim58 (by omega) (by omega)).mono (by norm_num), by omega, by omega, ?_⟩
  rw [h2, Int.cast_natCast, ZMod.natCast_val, ZMod.cast_id', id]

/-- Every point of the first curve is represented. -/
theorem ECP.exists_rep (g : G1) : ∃ P : ECP, P.Rep g := by
  rcases Pt.cases g with rfl | ⟨x, y, h, rfl⟩
  · obtain ⟨P, -, hP⟩ := ECP.new_wp
    exact ⟨P, hP.mono (by norm_num)⟩
  · obtain ⟨bx, x1, x2, x3, ex⟩ := big_of_fp x
    obtain ⟨byy, y1, y2, y3, ey⟩ := big_of_fp y
    obtain ⟨P, -, hP, -⟩ := ECP.new_bigs_wp x1 y1 x2 y2 x3 y3
    subst ex ey
    exact ⟨P, (hP h).1.mono (by norm_num)⟩

/-- Every point of the twist is represented. -/
theorem ECP2.exists_rep (g : G2) : ∃ P : ECP2, P.Rep g := by
  rcases Pt.cases g with rfl | ⟨⟨xa, xb⟩, ⟨ya, yb⟩, h, rfl⟩
  · obtain ⟨P, -, hP⟩ := ECP2.new_wp
    exact ⟨P, hP.mono (by norm_num)⟩
  · obtain ⟨b1, x1, x2, x3, ex⟩ := big_of_fp xa
    obtain ⟨b2, y1, y2, y3, ey⟩ := big_of_fp xb
    obtain ⟨b3, z1, z2, z3, ez⟩ := big_of_fp ya
    obtain ⟨b4, w1, w2, w3, ew⟩ := big_of_fp yb
    obtain ⟨X, -, hX, -⟩ := FP2.new_bigs_wp x1 y1 x2 y2 x3 y3
    obtain ⟨Y, -, hY, -⟩ := FP2.new_bigs_wp z1 w1 z2 w2 z3 w3
    rw [ex, ey] at hX
    rw [ez, ew] at hY
    obtain ⟨P, -, hP, -⟩ := ECP2.new_fp2s_wp hX hY (by norm_num)
    exact ⟨P, (hP h).1.mono (by norm_num)⟩

theorem PublicKey.exists_rep (g : G1) : ∃ pk : PublicKey, pk.Rep g :=
  let ⟨P, h⟩ := ECP.exists_rep g
  ⟨⟨P⟩, h⟩

theorem Signature.exists_rep (g : G2) : ∃ s : Signature, s.Rep g :=
  let ⟨P, h⟩ := ECP2.exists_rep g
  ⟨⟨P⟩, h⟩

/-- A representation determines the point. -/
theorem ECP.Rep.inj {P : ECP} {g h : G1} (hg : P.Rep g) (hh : P.Rep h) : g = h := by
  obtain ⟨r, e, h1⟩ := ECP.equals_wp hg hh (by norm_num)
  obtain ⟨r', e', h2⟩ := ECP.equals_wp hg hg (by norm_num)
  rw [e] at e'
  cases e'
  exact h1.1 (h2.2 rfl)

theorem ECP2.Rep.inj {P : ECP2} {g h : G2} (hg : P.Rep g) (hh : P.Rep h) : g = h := by
  obtain ⟨r, e, h1⟩ := ECP2.equals_wp hg hh (by norm_num)
  obtain ⟨r', e', h2⟩ := ECP2.equals_wp hg hg (by norm_num)
  rw [e] at e'
  cases e'
  exact h1.1 (h2.2 rfl)

end Amcl
