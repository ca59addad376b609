import Verif.Proof.B383.LineValue
import Verif.Proof.B383.Order
import Verif.Proof.B383.Points
/-!
# The Frobenius endomorphism of the twist

`psi (x, y) = (x̄ / γ², ȳ / γ³)` is the Frobenius map of `E` carried over to the twist. On the points
of order `r` it is multiplication by the curve parameter.
-/

set_option exponentiation.threshold 6000

namespace Spec.B383

open Amcl.B383

theorem γ_six : γ ^ 6 * (1 + i) = star (1 + i) := by
  rw [star_eq, γ_eq, ← pow_mul, ← pow_succ]
  have : (p - 1) / 6 * 6 + 1 = p := by decide +kernel
  rw [this]

theorem γ_ne : γ ≠ 0 := by
  intro h
  have e := γ_six
  rw [h, zero_pow (by norm_num), zero_mul] at e
  have := congrArg star e
  rw [star_star, star_zero] at this
  have h2 := congrArg QuadraticAlgebra.re this
  simp [i, QuadraticAlgebra.re_one] at h2

theorem star_b2 : star b2 = γ ^ 6 * b2 := by
  have : star (15 : Fp2) = 15 := by ext <;> simp [show (15 : Fp2).re = 15 from rfl, show (15 : Fp2).im = 0 from rfl]
  rw [b2, star_mul', ← γ_six, this]
  ring

theorem psi_on {a b : Fp2} (h : b ^ 2 = a ^ 3 + b2) : (star b / γ ^ 3) ^ 2 = (star a / γ ^ 2) ^ 3 + b2 := by
  have h1 := congrArg star h
  have hg := γ_ne
  rw [star_pow, star_add, star_pow, star_b2] at h1
  field_simp
  linear_combination h1

/-- The Frobenius endomorphism of the twist. -/
def psi : G2 → G2
  | .zero => 0
  | .some _ _ h => Pt.mk _ _ (psi_on (Pt.nonsingular_iff.1 h))

theorem psi_zero : psi 0 = 0 := rfl

theorem psi_mk {a b : Fp2} (h : b ^ 2 = a ^ 3 + b2) : psi (Pt.mk a b h) = Pt.mk _ _ (psi_on h) := rfl

theorem star_inj {a c : Fp2} : star a / γ ^ 2 = star c / γ ^ 2 ↔ a = c := by
  have hg := γ_ne
  constructor
  · intro e
    field_simp at e
    exact star_injective e
  · rintro rfl; rfl

theorem star_two : star (2 : Fp2) = 2 := by
  ext <;> simp [show (2 : Fp2).re = 2 from rfl, show (2 : Fp2).im = 0 from rfl]

theorem star_three : star (3 : Fp2) = 3 := by
  ext <;> simp [show (3 : Fp2).re = 3 from rfl, show (3 : Fp2).im = 0 from rfl]

theorem psi_neg (A : G2) : psi (-A) = -psi A := by
  rcases Pt.cases A with rfl | ⟨a, b, h, rfl⟩
  · rw [neg_zero, psi_zero, neg_zero]
  · rw [Pt.neg_mk, psi_mk, psi_mk, Pt.neg_mk, Pt.mk_inj]
    exact ⟨rfl, by rw [star_neg, neg_div]⟩

theorem psi_add (A B : G2) : psi (A + B) = psi A + psi B := by
  rcases Pt.cases A with rfl | ⟨a, b, h, rfl⟩
  · rw [zero_add, psi_zero, zero_add]
  rcases Pt.cases B with rfl | ⟨c, d, h', rfl⟩
  · rw [add_zero, psi_zero, add_zero]
  have hg := γ_ne
  by_cases hc : a = c
  · subst hc
    have : (b - d) * (b + d) = 0 := by linear_combination h - h'
    rcases mul_eq_zero.1 this with e | e
    · have e := sub_eq_zero.1 e
      subst e
      have hb : b ≠ 0 := Pt.y_ne h
      have h2 := fp2_two_ne
      have hsb : star b ≠ 0 := (map_ne_zero (starRingEnd Fp2)).2 hb
      obtain ⟨h3, e3⟩ := Pt.add_self h (l := 3 * a ^ 2 / (2 * b)) (by field_simp) rfl rfl
      obtain ⟨h4, e4⟩ := Pt.add_self (psi_on h) (l := 3 * (star a / γ ^ 2) ^ 2 / (2 * (star b / γ ^ 3)))
        (by field_simp) rfl rfl
      rw [e3, psi_mk, psi_mk, e4, Pt.mk_inj]
      simp only [star_sub, star_mul', star_pow, star_div₀, star_two, star_three]
      constructor
      · field_simp
      · field_simp
    · have hd : d = -b := by linear_combination e
      subst hd
      rw [Pt.add_opp, psi_zero, psi_mk, psi_mk]
      have : Pt.mk _ _ (psi_on h') = -Pt.mk _ _ (psi_on h) := by
        rw [Pt.neg_mk, Pt.mk_inj]
        exact ⟨rfl, by rw [star_neg, neg_div]⟩
      rw [this, add_neg_cancel]
  · have hd : a - c ≠ 0 := sub_ne_zero.2 hc
    have hsd : star a - star c ≠ 0 := by
      rw [← star_sub]; exact (map_ne_zero (starRingEnd Fp2)).2 hd
    obtain ⟨h3, e3⟩ := Pt.add_ne h h' hc (l := (b - d) / (a - c)) (by field_simp) rfl rfl
    obtain ⟨h4, e4⟩ := Pt.add_ne (psi_on h) (psi_on h') (fun e => hc (star_inj.1 e))
      (l := (star b - star d) / (star a - star c) / γ) (by field_simp) rfl rfl
    rw [e3, psi_mk, psi_mk, psi_mk, e4, Pt.mk_inj]
    simp only [star_sub, star_mul', star_pow, star_div₀]
    constructor
    · field_simp
    · field_simp

/-- The Frobenius endomorphism as a homomorphism. -/
def psiHom : G2 →+ G2 := ⟨⟨psi, psi_zero⟩, psi_add⟩

theorem psi_nsmul (n : Nat) (A : G2) : psi (n • A) = n • psi A := map_nsmul psiHom n A

/-- The chain of points in coordinates modulo `p`, compared with the Frobenius image. -/
theorem psi_gen2_eval : ∀ t, t = Eval.smul Eval.fp2 (45, 45) ⟨(g2xa, g2xb), (g2ya, g2yb), (1, 0)⟩ 65 xPar →
    (Eval.fp2.isZero (Eval.fp2.sub (Eval.fp2.mul t.x (Eval.fp2.mul (rom.FRA.val.toNat, rom.FRB.val.toNat) (rom.FRA.val.toNat, rom.FRB.val.toNat)))
      (Eval.fp2.mul (g2xa, p - g2xb) t.z)) &&
    Eval.fp2.isZero (Eval.fp2.sub (Eval.fp2.mul t.y (Eval.fp2.mul (rom.FRA.val.toNat, rom.FRB.val.toNat) (Eval.fp2.mul (rom.FRA.val.toNat, rom.FRB.val.toNat) (rom.FRA.val.toNat, rom.FRB.val.toNat))))
      (Eval.fp2.mul (g2ya, p - g2yb) t.z))) = true := by
  rintro _ rfl
  decide +kernel

theorem toF_γ : Eval.fp2.toF (rom.FRA.val.toNat, rom.FRB.val.toNat) = γ := by
  have h1 : 0 ≤ rom.FRA.val := by decide +kernel
  have h2 : 0 ≤ rom.FRB.val := by decide +kernel
  ext
  · change ((rom.FRA.val.toNat : Nat) : Fp) = ((rom.FRA.val : Int) : Fp)
    rw [← Int.toNat_of_nonneg h1]; simp
  · change ((rom.FRB.val.toNat : Nat) : Fp) = ((rom.FRB.val : Int) : Fp)
    rw [← Int.toNat_of_nonneg h2]; simp

theorem toF_conj {a b : Nat} (h : b ≤ p) : Eval.fp2.toF (a, p - b) = star (⟨(a : Fp), (b : Fp)⟩ : Fp2) := by
  ext
  · simp [Eval.fp2, Eval.fp]
  · simp [Eval.fp2, Eval.fp, Nat.cast_sub h]

theorem psi_gen2 : xPar • gen2 = psi gen2 := by
  have ht := Eval.smul_is b2_is gen2_is 65 xPar (by decide +kernel)
  generalize hT : Eval.smul Eval.fp2 (45, 45) ⟨(g2xa, g2xb), (g2ya, g2yb), (1, 0)⟩ 65 xPar = t at ht
  have he := psi_gen2_eval t hT.symm
  rw [Bool.and_eq_true, Eval.fp2.isZero_eq, Eval.fp2.isZero_eq, Eval.fp2.sub_eq, Eval.fp2.sub_eq] at he
  simp only [Eval.fp2.mul_eq, toF_γ] at he
  rw [toF_conj (by decide +kernel), toF_conj (by decide +kernel)] at he
  have hg := γ_ne
  have hp : psi gen2 = Pt.mk _ _ (psi_on g2_on) := by
    rw [gen2, psi_mk]
  rw [hp]
  apply (Amcl.Proj.eq_iff ht (Amcl.Proj.mk _)).1
  constructor
  · field_simp
    linear_combination he.1
  · field_simp
    linear_combination he.2

/-- Elements of order dividing `r` are multiples of any element of order `r`, if `r²` does not
divide the order of the group. -/
theorem torsion_cyclic {G : Type} [AddCommGroup G] [Finite G] {g Q : G} {h : Nat} (hc : Nat.card G = h * r)
    (hr : Nat.Coprime h r) (hg : addOrderOf g = r) (hQ : r • Q = 0) : ∃ k : Nat, Q = k • g := by
  have hr0 : 0 < r := prime_r'.pos
  have hH : Nat.card (AddSubgroup.zmultiples g) = r := by rw [Nat.card_zmultiples, hg]
  have hq : Nat.card (G ⧸ AddSubgroup.zmultiples g) = h := by
    have := AddSubgroup.card_eq_card_quotient_mul_card_addSubgroup (AddSubgroup.zmultiples g)
    rw [hH, hc] at this
    exact (Nat.eq_of_mul_eq_mul_right hr0 this).symm
  have h1 : addOrderOf (Q : G ⧸ AddSubgroup.zmultiples g) ∣ h := hq ▸ addOrderOf_dvd_natCard _
  have h2 : addOrderOf (Q : G ⧸ AddSubgroup.zmultiples g) ∣ r := by
    apply addOrderOf_dvd_of_nsmul_eq_zero
    rw [← QuotientAddGroup.mk_nsmul, hQ]; rfl
  have h3 := AddMonoid.addOrderOf_eq_one_iff.1 (Nat.eq_one_of_dvd_coprimes hr h1 h2)
  have h4 := (QuotientAddGroup.eq_zero_iff Q).1 h3
  rw [← mem_multiples_iff_mem_zmultiples] at h4
  obtain ⟨k, hk⟩ := AddSubmonoid.mem_multiples_iff _ _ |>.1 h4
  exact ⟨k, hk.symm⟩

theorem torsion_gen2 {Q : G2} (hQ : r • Q = 0) : ∃ k : Nat, Q = k • gen2 := by
  obtain ⟨hf, hc⟩ := card_G2
  exact torsion_cyclic hc (by decide +kernel) addOrderOf_gen2 hQ

theorem torsion_gen1 {Q : G1} (hQ : r • Q = 0) : ∃ k : Nat, Q = k • gen1 := by
  obtain ⟨hf, hc⟩ := card_G1
  exact torsion_cyclic hc (by decide +kernel) addOrderOf_gen1 hQ

/-- On the points of order `r`, the Frobenius endomorphism is multiplication by `xPar`. -/
theorem psi_torsion {Q : G2} (hQ : r • Q = 0) : xPar • Q = psi Q := by
  obtain ⟨k, rfl⟩ := torsion_gen2 hQ
  rw [psi_nsmul, ← psi_gen2, smul_comm]

theorem φ_ux (a : Fp2) : φ (ux a) = ux (star a / γ ^ 2) := by
  have hW := W_ne
  have hg : ι2 γ ≠ 0 := (map_ne_zero ι2).2 γ_ne
  rw [ux, ux, map_div₀, map_pow, φ_ι2, φ_W, map_div₀, map_pow]
  field_simp

theorem φ_uy (a : Fp2) : φ (uy a) = uy (star a / γ ^ 3) := by
  have hW := W_ne
  have hg : ι2 γ ≠ 0 := (map_ne_zero ι2).2 γ_ne
  rw [uy, uy, map_div₀, map_pow, φ_ι2, φ_W, map_div₀, map_pow]
  field_simp

/-- Frobenius carries lines to lines. -/
theorem φ_lineAt (x y : Fp) (A B : G2) : φ (lineAt x y A B) = lineAt x y (psi A) (psi B) := by
  have hv : ∀ C, φ (vertAt x C) = vertAt x (psi C) := by
    intro C
    rcases Pt.cases C with rfl | ⟨c, d, h, rfl⟩
    · exact map_one φ
    · rw [psi_mk, vertAt_mk, vertAt_mk, map_sub, φ_ι1, φ_ux]
  rcases Pt.cases A with rfl | ⟨a, b, h, rfl⟩
  · rw [psi_zero, zero_lineAt, zero_lineAt, hv]
  rcases Pt.cases B with rfl | ⟨c, d, h', rfl⟩
  · rw [psi_zero, lineAt_zero, lineAt_zero, hv]
  have hg := γ_ne
  have hg2 : ι2 γ ≠ 0 := (map_ne_zero ι2).2 hg
  by_cases hc : a = c ∧ b = -d
  · obtain ⟨rfl, hb⟩ := hc
    have hd : d = -b := by rw [hb, neg_neg]
    subst hd
    have e : Pt.mk _ _ (psi_on h') = Pt.mk (star a / γ ^ 2) (-(star b / γ ^ 3)) (by rw [neg_sq]; exact psi_on h) := by
      rw [Pt.mk_inj]
      exact ⟨rfl, by rw [star_neg, neg_div]⟩
    rw [lineAt_opp, psi_mk, psi_mk, e, lineAt_opp, map_sub, φ_ι1, φ_ux]
  · have hc' : ¬ (star a / γ ^ 2 = star c / γ ^ 2 ∧ star b / γ ^ 3 = -(star d / γ ^ 3)) := by
      rintro ⟨e1, e2⟩
      apply hc
      refine ⟨star_inj.1 e1, ?_⟩
      field_simp at e2
      rw [← star_neg] at e2
      exact star_injective e2
    have hW := W_ne
    have e : φ (ι2 (if a = c then 3 * a ^ 2 / (2 * b) else (b - d) / (a - c)) / W) =
        ι2 (if star a / γ ^ 2 = star c / γ ^ 2 then 3 * (star a / γ ^ 2) ^ 2 / (2 * (star b / γ ^ 3))
          else (star b / γ ^ 3 - star d / γ ^ 3) / (star a / γ ^ 2 - star c / γ ^ 2)) / W := by
      rw [map_div₀, φ_ι2, φ_W, div_mul_eq_div_div]
      congr 1
      rw [← map_div₀]
      refine congrArg ι2 ?_
      by_cases hac : a = c
      · rw [if_pos hac, if_pos (star_inj.2 hac)]
        have hb : b ≠ 0 := Pt.y_ne h
        have h2 := fp2_two_ne
        have hsb : star b ≠ 0 := (map_ne_zero (starRingEnd Fp2)).2 hb
        simp only [star_mul', star_pow, star_div₀, star_two, star_three]
        field_simp
      · rw [if_neg hac, if_neg (fun e => hac (star_inj.1 e))]
        have hd : a - c ≠ 0 := sub_ne_zero.2 hac
        have hsd : star a - star c ≠ 0 := by
          rw [← star_sub]; exact (map_ne_zero (starRingEnd Fp2)).2 hd
        simp only [star_sub, star_div₀]
        field_simp
    rw [lineAt_mk h h' hc, psi_mk, psi_mk, lineAt_mk _ _ hc', map_sub, map_sub, map_mul, map_sub, φ_ι1, φ_ι1, φ_ux, φ_uy, e]

theorem U_psi {x y : Fp} (hP : y ^ 2 = x ^ 3 + b1) (A B : G2) : U hP (psi A) (psi B) = U hP A B ^ p := by
  apply Units.ext
  change lineAt x y (psi A) (psi B) ^ finalExp = (lineAt x y A B ^ finalExp) ^ p
  rw [← φ_lineAt, φ_eq]
  exact pow_right_comm _ _ _

theorem r_dvd : r ∣ p - xPar := by decide +kernel

theorem pow_p {G : Type} [Monoid G] {u : G} (h : u ^ (p - xPar) = 1) : u ^ p = u ^ xPar := by
  have e : p = (p - xPar) + xPar := by decide +kernel
  rw [e, pow_add, h, one_mul]

/-- Additivity in the first argument. -/
theorem mill_add_left {x y : Fp} (hP : y ^ 2 = x ^ 3 + b1) {A B : G2} (hA : r • A = 0) (hB : r • B = 0) :
    mill (U hP) (A + B) xPar = mill (U hP) A xPar * mill (U hP) B xPar :=
 by
  have := (U_cocycle hP).mill_sum A B xPar
  rw [psi_torsion hA, psi_torsion hB, U_psi, pow_p (U_pow hP A B r_dvd)] at this
  exact mul_right_cancel this

end Spec.B383
