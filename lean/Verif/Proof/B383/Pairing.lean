import Verif.Proof.B383.Nondeg
/-!
# The pairing is bilinear and non-degenerate
-/

set_option exponentiation.threshold 6000

namespace Spec.B383

theorem pairing_ne (Q : G2) (P : G1) : pairing Q P ≠ 0 := by
  rw [pairing_eq]; exact Units.ne_zero _

theorem pairing_zero_right (Q : G2) : pairing Q 0 = 1 := rfl

theorem pairing_add_left {A B : G2} (hA : r • A = 0) (hB : r • B = 0) (P : G1) :
    pairing (A + B) P = pairing A P * pairing B P := by
  rw [pairing_eq, pairing_eq, pairing_eq, M_add_left hA hB, Units.val_mul]

theorem pairing_add_right {Q : G2} (hQ : r • Q = 0) (P P' : G1) :
    pairing Q (P + P') = pairing Q P * pairing Q P' := by
  rw [pairing_eq, pairing_eq, pairing_eq, M_add_right hQ, Units.val_mul]

theorem pairing_zero_left (P : G1) : pairing 0 P = 1 := by
  have h := pairing_add_left (A := 0) (B := 0) (smul_zero _) (smul_zero _) P
  rw [add_zero] at h
  exact (mul_eq_left₀ (pairing_ne 0 P)).1 h.symm

theorem pairing_nsmul_left {Q : G2} (hQ : r • Q = 0) (n : Nat) (P : G1) : pairing (n • Q) P = pairing Q P ^ n := by
  induction n with
  | zero => rw [zero_smul, pow_zero, pairing_zero_left]
  | succ n ih =>
    have h : r • n • Q = 0 := by rw [smul_comm, hQ, smul_zero]
    rw [succ_nsmul, pow_succ, pairing_add_left h hQ, ih]

theorem pairing_nsmul_right {Q : G2} (hQ : r • Q = 0) (n : Nat) (P : G1) : pairing Q (n • P) = pairing Q P ^ n := by
  induction n with
  | zero => rw [zero_smul, pow_zero, pairing_zero_right]
  | succ n ih => rw [succ_nsmul, pow_succ, pairing_add_right hQ, ih]

theorem pairing_pow_r {Q : G2} (hQ : r • Q = 0) (P : G1) : pairing Q P ^ r = 1 := by
  rw [← pairing_nsmul_left hQ, hQ, pairing_zero_left]

/-- The pairing of the generators has order `r`. -/
theorem orderOf_pairing : orderOf (pairing gen2 gen1) = r :=
  have := Fact.mk Primes.B383.prime_r
  orderOf_eq_prime (pairing_pow_r Amcl.B383.r_gen2 _) pairing_gen

/-- The pairing with the generator is injective on the subgroup of order `r`. -/
theorem pairing_inj {A B : G2} (hA : r • A = 0) (hB : r • B = 0) : pairing A gen1 = pairing B gen1 ↔ A = B := by
  obtain ⟨a, rfl⟩ := torsion_gen2 hA
  obtain ⟨b, rfl⟩ := torsion_gen2 hB
  rw [pairing_nsmul_left Amcl.B383.r_gen2, pairing_nsmul_left Amcl.B383.r_gen2, nsmul_eq_nsmul_iff_modEq, addOrderOf_gen2,
    ← orderOf_pairing]
  lift pairing gen2 gen1 to Fp12ˣ using (pairing_ne gen2 gen1).isUnit with g
  rw [orderOf_units, ← pow_eq_pow_iff_modEq, ← Units.val_pow_eq_pow_val, ← Units.val_pow_eq_pow_val, Units.val_inj]

theorem coprime_h1 : Nat.Coprime h1 r := by norm_num [h1, r]

theorem eq_of_pow {x y : Fp12} (hy : y ≠ 0) (h : x ^ h1 = y ^ h1) (hxr : x ^ r = 1) (hyr : y ^ r = 1) : x = y := by
  have e1 : (x * y⁻¹) ^ h1 = 1 := by rw [mul_pow, inv_pow, h, mul_inv_cancel₀ (pow_ne_zero _ hy)]
  have e2 : (x * y⁻¹) ^ r = 1 := by rw [mul_pow, inv_pow, hxr, hyr, inv_one, one_mul]
  have h3 := Nat.dvd_gcd (orderOf_dvd_of_pow_eq_one e1) (orderOf_dvd_of_pow_eq_one e2)
  rw [coprime_h1, Nat.dvd_one, orderOf_eq_one_iff] at h3
  exact (mul_inv_eq_one₀ hy).1 h3

/-- The component of `K` in the subgroup of order `r` is `k` times the generator. -/
def KeyScalar (K : G1) (k : Nat) : Prop := h1 • K = k • h1 • gen1

theorem exists_keyScalar (K : G1) : ∃ k, KeyScalar K k := by
  have hr : r • h1 • K = 0 := by
    have := card_G1.1
    rw [smul_smul, mul_comm, ← card_G1.2]
    exact card_nsmul_eq_zero'
  obtain ⟨m, hm⟩ := torsion_gen1 hr
  obtain ⟨c, -, hc⟩ := Nat.exists_mul_mod_eq_of_coprime (n := h1) (k := r) m coprime_h1 (by decide +kernel)
  refine ⟨c, ?_⟩
  rw [KeyScalar, hm, smul_smul, smul_gen1_iff, mul_comm c, hc]

theorem keyScalar_smul (k : Nat) : KeyScalar (k • gen1) k := smul_comm _ _ _

theorem keyScalar_unique {K : G1} {k k' : Nat} (h : KeyScalar K k) (h' : KeyScalar K k') : k ≡ k' [MOD r] := by
  rw [KeyScalar, h', smul_smul, smul_smul, smul_gen1_iff] at h
  exact (Nat.ModEq.cancel_right_of_coprime (Nat.Coprime.symm coprime_h1) h).symm

theorem pairing_key {H : G2} (hH : r • H = 0) {K : G1} {k : Nat} (hk : KeyScalar K k) :
    pairing H K = pairing (k • H) gen1 := by
  rw [pairing_nsmul_left hH]
  apply eq_of_pow (pow_ne_zero _ (pairing_ne _ _))
  · rw [← pairing_nsmul_right hH, hk, smul_comm, pairing_nsmul_right hH, pairing_nsmul_right hH]
  · exact pairing_pow_r hH K
  · rw [pow_right_comm, pairing_pow_r hH, one_pow]

/-- The verification equation has exactly one solution. -/
theorem verify_iff {S H : G2} (hS : r • S = 0) (hH : r • H = 0) {K : G1} {k : Nat} (hk : KeyScalar K k) :
    pairing S gen1 = pairing H K ↔ S = k • H := by
  rw [pairing_key hH hk, pairing_inj hS (by rw [smul_comm, hH, smul_zero])]

/-- Non-degeneracy on the subgroups of order `r`. -/
theorem pairing_eq_one {Q : G2} {P : G1} (hQ : r • Q = 0) (hP : r • P = 0) : pairing Q P = 1 ↔ Q = 0 ∨ P = 0 := by
  obtain ⟨k, rfl⟩ := torsion_gen1 hP
  have h : pairing 0 gen1 = pairing Q (k • gen1) ↔ 0 = k • Q := verify_iff (smul_zero _) hQ (keyScalar_smul k)
  rw [pairing_zero_left, eq_comm] at h
  rw [h, smul_gen1_zero, eq_comm]
  constructor
  · intro e
    by_cases h0 : Q = 0
    · exact .inl h0
    · right
      have := Fact.mk Primes.B383.prime_r
      rw [← addOrderOf_eq_prime hQ h0]
      exact addOrderOf_dvd_of_nsmul_eq_zero e
  · rintro (rfl | ⟨m, rfl⟩)
    · exact smul_zero _
    · rw [mul_comm, mul_smul, hQ, smul_zero]

end Spec.B383
