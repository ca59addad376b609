import Verif.Proof.PrimesQ
import Verif.Proof.Psi
/-!
# Clearing the cofactor of the twist with the Frobenius endomorphism

`(u²-u-1) + (u-1)ψ + 2ψ²` is multiplication by `3(u²-1)` times the cofactor, on the whole twist. Both sides are
homomorphisms, they agree at one point `A` of order `h₂r / (13·23)`, hence on the subgroup that `A` and `ψ(A)`
generate, and this is everything: `ψ` gives a second point of order 13 and of order 23.
-/

set_option exponentiation.threshold 6000

namespace Spec

open Amcl

namespace Clear

/-- The Frobenius endomorphism in projective coordinates. -/
def psiE (t : Eval.Tri (Nat × Nat)) : Eval.Tri (Nat × Nat) :=
  let g := (rom.FRA.val.toNat, rom.FRB.val.toNat)
  let c := fun a : Nat × Nat => (a.1, Eval.fp.sub 0 a.2)
  ⟨Eval.fp2.mul (c t.x) g, c t.y, Eval.fp2.mul (c t.z) (Eval.fp2.mul g (Eval.fp2.mul g g))⟩

theorem toF_star (a : Nat × Nat) : Eval.fp2.toF (a.1, Eval.fp.sub 0 a.2) = star (Eval.fp2.toF a) := by
  have h : Eval.fp.toF (Eval.fp.sub 0 a.2) = -Eval.fp.toF a.2 := by
    rw [Eval.fp.sub_eq, show Eval.fp.toF 0 = 0 from Eval.fp.zero_eq, zero_sub]
  ext
  · simp [Eval.fp2]
  · simp [Eval.fp2, h]

theorem psiE_is {t : Eval.Tri (Nat × Nat)} {Q : G2} (h : Eval.Is Eval.fp2 t Q) :
    Eval.Is Eval.fp2 (psiE t) (psi Q) := by
  have hg := γ_ne
  unfold Eval.Is at h ⊢
  simp only [psiE, Eval.fp2.mul_eq, toF_γ, toF_star]
  rcases h with ⟨h1, h2, h3, rfl⟩ | ⟨h1, x, y, h, h2, h3, rfl⟩
  · refine Or.inl ⟨by rw [h1, star_zero, zero_mul], star_ne_zero.2 h2, by rw [h3, star_zero, zero_mul], psi_zero⟩
  · have hz : star (Eval.fp2.toF t.z) ≠ 0 := star_ne_zero.2 h1
    refine Or.inr ⟨mul_ne_zero hz (by simp [hg]), _, _, _, ?_, ?_, psi_mk h⟩
    · rw [h2, star_mul']; field_simp
    · rw [h3, star_mul']; field_simp

/-- Equality of points in projective coordinates. -/
def eqE (s t : Eval.Tri (Nat × Nat)) : Bool :=
  Eval.fp2.isZero (Eval.fp2.sub (Eval.fp2.mul s.x t.z) (Eval.fp2.mul t.x s.z)) &&
  Eval.fp2.isZero (Eval.fp2.sub (Eval.fp2.mul s.y t.z) (Eval.fp2.mul t.y s.z))

theorem eqE_iff {s t : Eval.Tri (Nat × Nat)} {P Q : G2} (h : Eval.Is Eval.fp2 s P) (h' : Eval.Is Eval.fp2 t Q) :
    eqE s t = true ↔ P = Q := by
  rw [eqE, Bool.and_eq_true, Eval.fp2.isZero_eq, Eval.fp2.isZero_eq, Eval.fp2.sub_eq, Eval.fp2.sub_eq,
    Eval.fp2.mul_eq, Eval.fp2.mul_eq, Eval.fp2.mul_eq, Eval.fp2.mul_eq, sub_eq_zero, sub_eq_zero]
  exact Proj.eq_iff h h'

/-- A point of the twist, with abscissa 2. -/
def A : G2 := Pt.mk _ _ two_on

/-- Its coordinates. -/
def At : Eval.Tri (Nat × Nat) := ⟨(2, 0), (two_ya, two_yb), (1, 0)⟩

theorem A_is : Eval.Is Eval.fp2 At A := two_is two_on

/-- `3(u²-1)` times the cofactor. -/
def heff : Nat := h2 * (3 * (xAbs ^ 2 - 1))

/-- The largest prime factor of the cofactor. -/
def q : Nat := 402096035359507321594726366720466575392706800671181159425656785868777272553337714697862511267018014931937703598282857976535744623203249

theorem h2_eq : h2 = 13 ^ 2 * 23 ^ 2 * 2713 * 11953 * 262069 * q := by decide +kernel

/-- The two homomorphisms, with all coefficients made positive. -/
def left : G2 →+ G2 := (xAbs ^ 2 + xAbs - 1) • AddMonoidHom.id G2 + 2 • (psiHom.comp psiHom)
@[inherit_doc left]
def right : G2 →+ G2 := heff • AddMonoidHom.id G2 + (xAbs + 1) • psiHom

theorem left_eq (Q : G2) : left Q = (xAbs ^ 2 + xAbs - 1) • Q + 2 • psi (psi Q) := rfl
theorem right_eq (Q : G2) : right Q = heff • Q + (xAbs + 1) • psi Q := rfl

theorem eval_A : eqE
    (Eval.add Eval.fp2 (12, 12) (Eval.smul Eval.fp2 (12, 12) At 128 (xAbs ^ 2 + xAbs - 1))
      (Eval.smul Eval.fp2 (12, 12) (psiE (psiE At)) 2 2))
    (Eval.add Eval.fp2 (12, 12) (Eval.smul Eval.fp2 (12, 12) At 640 heff)
      (Eval.smul Eval.fp2 (12, 12) (psiE At) 65 (xAbs + 1))) = true := by decide +kernel

theorem A_mem : left A = right A := by
  rw [left_eq, right_eq]
  refine (eqE_iff ?_ ?_).1 eval_A
  · exact Eval.add_is b2_is (Eval.smul_is b2_is A_is _ _ (by decide +kernel))
      (Eval.smul_is b2_is (psiE_is (psiE_is A_is)) _ _ (by decide +kernel))
  · exact Eval.add_is b2_is (Eval.smul_is b2_is A_is _ _ (by decide +kernel))
      (Eval.smul_is b2_is (psiE_is A_is) _ _ (by decide +kernel))

/-- Where the two agree. -/
def H : AddSubgroup G2 := left.eqLocus right

theorem psi_mem {Q : G2} (h : Q ∈ H) : psi Q ∈ H := by
  have h : left Q = right Q := h
  show left (psi Q) = right (psi Q)
  have := congrArg psi h
  rw [left_eq, right_eq, psi_add, psi_add, psi_nsmul, psi_nsmul, psi_nsmul, psi_nsmul] at this
  rw [left_eq, right_eq, this]

theorem A_not (n : Nat) (hn : n < 2 ^ 768) (h : (Eval.fp2.isZero (Eval.smul Eval.fp2 (12, 12) At 768 n).x &&
    Eval.fp2.isZero (Eval.smul Eval.fp2 (12, 12) At 768 n).z) = false) : n • A ≠ 0 := by
  rw [Ne, ← Eval.smul_zero_iff b2_is A_is hn, h]
  simp

theorem all_A : (h2 * r) • A = 0 := by
  obtain ⟨hf, hc⟩ := card_G2
  rw [← hc]; exact card_nsmul_eq_zero'

/-- A prime dividing the order of an element. -/
theorem prime_dvd_order {l m : Nat} (hl : l.Prime) {G : Type} [AddCommGroup G] {a : G} (h : (l * m) • a = 0)
    (hm : m • a ≠ 0) : l ∣ addOrderOf a := by
  by_contra hn
  have h1 := addOrderOf_dvd_of_nsmul_eq_zero h
  have h2 : Nat.Coprime (addOrderOf a) l := ((Nat.Prime.coprime_iff_not_dvd hl).2 hn).symm
  exact hm (addOrderOf_dvd_iff_nsmul_eq_zero.1 (h2.dvd_of_dvd_mul_left h1))

/-- Two independent elements of prime order. -/
theorem sq_dvd_card {l : Nat} (hl : l.Prime) {G : Type} [AddCommGroup G] [Finite G] {a b : G} (ha : l • a = 0)
    (ha0 : a ≠ 0) (hb : l • b = 0) (hab : ∀ k < l, b ≠ k • a) : l ^ 2 ∣ Nat.card G := by
  have : Fact l.Prime := ⟨hl⟩
  have ho : addOrderOf a = l := addOrderOf_eq_prime ha ha0
  have hc := AddSubgroup.card_eq_card_quotient_mul_card_addSubgroup (AddSubgroup.zmultiples a)
  rw [Nat.card_zmultiples, ho] at hc
  have hb' : addOrderOf (b : G ⧸ AddSubgroup.zmultiples a) = l := by
    refine addOrderOf_eq_prime ?_ ?_
    · rw [← QuotientAddGroup.mk_nsmul, hb]; rfl
    · intro e
      have h4 := (QuotientAddGroup.eq_zero_iff b).1 e
      rw [← mem_multiples_iff_mem_zmultiples] at h4
      obtain ⟨k, hk⟩ := AddSubmonoid.mem_multiples_iff _ _ |>.1 h4
      refine hab (k % l) (Nat.mod_lt _ hl.pos) ?_
      rw [← hk, ← ho, mod_addOrderOf_nsmul]
  have hd : l ∣ Nat.card (G ⧸ AddSubgroup.zmultiples a) := hb' ▸ addOrderOf_dvd_natCard _
  rw [hc, pow_two]
  exact Nat.mul_dvd_mul hd dvd_rfl

theorem eval_13 : ((List.range 13).all fun k => !eqE (psiE (Eval.smul Eval.fp2 (12, 12) At 768 (h2 * r / 169)))
    (Eval.smul Eval.fp2 (12, 12) (Eval.smul Eval.fp2 (12, 12) At 768 (h2 * r / 169)) 5 k)) = true := by
  decide +kernel

theorem eval_23 : ((List.range 23).all fun k => !eqE (psiE (Eval.smul Eval.fp2 (12, 12) At 768 (h2 * r / 529)))
    (Eval.smul Eval.fp2 (12, 12) (Eval.smul Eval.fp2 (12, 12) At 768 (h2 * r / 529)) 5 k)) = true := by
  decide +kernel

theorem indep {n l : Nat} (hn : n < 2 ^ 768) (hl : l ≤ 32)
    (h : ((List.range l).all fun k => !eqE (psiE (Eval.smul Eval.fp2 (12, 12) At 768 n))
      (Eval.smul Eval.fp2 (12, 12) (Eval.smul Eval.fp2 (12, 12) At 768 n) 5 k)) = true) :
    ∀ k < l, psi (n • A) ≠ k • (n • A) := by
  intro k hk
  rw [List.all_eq_true] at h
  have hI := Eval.smul_is b2_is A_is 768 n hn
  have := h k (List.mem_range.2 hk)
  rw [Ne, ← eqE_iff (psiE_is hI) (Eval.smul_is b2_is hI 5 k (by norm_num; omega))]
  simpa using this

theorem mem_smul {Q : G2} (h : Q ∈ H) (n : Nat) : n • Q ∈ H := H.nsmul_mem h n

theorem A_in : A ∈ H := A_mem

theorem sq_dvd {l m : Nat} (hl : l.Prime) (hm : m < 2 ^ 768) (hl2 : l ≤ 32) (h0 : (l * m) • A = 0)
    (h1 : (Eval.fp2.isZero (Eval.smul Eval.fp2 (12, 12) At 768 m).x &&
      Eval.fp2.isZero (Eval.smul Eval.fp2 (12, 12) At 768 m).z) = false)
    (h : ((List.range l).all fun k => !eqE (psiE (Eval.smul Eval.fp2 (12, 12) At 768 m))
      (Eval.smul Eval.fp2 (12, 12) (Eval.smul Eval.fp2 (12, 12) At 768 m) 5 k)) = true) :
    l ^ 2 ∣ Nat.card H := by
  have : Finite G2 := card_G2.1
  have ha := A_not m hm h1
  have hm' := mem_smul A_in m
  refine sq_dvd_card hl (a := (⟨m • A, hm'⟩ : H)) (b := ⟨psi (m • A), psi_mem hm'⟩) ?_ ?_ ?_ ?_
  · apply Subtype.ext
    show l • (m • A) = 0
    rw [← mul_nsmul', h0]
  · exact fun e => ha (congrArg Subtype.val e)
  · apply Subtype.ext
    show l • psi (m • A) = 0
    rw [← psi_nsmul, ← mul_nsmul', h0, psi_zero]
  · intro k hk e
    exact indep hm hl2 h k hk (congrArg Subtype.val e)

theorem one_dvd {l m : Nat} (hl : l.Prime) (hm : m < 2 ^ 768) (e : l * m = h2 * r)
    (h1 : (Eval.fp2.isZero (Eval.smul Eval.fp2 (12, 12) At 768 m).x &&
      Eval.fp2.isZero (Eval.smul Eval.fp2 (12, 12) At 768 m).z) = false) : l ∣ Nat.card H := by
  have : Finite G2 := card_G2.1
  refine dvd_trans (prime_dvd_order hl (a := (⟨A, A_in⟩ : H)) (m := m) ?_ ?_) (addOrderOf_dvd_natCard _)
  · apply Subtype.ext
    show (l * m) • A = 0
    rw [e, all_A]
  · exact fun e => A_not m hm h1 (congrArg Subtype.val e)

theorem thirteen : 13 ^ 2 ∣ Nat.card H := by
  refine sq_dvd (m := h2 * r / 169) (by norm_num) (by decide +kernel) (by norm_num) ?_ (by decide +kernel) eval_13
  rw [← Eval.smul_zero_iff b2_is A_is (f := 768) (by decide +kernel)]
  decide +kernel

theorem twentythree : 23 ^ 2 ∣ Nat.card H := by
  refine sq_dvd (m := h2 * r / 529) (by norm_num) (by decide +kernel) (by norm_num) ?_ (by decide +kernel) eval_23
  rw [← Eval.smul_zero_iff b2_is A_is (f := 768) (by decide +kernel)]
  decide +kernel

theorem card_H : h2 * r ∣ Nat.card H := by
  have d1 : 2713 ∣ Nat.card H := one_dvd (m := h2 * r / 2713) (by norm_num) (by decide +kernel) (by decide +kernel)
    (by decide +kernel)
  have d2 : 11953 ∣ Nat.card H := one_dvd (m := h2 * r / 11953) (by norm_num) (by decide +kernel) (by decide +kernel)
    (by decide +kernel)
  have d3 : 262069 ∣ Nat.card H := one_dvd (m := h2 * r / 262069) (by norm_num) (by decide +kernel) (by decide +kernel)
    (by decide +kernel)
  have d4 : q ∣ Nat.card H := one_dvd (m := h2 * r / q) Primes.prime_402096035359507321594726366720466575392706800671181159425656785868777272553337714697862511267018014931937703598282857976535744623203249
    (by decide +kernel) (by decide +kernel) (by decide +kernel)
  have d5 : r ∣ Nat.card H := one_dvd (m := h2) Primes.prime_r (by decide +kernel) (mul_comm _ _) (by decide +kernel)
  have e1 := Nat.Coprime.mul_dvd_of_dvd_of_dvd (by norm_num) thirteen twentythree
  have e2 := Nat.Coprime.mul_dvd_of_dvd_of_dvd (by norm_num) e1 d1
  have e3 := Nat.Coprime.mul_dvd_of_dvd_of_dvd (by norm_num) e2 d2
  have e4 := Nat.Coprime.mul_dvd_of_dvd_of_dvd (by norm_num) e3 d3
  have e5 := Nat.Coprime.mul_dvd_of_dvd_of_dvd (by decide +kernel) e4 d4
  rw [← h2_eq] at e5
  exact Nat.Coprime.mul_dvd_of_dvd_of_dvd (by decide +kernel) e5 d5

theorem mem_H (Q : G2) : Q ∈ H := by
  obtain ⟨hf, hc⟩ := card_G2
  have h1 := card_H
  rw [← hc] at h1
  have h2 := AddSubgroup.eq_top_of_le_card H (Nat.le_of_dvd Nat.card_pos h1)
  rw [h2]
  exact AddSubgroup.mem_top Q

end Clear

/-- Clearing the cofactor with the Frobenius endomorphism is multiplication by a multiple of the cofactor. -/
theorem clear_eq (Q : G2) : ((-xAbs : Int) ^ 2 - (-xAbs : Int) - 1) • Q + psi ((-xAbs - 1 : Int) • Q) +
    psi (psi ((2 : Int) • Q)) = (h2 * (3 * (xAbs ^ 2 - 1))) • Q := by
  have h : Clear.left Q = Clear.right Q := Clear.mem_H Q
  rw [Clear.left_eq, Clear.right_eq, Clear.heff] at h
  have e1 : ((-xAbs : Int) ^ 2 - (-xAbs : Int) - 1) = ((xAbs ^ 2 + xAbs - 1 : Nat) : Int) := by decide +kernel
  have e2 : (-xAbs - 1 : Int) = -((xAbs + 1 : Nat) : Int) := by push_cast; ring
  rw [e1, natCast_zsmul, e2, neg_smul, natCast_zsmul, psi_neg, psi_nsmul, ofNat_zsmul, psi_nsmul, psi_nsmul,
    add_right_comm, h, add_neg_cancel_right]

/-- The result is in the subgroup of order `r`. -/
theorem clear_torsion (Q : G2) : r • ((h2 * (3 * (xAbs ^ 2 - 1))) • Q) = 0 := by
  obtain ⟨hf, hc⟩ := card_G2
  have : (h2 * r) • Q = 0 := by rw [← hc]; exact card_nsmul_eq_zero'
  rw [smul_smul, show r * (h2 * (3 * (xAbs ^ 2 - 1))) = (3 * (xAbs ^ 2 - 1)) * (h2 * r) by ring, mul_smul, this, smul_zero]

end Spec
