import Mathlib.NumberTheory.LegendreSymbol.JacobiSymbol
import Verif.Proof.Secp.Fp
import Verif.Proof.Jacobi
/-!
# `BIG::jacobi` is the Jacobi symbol; `FP::jacobi` and `FP::sqrt` decide and take square roots
-/

set_option exponentiation.threshold 2000

namespace Amcl.Secp

open Spec.Secp NumberTheorySymbols

namespace BIG

theorem jacobiStrip_wp (N : Nat) : ∀ (x : BIG) (k : Nat), x.Nrm → 0 < x.val → x.val < N →
    Wp (jacobiStrip x k) fun r => r.1.Nrm ∧ 0 < r.1.val ∧ r.1.val % 2 = 1 ∧
      ∃ j, r.2 = k + j ∧ x.val = r.1.val * 2 ^ j := by
  induction N with
  | zero => intro x k _ h0 h1; simp at h1; omega
  | succ N ih =>
    intro x k hx h0 h1
    rw [jacobiStrip, parity_spec hx]
    split
    · next h =>
      refine Wp.bind (shr_wp hx (by norm_num)) ?_
      rintro y ⟨ny, vy⟩
      rw [pow_one] at vy
      have h2 : x.val = 2 * y.val := by omega
      push_cast at h1
      refine (ih y (k + 1) ny (by omega) (by omega)).mono ?_
      rintro r ⟨nr, r0, r1, j, e1, e2⟩
      refine ⟨nr, r0, r1, j + 1, by omega, ?_⟩
      rw [pow_succ]
      have : x.val = 2 * y.val := by rw [vy]; omega
      rw [this, e2]; ring
    · next h => exact Wp.ret ⟨hx, h0, by show x.val % 2 = 1; omega, 0, rfl, by simp⟩

theorem jacobiLoop_wp (N : Nat) : ∀ (x n : BIG) (m : Nat), x.Nrm → n.Nrm → 0 ≤ x.val → 0 < n.val →
    x.val < n.val → n.val % 2 = 1 → n.val < 2 ^ 280 → n.val < N → m < 2 →
    Wp (jacobiLoop x n m) fun r => r = (-1) ^ m * J(x.val | n.val.toNat) := by
  induction N with
  | zero => intro x n m _ _ _ h0 _ _ _ h1; simp at h1; omega
  | succ N ih =>
    intro x n m hx hn hx0 hn0 hxn hodd hn1 hN hm
    rw [jacobiLoop]
    have c1 := comp_pos hn (new_int_nrm (x := 1) (by norm_num) (by norm_num))
    rw [new_int_val] at c1
    split
    · next hc =>
      have hgt := c1.1 hc
      have c2 := comp_eq_zero hx new_nrm
      rw [new_val] at c2
      split
      · next hz =>
        refine Wp.ret ?_
        rw [c2.1 hz, jacobiSym.zero_left (by omega), mul_zero]
      · next hz =>
        have hx0' : 0 < x.val := lt_of_le_of_ne hx0 (fun h => hz (c2.2 h.symm))
        refine Wp.bind (lastbits_wp ((hn.lim56 hn0.le hn1).mono (by norm_num)) (n := 3) (by norm_num)) ?_
        rintro ⟨n8, n'⟩ ⟨e8, nn', vn'⟩
        dsimp only at e8 nn' vn' ⊢
        refine Wp.bind (jacobiStrip_wp (x.val.toNat + 1) x 0 hx hx0' (by push_cast; omega)) ?_
        rintro ⟨x', k⟩ ⟨nx', x0, x1, j, ek, ex⟩
        dsimp only at nx' x0 x1 ek ex ⊢
        rw [zero_add] at ek
        subst ek
        have hle : x'.val ≤ x.val := by
          rw [ex]; exact le_mul_of_one_le_right x0.le (one_le_pow₀ (by norm_num))
        rw [if_neg (by rw [e8]; omega)]
        refine Wp.bind (lastbits_wp ((nx'.lim56 x0.le (by omega)).mono (by norm_num)) (n := 2)
          (by norm_num)) ?_
        rintro ⟨x2, y⟩ ⟨e2, ny, vy⟩
        dsimp only at e2 ny vy ⊢
        rw [if_neg (by rw [e2]; omega)]
        refine Wp.bind (rmod_wp ((nn'.lim56 (by omega) (by omega)).mono (by norm_num)) (by omega)
          (by omega) ny (by omega)) ?_
        rintro t ⟨nt, vt⟩
        have t0 : 0 ≤ t.val := by rw [vt]; exact Int.emod_nonneg _ (by omega)
        have t1 : t.val < y.val := by rw [vt]; exact Int.emod_lt_of_pos _ (by omega)
        refine (ih t y _ nt ny t0 (by omega) t1 (by omega) (by omega) (by push_cast at hN; omega)
          (Nat.mod_lt _ (by norm_num))).mono ?_
        rintro r rfl
        rw [← neg_one_pow_eq_pow_mod_two]
        obtain ⟨N', hN'⟩ := Int.eq_ofNat_of_zero_le hn0.le
        obtain ⟨X', hX'⟩ := Int.eq_ofNat_of_zero_le x0.le
        rw [vt, vy, vn', ex, e8, e2, hN', hX']
        rw [hN'] at hodd
        rw [hX'] at x1
        have q1 : ((X' : Int) * 2 ^ k) = ((X' * 2 ^ k : Nat) : Int) := by push_cast; ring
        rw [q1, Int.toNat_natCast, Int.toNat_natCast, jac_two (by omega), jac_recip (x := X') (n := N') (by omega) (by omega)]
        have q2 : ((N' : Int) % 2 ^ 3).toNat = N' % 8 := by omega
        have q3 : ((X' : Int) % 2 ^ 2).toNat = X' % 4 := by omega
        rw [q2, q3]
        split <;> ring
    · next hc =>
      have hn1 : n.val = 1 := by
        by_contra h
        exact hc (c1.2 (by omega))
      refine Wp.ret ?_
      rw [hn1, Int.toNat_one, jacobiSym.one_right, mul_one]
      interval_cases m <;> rfl

/-- `BIG::jacobi` computes the Jacobi symbol. -/
theorem jacobi_wp {s p : BIG} (hs : s.Nrm) (h0 : 0 ≤ s.val) (h1 : s.val < 2 ^ 280) (hp : p.Nrm)
    (hp1 : 1 < p.val) (hp2 : p.val < 2 ^ 280) (hodd : p.val % 2 = 1) :
    Wp (jacobi s p) fun r => r = J(s.val | p.val.toNat) := by
  unfold jacobi
  have c1 := comp_spec hp (new_int_nrm (x := 1) (by norm_num) (by norm_num))
  have c2 := comp_eq_zero hs new_nrm
  rw [new_int_val] at c1
  rw [new_val] at c2
  have c3 : ¬ comp p (new_int 1) ≤ 0 := by rw [c1, cmpZ, if_neg (by omega), if_pos (by omega)]; norm_num
  rw [parity_spec hp]
  split
  · next h =>
    have : s.val = 0 := c2.1 (by omega)
    refine Wp.ret ?_
    rw [this, jacobiSym.zero_left (by omega)]
  · refine Wp.bind (norm_wp ((hs.lim56 h0 h1).mono (by norm_num))) ?_
    rintro s' ⟨ns, vs⟩
    refine Wp.bind (rmod_wp ((ns.lim56 (by omega) (by omega)).mono (by norm_num)) (by omega)
      (by omega) hp (by omega)) ?_
    rintro x ⟨nx, vx⟩
    refine (jacobiLoop_wp (p.val.toNat + 1) x p 0 nx hp (by rw [vx]; exact Int.emod_nonneg _ (by omega))
      (by omega) (by rw [vx]; exact Int.emod_lt_of_pos _ (by omega)) hodd hp2 (by push_cast; omega)
      (by norm_num)).mono ?_
    rintro r rfl
    rw [pow_zero, one_mul, vx, vs]
    conv_rhs => rw [jacobiSym.mod_left, Int.toNat_of_nonneg (by omega)]

end BIG

theorem p_ne_two : p ≠ 2 := by norm_num [p]

namespace FP

/-- `FP::jacobi` is the quadratic character. -/
theorem jacobi_wp {f : FP} {L E : Int} {v : Fp} (hf : Ok f L E v) (h : 1 ≤ L ∧ L ≤ 8 ∧ E ≤ 2 ^ 24) :
    Wp (jacobi f) fun j => j = quadraticChar Fp v := by
  unfold jacobi
  refine Wp.bind (redc_wp hf h) ?_
  rintro r ⟨nr, r0, r1, er, -⟩
  have hp := p_lt
  refine (BIG.jacobi_wp nr r0 (by omega) modulus_nrm (by rw [modulus_val, p_val]; norm_num)
    (by rw [modulus_val]; omega) (by rw [modulus_val, p_val]; norm_num)).mono ?_
  rintro j rfl
  rw [modulus_val, Int.toNat_natCast, ← jacobiSym.legendreSym.to_jacobiSym, legendreSym, er]

/-- `jacobi = 1` exactly for non-zero squares. -/
theorem jacobi_one {f : FP} {L E : Int} {v : Fp} (hf : Ok f L E v) (h : 1 ≤ L ∧ L ≤ 8 ∧ E ≤ 2 ^ 24) :
    Wp (jacobi f) fun j => j = 1 ↔ v ≠ 0 ∧ IsSquare v := by
  refine (jacobi_wp hf h).mono ?_
  rintro j rfl
  constructor
  · intro e
    have hv : v ≠ 0 := by
      rintro rfl
      rw [quadraticChar_zero] at e
      exact zero_ne_one e
    exact ⟨hv, (quadraticChar_one_iff_isSquare hv).1 e⟩
  · rintro ⟨hv, hs⟩
    exact (quadraticChar_one_iff_isSquare hv).2 hs

theorem sqrt_pow {v : Fp} (h : IsSquare v) : (v ^ ((p + 1) / 4)) ^ 2 = v := by
  obtain ⟨w, rfl⟩ := h
  by_cases hw : w = 0
  · subst hw
    simp only [mul_zero]
    rw [zero_pow (by norm_num [p]), zero_pow (by norm_num)]
  · have h1 : w ^ (p - 1) = 1 := ZMod.pow_card_sub_one_eq_one hw
    rw [← pow_mul, ← sq, ← pow_mul,
      show 2 * ((p + 1) / 4 * 2) = (p - 1) + 2 by norm_num [p], pow_add, h1, one_mul]

end FP

end Amcl.Secp
