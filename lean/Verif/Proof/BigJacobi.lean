import Mathlib.NumberTheory.LegendreSymbol.JacobiSymbol
import Verif.Proof.Dbig
/-!
# `BIG::jacobi` is the Jacobi symbol
-/

set_option exponentiation.threshold 2000

namespace Amcl

open NumberTheorySymbols

/-- The factor contributed by powers of two. -/
theorem jac_two {n k : Nat} (hn : n % 2 = 1) (x : Nat) :
    J((x * 2 ^ k : Nat) | n) =
      (-1) ^ (if k % 2 = 1 then ((n % 8) * (n % 8) - 1) / 8 else 0) * J(x | n) := by
  have ho : Odd n := Nat.odd_iff.2 hn
  have h2 : J(2 | n) = (-1) ^ (((n % 8) * (n % 8) - 1) / 8) := by
    rw [jacobiSym.at_two ho, ZMod.χ₈_nat_eq_if_mod_eight]
    have : n % 8 = 1 ∨ n % 8 = 3 ∨ n % 8 = 5 ∨ n % 8 = 7 := by omega
    rcases this with h | h | h | h <;> rw [h] <;> norm_num <;> omega
  have h4 : J(2 | n) * J(2 | n) = 1 := by
    rw [h2, ← pow_add]; exact Even.neg_one_pow ⟨_, rfl⟩
  rw [Nat.cast_mul, Nat.cast_pow, jacobiSym.mul_left, jacobiSym.pow_left, Nat.cast_ofNat, mul_comm]
  congr 1
  obtain ⟨j, hj⟩ : ∃ j, k = 2 * j + k % 2 := ⟨k / 2, by omega⟩
  have e : J(2 | n) ^ k = J(2 | n) ^ (k % 2) := by
    conv_lhs => rw [hj, pow_add, pow_mul, sq, h4, one_pow, one_mul]
  rw [e]
  rcases Nat.mod_two_eq_zero_or_one k with h | h <;> rw [h]
  · simp
  · simp [h2]

/-- The reciprocity factor. -/
theorem jac_recip {n x : Nat} (hn : n % 2 = 1) (hx : x % 2 = 1) :
    J(x | n) = (-1) ^ ((n % 8 - 1) * (x % 4 - 1) / 4) * J(((n : Int) % x) | x) := by
  rw [← jacobiSym.mod_left, ← jacobiSym.quadratic_reciprocity_if hx hn]
  have h1 : n % 8 = 1 ∨ n % 8 = 3 ∨ n % 8 = 5 ∨ n % 8 = 7 := by omega
  have h2 : x % 4 = 1 ∨ x % 4 = 3 := by omega
  rcases h1 with h | h | h | h <;> rcases h2 with g | g <;> rw [h, g] <;> norm_num <;> omega

namespace BIG

theorem jacobiStrip_wp (N : Nat) : ∀ (x : BIG) (k : Nat), x.Nrm → 0 < x.val → x.val < N →
    Wp (jacobiStrip x k) fun r => r.1.Nrm ∧ 0 < r.1.val ∧ r.1.val % 2 = 1 ∧
      ∃ j, r.2 = k + j ∧ x.val = r.1.val * 2 ^ j := by
  induction N with
  | zero => intro x k _ h0 h1; simp at h1; omega
  | succ N ih =>
    intro x k hx h0 h1
    rw [jacobiStrip, parity_spec hx]
    split
    · next h =>
      refine Wp.bind (shr_wp hx (by norm_num)) ?_
      rintro y ⟨ny, vy⟩
      rw [pow_one] at vy
      have h2 : x.val = 2 * y.val := by omega
      push_cast at h1
      refine (ih y (k + 1) ny (by omega) (by omega)).mono ?_
      rintro r ⟨nr, r0, r1, j, e1, e2⟩
      refine ⟨nr, r0, r1, j + 1, by omega, ?_⟩
      rw [pow_succ]
      have : x.val = 2 * y.val := by rw [vy]; omega
      rw [this, e2]; ring
    · next h => exact Wp.ret ⟨hx, h0, by show x.val % 2 = 1; omega, 0, rfl, by simp⟩

theorem jacobiLoop_wp (N : Nat) : ∀ (x n : BIG) (m : Nat), x.Nrm → n.Nrm → 0 ≤ x.val → 0 < n.val →
    x.val < n.val → n.val % 2 = 1 → n.val < 2 ^ 406 → n.val < N → m < 2 →
    Wp (jacobiLoop x n m) fun r => r = (-1) ^ m * J(x.val | n.val.toNat) := by
  induction N with
  | zero => intro x n m _ _ _ h0 _ _ _ h1; simp at h1; omega
  | succ N ih =>
    intro x n m hx hn hx0 hn0 hxn hodd hn1 hN hm
    rw [jacobiLoop]
    have c1 := comp_pos hn (new_int_nrm (x := 1) (by norm_num) (by norm_num))
    rw [new_int_val] at c1
    split
    · next hc =>
      have hgt := c1.1 hc
      have c2 := comp_eq_zero hx new_nrm
      rw [new_val] at c2
      split
      · next hz =>
        refine Wp.ret ?_
        rw [c2.1 hz, jacobiSym.zero_left (by omega), mul_zero]
      · next hz =>
        have hx0' : 0 < x.val := lt_of_le_of_ne hx0 (fun h => hz (c2.2 h.symm))
        refine Wp.bind (lastbits_wp ((hn.lim58 hn0.le hn1).mono (by norm_num)) (n := 3) (by norm_num)) ?_
        rintro ⟨n8, n'⟩ ⟨e8, nn', vn'⟩
        dsimp only at e8 nn' vn' ⊢
        refine Wp.bind (jacobiStrip_wp (x.val.toNat + 1) x 0 hx hx0' (by push_cast; omega)) ?_
        rintro ⟨x', k⟩ ⟨nx', x0, x1, j, ek, ex⟩
        dsimp only at nx' x0 x1 ek ex ⊢
        rw [zero_add] at ek
        subst ek
        have hle : x'.val ≤ x.val := by
          rw [ex]; exact le_mul_of_one_le_right x0.le (one_le_pow₀ (by norm_num))
        rw [if_neg (by rw [e8]; omega)]
        refine Wp.bind (lastbits_wp ((nx'.lim58 x0.le (by omega)).mono (by norm_num)) (n := 2)
          (by norm_num)) ?_
        rintro ⟨x2, y⟩ ⟨e2, ny, vy⟩
        dsimp only at e2 ny vy ⊢
        rw [if_neg (by rw [e2]; omega)]
        refine Wp.bind (rmod_wp ((nn'.lim58 (by omega) (by omega)).mono (by norm_num)) (by omega)
          (by omega) ny (by omega)) ?_
        rintro t ⟨nt, vt⟩
        have t0 : 0 ≤ t.val := by rw [vt]; exact Int.emod_nonneg _ (by omega)
        have t1 : t.val < y.val := by rw [vt]; exact Int.emod_lt_of_pos _ (by omega)
        refine (ih t y _ nt ny t0 (by omega) t1 (by omega) (by omega) (by push_cast at hN; omega)
          (Nat.mod_lt _ (by norm_num))).mono ?_
        rintro r rfl
        rw [← neg_one_pow_eq_pow_mod_two]
        obtain ⟨N', hN'⟩ := Int.eq_ofNat_of_zero_le hn0.le
        obtain ⟨X', hX'⟩ := Int.eq_ofNat_of_zero_le x0.le
        rw [vt, vy, vn', ex, e8, e2, hN', hX']
        rw [hN'] at hodd
        rw [hX'] at x1
        have q1 : ((X' : Int) * 2 ^ k) = ((X' * 2 ^ k : Nat) : Int) := by push_cast; ring
        rw [q1, Int.toNat_natCast, Int.toNat_natCast, jac_two (by omega), jac_recip (x := X') (n := N') (by omega) (by omega)]
        have q2 : ((N' : Int) % 2 ^ 3).toNat = N' % 8 := by omega
        have q3 : ((X' : Int) % 2 ^ 2).toNat = X' % 4 := by omega
        rw [q2, q3]
        split <;> ring
    · next hc =>
      have hn1 : n.val = 1 := by
        by_contra h
        exact hc (c1.2 (by omega))
      refine Wp.ret ?_
      rw [hn1, Int.toNat_one, jacobiSym.one_right, mul_one]
      interval_cases m <;> rfl

/-- `BIG::jacobi` computes the Jacobi symbol. -/
theorem jacobi_wp {s p : BIG} (hs : s.Nrm) (h0 : 0 ≤ s.val) (h1 : s.val < 2 ^ 406) (hp : p.Nrm)
    (hp1 : 1 < p.val) (hp2 : p.val < 2 ^ 406) (hodd : p.val % 2 = 1) :
    Wp (jacobi s p) fun r => r = J(s.val | p.val.toNat) := by
  unfold jacobi
  have c1 := comp_spec hp (new_int_nrm (x := 1) (by norm_num) (by norm_num))
  have c2 := comp_eq_zero hs new_nrm
  rw [new_int_val] at c1
  rw [new_val] at c2
  have c3 : ¬ comp p (new_int 1) ≤ 0 := by rw [c1, cmpZ, if_neg (by omega), if_pos (by omega)]; norm_num
  rw [parity_spec hp]
  split
  · next h =>
    have : s.val = 0 := c2.1 (by omega)
    refine Wp.ret ?_
    rw [this, jacobiSym.zero_left (by omega)]
  · refine Wp.bind (norm_wp ((hs.lim58 h0 h1).mono (by norm_num))) ?_
    rintro s' ⟨ns, vs⟩
    refine Wp.bind (rmod_wp ((ns.lim58 (by omega) (by omega)).mono (by norm_num)) (by omega)
      (by omega) hp (by omega)) ?_
    rintro x ⟨nx, vx⟩
    refine (jacobiLoop_wp (p.val.toNat + 1) x p 0 nx hp (by rw [vx]; exact Int.emod_nonneg _ (by omega))
      (by omega) (by rw [vx]; exact Int.emod_lt_of_pos _ (by omega)) hodd hp2 (by push_cast; omega)
      (by norm_num)).mono ?_
    rintro r rfl
    rw [pow_zero, one_mul, vx, vs]
    conv_rhs => rw [jacobiSym.mod_left, Int.toNat_of_nonneg (by omega)]

end BIG

end Amcl
