import Verif.Proof.BigArith
/-!
# Property C41: division, modular products, powers and inverses of `BIG`

`a.val` is the integer the seven limbs denote; `a.Nrm` says that limbs 0-5 are base-`2^58` digits. A
result `some r` means that the loop ends and nothing overflows on the way; `none` stands for a panic or
a loop that never ends.
-/

set_option exponentiation.threshold 2000

namespace Props

open Amcl

/-- **C41**, division. The quotient is rounded down and the loops end, for every dividend below `2^403`
and every positive divisor. -/
theorem C41_div (s n : BIG) (hs : s.Nrm) (s0 : 0 ≤ s.val) (s1 : s.val < 2 ^ 403) (hn : n.Nrm)
    (n0 : 0 < n.val) (n1 : n.val < 2 ^ 404) :
    ∃ r, s.div n = some r ∧ r.Nrm ∧ r.val = s.val / n.val :=
  BIG.div_wp ((hs.lim58 s0 (by omega)).mono (by norm_num)) s0 s1 hn n0 n1

/-- **C41**, division of a double-length number, when the quotient fits. -/
theorem C41_ddiv (s : DBIG) (n : BIG) (hs : s.Nrm) (s0 : 0 ≤ s.val) (s1 : s.val < 2 ^ 812) (hn : n.Nrm)
    (n0 : 0 < n.val) (n1 : n.val < 2 ^ 406) (hq : s.val < n.val * 2 ^ 404) :
    ∃ r, s.div n = some r ∧ r.Nrm ∧ r.val = s.val / n.val :=
  DBIG.div_wp ((hs.lim (B := 2 ^ 60) s0 (by omega) (by norm_num)).mono (by norm_num)) s0 s1 hn n0 n1 hq

/-- **C41**, division by three, with its remainder; reduction modulo a power of two; the product modulo
`2^406` (exact when it fits); the product by a word. -/
theorem C41_small (a b : BIG) (ha : a.Nrm) (a0 : 0 ≤ a.val) (a1 : a.val < 2 ^ 406) (hb : b.Nrm)
    (b0 : 0 ≤ b.val) (b1 : b.val < 2 ^ 406) (m : Nat) (hm : m < 406) (c : Int)
    (hc : 0 ≤ c ∧ c < 2 ^ 58) :
    (∃ r, a.div3 = some r ∧ r.1.Nrm ∧ r.1.val = a.val / 3 ∧ r.2 = a.val % 3) ∧
    (∃ r, a.mod2m m = some r ∧ r.Nrm ∧ r.val = a.val % 2 ^ m) ∧
    (∃ r, a.smul b = some r ∧ r.Nrm ∧ r.val = a.val * b.val % 2 ^ 406) ∧
    (∃ r, a.pxmul c = some r ∧ r.Nrm ∧ r.val = a.val * c) ∧
    (a.cswap b 0 = (a, b) ∧ a.cswap b 1 = (b, a)) := by
  have la := (ha.lim58 a0 a1).mono (show (2:Int) ^ 58 ≤ 2 ^ 62 by norm_num)
  have lb := (hb.lim58 b0 b1).mono (show (2:Int) ^ 58 ≤ 2 ^ 62 by norm_num)
  refine ⟨BIG.div3_wp la a0 a1, BIG.mod2m_wp ha hm, BIG.smul_wp ha a0 a1 hb b0 b1,
    BIG.pxmul_wp ha a0 a1 hc, ?_, ?_⟩
  · rw [BIG.cswap_eq la lb (Or.inl rfl), if_pos rfl]
  · rw [BIG.cswap_eq la lb (Or.inr rfl), if_neg (by norm_num)]

/-- **C41**, sum of two numbers and product by a word, limb by limb without carries. -/
theorem C41_words (a b : BIG) (A B C c : Int) (ha : a.Lim A) (hb : b.Lim B) (hc : Bd C c) :
    (A + B < 2 ^ 63 → ∃ r, a.plus b = some r ∧ r.Lim (A + B) ∧ r.val = a.val + b.val) ∧
    (A * C < 2 ^ 63 → ∃ r, a.imul c = some r ∧ r.Lim (A * C) ∧ r.val = a.val * c) :=
  ⟨BIG.plus_wp ha hb, BIG.imul_wp ha hc⟩

/-- **C41**, modular product, square, negative and power. `modneg` leaves `m` for a multiple of `m`, not
0. -/
theorem C41_modular (a b m : BIG) (ha : a.Nrm) (a0 : 0 ≤ a.val) (a1 : a.val < 2 ^ 406) (hb : b.Nrm)
    (b0 : 0 ≤ b.val) (b1 : b.val < 2 ^ 406) (hm : m.Nrm) (m0 : 1 < m.val) (m1 : m.val < 2 ^ 406) :
    (∃ r, a.modmul b m = some r ∧ r.Nrm ∧ r.val = a.val * b.val % m.val) ∧
    (∃ r, a.modsqr m = some r ∧ r.Nrm ∧ r.val = a.val ^ 2 % m.val) ∧
    (∃ r, a.modneg m = some r ∧ r.1.val = m.val - a.val % m.val) ∧
    (∃ r, a.powmod b m = some r ∧ r.Nrm ∧ r.val = a.val ^ b.val.toNat % m.val) := by
  have la := (ha.lim58 a0 a1).mono (show (2:Int) ^ 58 ≤ 2 ^ 62 by norm_num)
  have lb := (hb.lim58 b0 b1).mono (show (2:Int) ^ 58 ≤ 2 ^ 62 by norm_num)
  refine ⟨BIG.modmul_wp la a0 (by omega) lb b0 (by omega) hm (by omega) m1,
    BIG.modsqr_wp la a0 (by omega) hm (by omega) m1, ?_, BIG.powmod_wp la a0 a1 lb b0 hm m0 m1⟩
  obtain ⟨r, e, -, h, -⟩ := BIG.modneg_wp la a0 (by omega) hm (by omega) m1
  exact ⟨r, e, h⟩

/-- **C41**, inversion modulo an odd number. A number coprime to `p` is inverted; for every other one,
multiples of `p` included, the loop never ends. -/
theorem C41_invmodp (s p : BIG) (hs : s.Nrm) (s0 : 0 ≤ s.val) (s1 : s.val < 2 ^ 406) (hp : p.Nrm)
    (p0 : 1 < p.val) (p1 : p.val < 2 ^ 406) (podd : p.val % 2 = 1) :
    (Int.gcd s.val p.val = 1 → ∃ r, s.invmodp p = some r ∧ r.Nrm ∧ 0 ≤ r.val ∧ r.val < p.val ∧
      s.val * r.val % p.val = 1) ∧
    (Int.gcd s.val p.val ≠ 1 → s.invmodp p = none) := by
  have ls := (hs.lim58 s0 s1).mono (show (2:Int) ^ 58 ≤ 2 ^ 62 by norm_num)
  refine ⟨fun h => ?_, BIG.invmodp_none ls s0 (by omega) hp p0 p1 podd⟩
  obtain ⟨r, e, nr, r0, r1, hr⟩ := BIG.invmodp_wp ls s0 (by omega) hp p0 p1 podd h
  exact ⟨r, e, nr, r0, r1, by rw [hr.eq]; exact Int.emod_eq_of_lt (by norm_num) p0⟩

/-- **C41**, inversion of an odd byte modulo 256: the domain is all 128 odd bytes. -/
theorem C41_invmod256 : ∀ i : Fin 128, (2 * (i : Int) + 1) * BIG.invmod256 (2 * i + 1) % 256 = 1 :=
  BIG.invmod256_spec

/-! ### Instances -/

example : ∃ r, (BIG.new_int 1000).div (BIG.new_int 7) = some r ∧ r.val = 142 := by
  obtain ⟨r, e, -, v⟩ := C41_div (BIG.new_int 1000) (BIG.new_int 7)
    (BIG.new_int_nrm (by norm_num) (by norm_num)) (by norm_num [BIG.new_int_val])
    (by norm_num [BIG.new_int_val]) (BIG.new_int_nrm (by norm_num) (by norm_num))
    (by norm_num [BIG.new_int_val]) (by norm_num [BIG.new_int_val])
  exact ⟨r, e, by rw [v, BIG.new_int_val, BIG.new_int_val]; norm_num⟩

example : ∃ r, (BIG.new_int 3).powmod (BIG.new_int 100) (BIG.new_int 101) = some r ∧ r.val = 1 := by
  obtain ⟨r, e, -, v⟩ := (C41_modular (BIG.new_int 3) (BIG.new_int 100) (BIG.new_int 101)
    (BIG.new_int_nrm (by norm_num) (by norm_num)) (by norm_num [BIG.new_int_val])
    (by norm_num [BIG.new_int_val]) (BIG.new_int_nrm (by norm_num) (by norm_num))
    (by norm_num [BIG.new_int_val]) (by norm_num [BIG.new_int_val])
    (BIG.new_int_nrm (by norm_num) (by norm_num)) (by norm_num [BIG.new_int_val])
    (by norm_num [BIG.new_int_val])).2.2.2
  exact ⟨r, e, by rw [v, BIG.new_int_val, BIG.new_int_val, BIG.new_int_val]; decide +kernel⟩

/-- 6 is invertible modulo 35, 5 is not. -/
example : (∃ r, (BIG.new_int 6).invmodp (BIG.new_int 35) = some r ∧ 6 * r.val % 35 = 1) ∧
    (BIG.new_int 5).invmodp (BIG.new_int 35) = none := by
  have h := fun s (hs : 0 ≤ s ∧ s < 2 ^ 50) => C41_invmodp (BIG.new_int s) (BIG.new_int 35)
    (BIG.new_int_nrm hs.1 (by omega)) (by rw [BIG.new_int_val]; omega)
    (by rw [BIG.new_int_val]; omega) (BIG.new_int_nrm (by norm_num) (by norm_num))
    (by norm_num [BIG.new_int_val]) (by norm_num [BIG.new_int_val]) (by norm_num [BIG.new_int_val])
  simp only [BIG.new_int_val] at h
  obtain ⟨r, e, -, -, -, v⟩ := (h 6 (by norm_num)).1 (by decide)
  exact ⟨⟨r, e, v⟩, (h 5 (by norm_num)).2 (by decide)⟩

/-- The product of `2^204` and `2^204 + 1` loses its bit 408. -/
example : ∃ r, (⟨0, 0, 0, 2 ^ 30, 0, 0, 0⟩ : BIG).smul ⟨1, 0, 0, 2 ^ 30, 0, 0, 0⟩ = some r ∧
    r.val = 2 ^ 204 := by
  obtain ⟨r, e, -, v⟩ := (C41_small ⟨0, 0, 0, 2 ^ 30, 0, 0, 0⟩ ⟨1, 0, 0, 2 ^ 30, 0, 0, 0⟩
    (by constructor <;> norm_num) (by norm_num [BIG.val]) (by norm_num [BIG.val])
    (by constructor <;> norm_num) (by norm_num [BIG.val]) (by norm_num [BIG.val]) 0 (by norm_num) 0
    (by norm_num)).2.2.1
  exact ⟨r, e, by rw [v]; norm_num [BIG.val]⟩

end Props
