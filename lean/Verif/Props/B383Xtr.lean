import Verif.Proof.B383.Compow
import Verif.Props.B383Endo
/-!
# Property C89: compressed powers and powers by small exponents on BLS12-383
-/

set_option exponentiation.threshold 6000

namespace Props.B383

open Amcl.B383 Spec.B383
open Amcl (Wp BIG)

seal Spec.B383.finalExp

/-! ### C89: compressed powers -/

theorem exists_cycG {z : Fp12} (h : z ^ (p ^ 4 - p ^ 2 + 1) = 1) : ∃ g : CycG, g.v = z :=
  CycG.exists_v (Cyc.of_cyclotomic h) (Cyc.ne_zero h)

theorem exists_cycG_r {z : Fp12} (h : z ^ r = 1) : ∃ g : CycG, g.v = z ∧ r • g = 0 := by
  have h0 : z ≠ 0 := by
    rintro rfl
    rw [zero_pow (by decide +kernel)] at h
    exact zero_ne_one h
  obtain ⟨g, rfl⟩ := CycG.exists_v (Cyc.of_order h) h0
  exact ⟨g, rfl, CycG.v_inj (by rw [CycG.v_nsmul, h, CycG.v_zero])⟩

/-- **C89**, what the compression keeps: in the cyclotomic subgroup two elements have the same trace if and only if
they are conjugate over `Fp4`. -/
theorem C89_conjugates (z z' : Fp12) (h : z ^ (p ^ 4 - p ^ 2 + 1) = 1) (h' : z' ^ (p ^ 4 - p ^ 2 + 1) = 1) (c c' : Fp4)
    (hc : IsTrace c z) (hc' : IsTrace c' z') : c = c' ↔ z' = z ∨ z' = z ^ (p ^ 4) ∨ z' = z ^ (p ^ 8) := by
  have f4 : ∀ z : Fp12, z ^ (p ^ 4) = φ (φ (φ (φ z))) := fun z => by simp only [φ_eq, ← pow_mul]; congr 1
  have f8 : ∀ z : Fp12, z ^ (p ^ 8) = φ (φ (φ (φ (φ (φ (φ (φ z))))))) := fun z => by
    simp only [φ_eq, ← pow_mul]; congr 1
  have f12 : ∀ z : Fp12, φ (φ (φ (φ (φ (φ (φ (φ (φ (φ (φ (φ z))))))))))) = z := fun z => ττ z
  constructor
  · rintro rfl
    have key : ∀ z : Fp12, z ^ (p ^ 4 - p ^ 2 + 1) = 1 → IsTrace c z →
        ι4 (star c) = z * φ (φ (φ (φ z))) + z * φ (φ (φ (φ (φ (φ (φ (φ z))))))) +
          φ (φ (φ (φ z))) * φ (φ (φ (φ (φ (φ (φ (φ z))))))) ∧
        z * φ (φ (φ (φ z))) * φ (φ (φ (φ (φ (φ (φ (φ z))))))) = 1 := by
      intro z hz hc
      have hy := Cyc.of_cyclotomic hz
      have h3 := hy.three (Cyc.ne_zero hz)
      have hi := (hc.inv hy).eq
      simp only [map_inv₀] at hi
      generalize φ (φ (φ (φ (φ (φ (φ (φ z))))))) = v2 at *
      generalize φ (φ (φ (φ z))) = v1 at *
      have i0 : z⁻¹ = v1 * v2 := inv_eq_of_mul_eq_one_right (by rw [← h3]; ring)
      have i1 : v1⁻¹ = z * v2 := inv_eq_of_mul_eq_one_right (by rw [← h3]; ring)
      have i2 : v2⁻¹ = z * v1 := inv_eq_of_mul_eq_one_right (by rw [← h3]; ring)
      refine ⟨?_, h3⟩
      rw [hi, i0, i1, i2]
      ring
    obtain ⟨a1, a2⟩ := key z h hc
    obtain ⟨b1, b2⟩ := key z' h' hc'
    have e1 := hc.eq
    have e2 := hc'.eq
    rw [f4, f8]
    generalize φ (φ (φ (φ (φ (φ (φ (φ z))))))) = v2 at *
    generalize φ (φ (φ (φ z))) = v1 at *
    generalize φ (φ (φ (φ (φ (φ (φ (φ z'))))))) = w2 at *
    generalize φ (φ (φ (φ z'))) = w1 at *
    have : (z' - z) * ((z' - v1) * (z' - v2)) = 0 := by
      linear_combination z' ^ 2 * (e1 - e2) + z' * (b1 - a1) + b2 - a2
    rcases mul_eq_zero.1 this with h | h
    · exact .inl (sub_eq_zero.1 h)
    · rcases mul_eq_zero.1 h with h | h
      · exact .inr (.inl (sub_eq_zero.1 h))
      · exact .inr (.inr (sub_eq_zero.1 h))
  · intro he
    apply RingHom.injective ι4
    rw [hc.eq, hc'.eq]
    rcases he with rfl | rfl | rfl
    · rfl
    · simp only [f4, f12]; ring
    · simp only [f8, f12]; ring

/-- **C89**, `FP12::trace`: for every element of the field. -/
theorem C89_trace (f : FP12) (z : Fp12) (hf : f.Ok 1 (2 ^ 12) z) :
    ∃ r c, f.trace = some r ∧ r.Can c ∧ IsTrace c z := by
  obtain ⟨r, e, c, hc, ht⟩ := FP12.trace_wp hf (by norm_num)
  exact ⟨r, c, e, hc, ht⟩

/-- **C89**, `FP4::xtr_pow`: from the trace of an element of the cyclotomic subgroup and an exponent of at least 1
it computes the trace of the power. -/
theorem C89_pow (x : FP4) (c : Fp4) (z : Fp12) (hx : x.Can c) (hz : z ^ (p ^ 4 - p ^ 2 + 1) = 1) (hc : IsTrace c z)
    (n : BIG) (hn : n.Nrm) (h0 : 1 ≤ n.val) (h1 : n.val < 2 ^ 406) :
    ∃ r d, x.xtr_pow n = some r ∧ r.Can d ∧ IsTrace d (z ^ n.val) := by
  obtain ⟨g, rfl⟩ := exists_cycG hz
  obtain ⟨r, e, d, hd, ht⟩ := FP4.xtr_pow_wp (g := g) ⟨c, hx.ok.toJ (by norm_num) |>.mono (by norm_num), hc⟩
    (hn.lim58 (by omega) h1 |>.mono (by norm_num)) h0 h1
  refine ⟨r, d, e, hd, ?_⟩
  rwa [← CycG.v_zsmul, ← Int.toNat_of_nonneg (show 0 ≤ n.val by omega), natCast_zsmul]

/-- **C89**, `FP4::xtr_pow2`: from the traces of `y`, `z`, `z / y` and `z / y²` it computes the trace of
`y^a z^b`, for exponents from 1 to `2^403`. -/
theorem C89_pow2 (x ck ckml ckm2l : FP4) (c0 c1 c2 c3 : Fp4) (y z : Fp12) (h0 : x.Can c0) (h1 : ck.Can c1)
    (h2 : ckml.Can c2) (h3 : ckm2l.Can c3) (hy : y ^ (p ^ 4 - p ^ 2 + 1) = 1) (hz : z ^ (p ^ 4 - p ^ 2 + 1) = 1)
    (t0 : IsTrace c0 y) (t1 : IsTrace c1 z) (t2 : IsTrace c2 (z / y)) (t3 : IsTrace c3 (z / y ^ 2))
    (a b : BIG) (ha : a.Nrm) (hb : b.Nrm) (a0 : 1 ≤ a.val ∧ a.val < 2 ^ 403) (b0 : 1 ≤ b.val ∧ b.val < 2 ^ 403) :
    ∃ r d, x.xtr_pow2 ck ckml ckm2l a b = some r ∧ r.Can d ∧ IsTrace d (y ^ a.val * z ^ b.val) := by
  obtain ⟨g, rfl⟩ := exists_cycG hy
  obtain ⟨h, rfl⟩ := exists_cycG hz
  have e2 : (h - g).v = h.v / g.v := by rw [sub_eq_add_neg, CycG.v_add, CycG.v_neg]; rfl
  have e3 : (h - g - g).v = h.v / g.v ^ 2 := by
    rw [sub_eq_add_neg, CycG.v_add, e2, CycG.v_neg, sq, div_eq_mul_inv, div_eq_mul_inv, mul_inv, mul_assoc]
  obtain ⟨r, e, d, hd, ht⟩ := FP4.xtr_pow2_wp (k := h) (l := g) ⟨c0, h0.ok.toJ (by norm_num), t0⟩
    ⟨c1, h1.ok.toJ (by norm_num), t1⟩ ⟨c2, h2.ok.toJ (by norm_num), e2 ▸ t2⟩ ⟨c3, h3.ok.toJ (by norm_num), e3 ▸ t3⟩
    (by norm_num) (ha.lim58 (by omega) (by omega) |>.mono (by norm_num)) a0.1 a0.2
    (hb.lim58 (by omega) (by omega) |>.mono (by norm_num)) b0.1 b0.2
  refine ⟨r, d, e, hd, ?_⟩
  rwa [CycG.v_add, CycG.v_zsmul, CycG.v_zsmul] at ht

/-- **C89**, `FP12::compow`: for every element of order dividing `r` and every exponent below `2^403` that is not a
multiple of `p mod r`, the result is the canonical form of the trace of the power. -/
theorem C89_compow (f : FP12) (z : Fp12) (hf : f.Ok 1 (2 ^ 12) z) (hz : z ^ r = 1) (e : BIG) (he : e.Nrm)
    (h0 : 0 ≤ e.val) (h1 : e.val < 2 ^ 403) (h : ¬ ((p % r : Nat) : Int) ∣ e.val) :
    ∃ s c, f.compow e rom.CURVE_ORDER = some s ∧ s.Can c ∧ IsTrace c (z ^ e.val) := by
  obtain ⟨g, rfl, hg⟩ := exists_cycG_r hz
  obtain ⟨s, eq, c, hc, ht⟩ := FP12.compow_wp hf hg (he.lim58 h0 (by omega) |>.mono (by norm_num)) h0 h1
    (fun h' => h (Int.dvd_of_emod_eq_zero h'))
  refine ⟨s, c, eq, hc, ?_⟩
  rwa [CycG.v_zsmul] at ht

/-- **C89**, agreement: `compow` gives the trace of the result of `gtpow`. -/
theorem C89_agrees (f : FP12) (z : Fp12) (hf : f.Ok 1 (2 ^ 12) z) (hz : z ^ r = 1) (e : BIG) (he : e.Nrm)
    (h0 : 0 ≤ e.val) (h1 : e.val < 2 ^ 403) (h : ¬ ((p % r : Nat) : Int) ∣ e.val) :
    ∃ s R, f.compow e rom.CURVE_ORDER = some s ∧ pair.gtpow f e = some R ∧ R.trace = some s := by
  obtain ⟨s, c, es, hc, ht⟩ := C89_compow f z hf hz e he h0 h1 h
  obtain ⟨R, eR, hR⟩ := C85_gtpow f z hf hz e he h0 h1
  obtain ⟨t, c', et, hc', ht'⟩ := C89_trace R _ (hR.ok.mono (by norm_num))
  refine ⟨s, R, es, eR, ?_⟩
  rw [ht.unique ht'] at hc
  rw [et, hc.ext hc']

/-- **C89**, the exponent 0: `compow` computes the trace of `z^(2^350)`, which is not the trace of `z^0` unless
`z = 1`. -/
theorem C89_zero (f : FP12) (z : Fp12) (hf : f.Ok 1 (2 ^ 12) z) (hz : z ^ r = 1) (e : BIG) (he : e.Nrm)
    (h0 : e.val = 0) :
    ∃ s c, f.compow e rom.CURVE_ORDER = some s ∧ s.Can c ∧ IsTrace c (z ^ 2 ^ 350) ∧
      (IsTrace c (z ^ 0) → z = 1) := by
  obtain ⟨g, rfl, hg⟩ := exists_cycG_r hz
  obtain ⟨s, eq, c, hc, ht⟩ := FP12.compow_zero hf (he.lim58 (by omega) (by omega) |>.mono (by norm_num)) h0
  rw [CycG.v_nsmul] at ht
  refine ⟨s, c, eq, hc, ht, fun h => ?_⟩
  have hp : (g.v ^ 2 ^ 350) ^ (p ^ 4 - p ^ 2 + 1) = 1 := by
    obtain ⟨k, hk⟩ : r ∣ p ^ 4 - p ^ 2 + 1 := by decide +kernel
    rw [← pow_mul, mul_comm, hk, mul_assoc, pow_mul, hz, one_pow]
  rw [pow_zero] at h
  have h1 := (C89_conjugates 1 _ (one_pow _) hp c c h ht).1 rfl
  simp only [one_pow, or_self] at h1
  have hd := Nat.dvd_gcd (orderOf_dvd_of_pow_eq_one h1) (orderOf_dvd_of_pow_eq_one hz)
  rw [show Nat.gcd (2 ^ 350) r = 1 by decide +kernel, Nat.dvd_one, orderOf_eq_one_iff] at hd
  exact hd

/-- **C89**, the multiples of `p mod r`: `compow` does not come to an end. -/
theorem C89_hangs (f : FP12) (e : BIG) (he : e.Nrm) (h0 : 0 < e.val) (h1 : e.val < 2 ^ 403)
    (h : ((p % r : Nat) : Int) ∣ e.val) : f.compow e rom.CURVE_ORDER = none :=
  FP12.compow_none (he.lim58 h0.le (by omega) |>.mono (by norm_num)) h0 h1 (Int.emod_eq_zero_of_dvd h)

/-- The pairing of the generators to the power `r - 2`, compressed. -/
example : ∃ d e s c, FP12.Ok d 1 (2 ^ 12) (pairing gen2 gen1) ∧ BIG.Nrm e ∧ e.val = (r - 2 : Nat) ∧
    FP12.compow d e rom.CURVE_ORDER = some s ∧ s.Can c ∧ IsTrace c (pairing gen2 gen1 ^ 2)⁻¹ := by
  obtain ⟨P, hP⟩ := exists_aff2 gen2
  obtain ⟨S, hS⟩ := exists_aff1 gen1
  obtain ⟨d, -, hd⟩ := C84_pairing_any_key P gen2 S gen1 hP r_gen2 hS gen2_ne
  obtain ⟨e, he, ve⟩ := exists_of_nat (n := r - 2) (by rw [r_val]; norm_num)
  have hr := pairing_pow_r r_gen2 gen1
  obtain ⟨s, c, eq, hc, ht⟩ := C89_compow d _ (hd.ok.mono (by norm_num)) hr e he (by omega) (by rw [ve, r_val]; norm_num)
    (by rw [ve, Int.natCast_dvd_natCast]; decide +kernel)
  refine ⟨d, e, s, c, hd.ok.mono (by norm_num), he, ve, eq, hc, ?_⟩
  rw [ve, zpow_natCast] at ht
  convert ht using 1
  refine inv_eq_of_mul_eq_one_right ?_
  rw [← pow_add, Nat.add_sub_cancel' (by rw [r_val]; norm_num), hr]

/-- Exponents below `r` for which the program hangs: the parameter `x = p mod r` of the curve, and `r - 1`. -/
example (n : Nat) (hn : n = xPar ∨ n = r - 1) :
    ∃ e : BIG, e.Nrm ∧ e.val = n ∧ ∀ f : FP12, f.compow e rom.CURVE_ORDER = none := by
  have h1 : 0 < n ∧ n < 2 ^ 260 ∧ p % r ∣ n := by rcases hn with rfl | rfl <;> decide +kernel
  obtain ⟨e, he, ve⟩ := exists_of_nat (n := n) (by omega)
  refine ⟨e, he, ve, fun f => C89_hangs f e he ?_ ?_ ?_⟩
  · omega
  · omega
  · rw [ve]; exact_mod_cast h1.2.2

/-! ### C89: powers by small exponents -/

/-- **C89**, `FP12::pinpow`: for every element of the cyclotomic subgroup and every exponent, negative or not, the
result is the power by the low `bts` bits of the exponent. -/
theorem C89_pinpow (f : FP12) (z : Fp12) (hf : f.Ok 1 (2 ^ 12) z) (hz : z ^ (p ^ 4 - p ^ 2 + 1) = 1) (e : Int)
    (bts : Nat) (hb : bts ≤ 32) :
    ∃ R, f.pinpow e bts = some R ∧ R.Ok 1 (2 ^ 12) (z ^ (e % 2 ^ bts)) := by
  obtain ⟨g, rfl⟩ := exists_cycG hz
  have e0 : 0 ≤ e % 2 ^ bts := Int.emod_nonneg _ (by positivity)
  have e1 : e % 2 ^ bts < 2 ^ bts := Int.emod_lt_of_pos _ (by positivity)
  obtain ⟨n, hn⟩ := Int.eq_ofNat_of_zero_le e0
  rw [hn] at e1
  obtain ⟨R, eq, hR⟩ := FP12.pinpow_wp hf hb (e := n) (by exact_mod_cast e1)
  refine ⟨R, ?_, ?_⟩
  · rw [FP12.pinpow_mod, hn, eq]
  · rw [hn, zpow_natCast, ← CycG.v_nsmul]; exact hR

/-- **C89**: more than 32 bits panic. -/
theorem C89_pinpow_panics (f : FP12) (e : Int) (bts : Nat) (hb : 32 < bts) : f.pinpow e bts = none := by
  obtain ⟨o, eo, -⟩ := FP12.new_int_wp (a := 1) (by norm_num) (by norm_num)
  unfold FP12.pinpow
  rw [eo, Option.bind_eq_bind, Option.bind_some, if_neg (by omega)]

/-- The pairing of the generators, with the four digits of a PIN and with an exponent that is too long. -/
example : ∃ d R R', FP12.Ok d 1 (2 ^ 12) (pairing gen2 gen1) ∧ FP12.pinpow d 1234 14 = some R ∧
    FP12.Ok R 1 (2 ^ 12) (pairing gen2 gen1 ^ 1234) ∧ FP12.pinpow d (-1) 4 = some R' ∧
    FP12.Ok R' 1 (2 ^ 12) (pairing gen2 gen1 ^ 15) := by
  obtain ⟨P, hP⟩ := exists_aff2 gen2
  obtain ⟨S, hS⟩ := exists_aff1 gen1
  obtain ⟨d, -, hd⟩ := C84_pairing_any_key P gen2 S gen1 hP r_gen2 hS gen2_ne
  have hd := hd.ok.mono (L' := 1) (E' := 2 ^ 12) (by norm_num)
  have hc : pairing gen2 gen1 ^ (p ^ 4 - p ^ 2 + 1) = 1 := by
    obtain ⟨k, hk⟩ : r ∣ p ^ 4 - p ^ 2 + 1 := by decide +kernel
    rw [hk, pow_mul, pairing_pow_r r_gen2 gen1, one_pow]
  obtain ⟨R, e, h⟩ := C89_pinpow d _ hd hc 1234 14 (by norm_num)
  obtain ⟨R', e', h'⟩ := C89_pinpow d _ hd hc (-1) 4 (by norm_num)
  rw [show (1234 : Int) % 2 ^ 14 = (1234 : Nat) by norm_num, zpow_natCast] at h
  rw [show (-1 : Int) % 2 ^ 4 = (15 : Nat) by norm_num, zpow_natCast] at h'
  exact ⟨d, R, R', hd, e, h, e', h'⟩

end Props.B383
