import Verif.Proof.B383.MpinCode
/-!
# Property C93: points as pairs of numbers in M-Pin on BLS12-383
-/

set_option exponentiation.threshold 2000

namespace Props.B383

open Amcl.B383 Spec.B383
open Amcl (Wp BIG RAND)
open Spec (Pt toBE beNat beNat_toBE length_toBE sha256)

seal Spec.toBE

/-- **C93**, every string of 97 bytes without the third bit in the first byte stands for exactly one point. -/
theorem C93_total (d : List UInt8) (hl : d.length = 97) (h : ∀ d0 ∈ d.head?, d0.toNat / 4 % 2 = 0) :
    ∃! g, Encodes d g := by
  rcases d with _ | ⟨d0, d⟩
  · simp at hl
  have h0 := h d0 (by simp)
  have hl' : d.length = 96 := by simpa using hl
  obtain ⟨W, hW⟩ := exists_lifts (beNat (d.take 48) : Fp) (d0.toNat % 2) (Nat.mod_lt _ (by norm_num))
  obtain ⟨V, hV⟩ := exists_lifts (beNat (d.drop 48) : Fp) (d0.toNat / 2 % 2) (Nat.mod_lt _ (by norm_num))
  refine ⟨V + W, ⟨d0, d.take 48, d.drop 48, W, V, by rw [List.take_append_drop], by simp [hl'], by simp [hl'], h0, hW, hV,
    rfl⟩, ?_⟩
  rintro g ⟨c0, a, b, W', V', e, ha, hb, -, hW', hV', rfl⟩
  obtain ⟨rfl, rfl⟩ := List.cons.inj e
  rw [List.take_left' ha] at hW
  rw [List.drop_left' ha] at hV
  rw [hW'.unique hW, hV'.unique hV]

/-- **C93**, `decoding` computes the uncompressed string of the point, if that is finite. An abscissa 0 may come out as
`p`. -/
theorem C93_decoding (d : List UInt8) (x y : Fp) (h : y ^ 2 = x ^ 3 + b1) (hd : Encodes d (Pt.mk x y h)) :
    ∃ n : Nat, (n : Fp) = x ∧ n ≤ p ∧ (x ≠ 0 → n = x.val) ∧
      mpin.decoding d = some (.ok (4 :: (toBE 48 n ++ toBE 48 y.val))) := by
  obtain ⟨_, e, n, h1, h2, h3, rfl⟩ := mpin.decoding_wp hd
  exact ⟨n, h1, h2, h3, e⟩

/-- **C93**, `decoding` refuses a first byte with the third bit, which a point not encoded has. -/
theorem C93_decoding_refuses (d0 : UInt8) (d : List UInt8) (hl : 96 ≤ d.length) (h : d0.toNat / 4 % 2 = 1) :
    mpin.decoding (d0 :: d) = some (.error (-14)) :=
  mpin.decoding_bad hl h

/-- **C93**, `encoding` refuses coordinates not on the curve. -/
theorem C93_encoding_refuses (rng : RAND) (c0 : UInt8) (a b : List UInt8) (ha : a.length = 48) (hb : b.length = 48)
    (h : ¬ (beNat b : Fp) ^ 2 = (beNat a : Fp) ^ 3 + b1) : mpin.encoding rng (c0 :: (a ++ b)) = some (.error (-14)) :=
  mpin.encoding_off ha hb h

/-- **C93**, `encoding` with a generator seeded with `e` of which `i` bytes have been used. The condition fails for three
of the values of the first point: the point itself and those at which the difference has the abscissa 0. -/
theorem C93_encoding (e : List UInt8) (i : Nat) (rng : RAND) (c0 : UInt8) (a b : List UInt8)
    (hg : RAND.Gen (sha256 e) i rng) (ha : a.length = 48) (hb : b.length = 48)
    (h : (beNat b : Fp) ^ 2 = (beNat a : Fp) ^ 3 + b1)
    (hne : ∀ W, Lifts ((Spec.Rng.numberAt e i 766 % p : Nat) : Fp) ((Spec.Rng.byte e (i + 96)).toNat % 2) W →
      ∃ x y h', x ≠ 0 ∧ Pt.mk _ _ h - W = Pt.mk x y h') :
    ∃ d rng', mpin.encoding rng (c0 :: (a ++ b)) = some (.ok (d, rng')) ∧ EncodedFrom e i (Pt.mk _ _ h) d ∧
      Encodes d (Pt.mk _ _ h) ∧ RAND.Gen (sha256 e) (i + 98) rng' := by
  obtain ⟨_, e1, d, rng', rfl, h1, h2⟩ := mpin.encoding_wp hg ha hb h hne
  exact ⟨d, rng', e1, h1, h1.encodes, h2⟩

/-- **C93**, what `encoding` makes of a string of a point, `decoding` turns back into it. -/
theorem C93_roundtrip (e : List UInt8) (i : Nat) (rng : RAND) (x y : Fp) (h : y ^ 2 = x ^ 3 + b1)
    (hg : RAND.Gen (sha256 e) i rng) (hx : x ≠ 0)
    (hne : ∀ W, Lifts ((Spec.Rng.numberAt e i 766 % p : Nat) : Fp) ((Spec.Rng.byte e (i + 96)).toNat % 2) W →
      ∃ x' y' h', x' ≠ 0 ∧ Pt.mk x y h - W = Pt.mk x' y' h') :
    ∃ d rng', mpin.encoding rng (octets x y) = some (.ok (d, rng')) ∧ mpin.decoding d = some (.ok (octets x y)) ∧
      RAND.Gen (sha256 e) (i + 98) rng' := by
  have hple := p_le_pow
  have hxl := ZMod.val_lt x
  have hyl := ZMod.val_lt y
  have ex : ((beNat (toBE 48 x.val) : Nat) : Fp) = x := by
    rw [beNat_toBE, Nat.mod_eq_of_lt (by omega), ZMod.natCast_zmod_val]
  have ey : ((beNat (toBE 48 y.val) : Nat) : Fp) = y := by
    rw [beNat_toBE, Nat.mod_eq_of_lt (by omega), ZMod.natCast_zmod_val]
  have h' : (beNat (toBE 48 y.val) : Fp) ^ 2 = (beNat (toBE 48 x.val) : Fp) ^ 3 + b1 := by rw [ex, ey]; exact h
  have em : Pt.mk _ _ h' = Pt.mk x y h := by rw [Pt.mk_inj]; exact ⟨ex, ey⟩
  obtain ⟨d, rng', e1, -, h2, h3⟩ := C93_encoding e i rng 4 _ _ hg (length_toBE _ _) (length_toBE _ _) h'
    (by rw [em]; exact hne)
  rw [em] at h2
  obtain ⟨n, -, -, hn, e2⟩ := C93_decoding d x y h h2
  rw [hn hx] at e2
  exact ⟨d, rng', e1, e2, h3⟩

/-- **C93**, the numbers that stand for a given point with an abscissa other than 0 are those above the next lower
abscissa; `encoding` takes one of them, the one chosen by a byte of the generator. -/
theorem C93_preimages (x y : Fp) (h : y ^ 2 = x ^ 3 + b1) (n : Nat) (hg : Gap x.val n) (v s : Nat) (hv : v < p) :
    Lifts (v : Fp) s (Pt.mk x y h) ↔ s = y.val % 2 ∧ x.val - n < v ∧ v ≤ x.val := by
  have hxl := ZMod.val_lt x
  have hg' := hg
  obtain ⟨g1, g2, g3, g4⟩ := hg
  constructor
  · rintro ⟨k, y', h', hk, rfl, e⟩
    rw [Pt.mk_inj] at e
    obtain ⟨ex, rfl⟩ := e
    refine ⟨rfl, ?_⟩
    have cast : ∀ j : Nat, (v : Fp) + (j : Nat) = ((v + j : Nat) : Fp) := fun j => by push_cast; rfl
    have hmod : (v + k) % p = x.val := by
      rw [ex, cast, ZMod.val_natCast]
    have hkp : k < p := by
      by_contra hge
      refine hk (k - p) (by have := NeZero.pos p; omega) ?_
      have e2 : (v : Fp) + ((k - p : Nat) : Fp) = x := by
        rw [ex, Nat.cast_sub (by omega), ZMod.natCast_self, sub_zero]
      rw [e2]
      exact ⟨y, by rw [← h, pow_two]⟩
    have hle : v ≤ x.val := by
      by_contra hlt
      have e3 : v + k = x.val + p := by
        rw [← hmod]
        have h1 := Nat.div_add_mod (v + k) p
        have h2 : (v + k) / p = 1 := by
          refine le_antisymm ?_ ?_
          · have : v + k < p * 2 := by omega
            have := Nat.div_lt_of_lt_mul this
            omega
          · rcases Nat.eq_zero_or_pos ((v + k) / p) with h3 | h3
            · rw [h3, mul_zero, zero_add, hmod] at h1
              omega
            · exact h3
        rw [h2, mul_one] at h1
        omega
      refine hk (p - v) (by omega) ?_
      rw [cast, show v + (p - v) = p by omega, ZMod.natCast_self]
      simpa using mpin.isSquare_b1
    refine ⟨?_, hle⟩
    by_contra hlt
    have e3 : v + k = x.val := by
      rw [← hmod]
      refine (Nat.mod_eq_of_lt ?_).symm
      by_contra hge
      have h1 : (v + k) % p = v + k - p := by
        rw [Nat.mod_eq_sub_mod (by omega), Nat.mod_eq_of_lt (by omega)]
      omega
    refine hk (x.val - n - v) (by omega) ?_
    rw [cast, show v + (x.val - n - v) = x.val - n by omega]
    exact g3
  · rintro ⟨rfl, h1, h2⟩
    have := mpin.lifts_of_gap (h := h) hg' (m := v - 1 - (x.val - n)) (by omega)
    rwa [show x.val - n + (v - 1 - (x.val - n)) + 1 = v by omega] at this

/-- The conditions can be met: for a generator seeded with the byte 1 there is a point that goes through both
functions and comes back. -/
example : ∃ (rng : RAND) (x y : Fp) (d : List UInt8) (rng' : RAND), mpin.encoding rng (octets x y) = some (.ok (d, rng')) ∧
    mpin.decoding d = some (.ok (octets x y)) ∧ (∃ h : y ^ 2 = x ^ 3 + b1, Encodes d (Pt.mk x y h)) := by
  obtain ⟨rng, -, hg⟩ := RAND.seed_wp RAND.new [1] (by simp) (by norm_num)
  obtain ⟨W, hW⟩ := exists_lifts ((Spec.Rng.numberAt [1] 0 766 % p : Nat) : Fp) ((Spec.Rng.byte [1] (0 + 96)).toNat % 2)
    (Nat.mod_lt _ (by norm_num))
  have key : ∀ g : G1, r • g = 0 → g ≠ 0 → 3 • (W + g) ≠ 0 → ∃ (x y : Fp) (d : List UInt8) (rng' : RAND),
      mpin.encoding rng (octets x y) = some (.ok (d, rng')) ∧
      mpin.decoding d = some (.ok (octets x y)) ∧ (∃ h : y ^ 2 = x ^ 3 + b1, Encodes d (Pt.mk x y h)) := by
    intro g hr h0 h3
    rcases Pt.cases (W + g) with e0 | ⟨x, y, h, exy⟩
    · exact absurd (by rw [e0, smul_zero]) h3
    have hx : x ≠ 0 := by
      rintro rfl
      exact h3 (by rw [exy]; exact Pt.three_smul_zero h)
    have hne : ∀ W', Lifts ((Spec.Rng.numberAt [1] 0 766 % p : Nat) : Fp) ((Spec.Rng.byte [1] (0 + 96)).toNat % 2) W' →
        ∃ x' y' h', x' ≠ 0 ∧ Pt.mk x y h - W' = Pt.mk x' y' h' := by
      intro W' hW'
      rw [hW'.unique hW, ← exy, add_sub_cancel_left]
      rcases Pt.cases g with rfl | ⟨x', y', h', rfl⟩
      · exact absurd rfl h0
      · exact ⟨x', y', h', Pt.x_ne_of_order hr, rfl⟩
    obtain ⟨d, rng', h1, h2, -⟩ := C93_roundtrip [1] 0 rng x y h hg hx hne
    refine ⟨x, y, d, rng', h1, h2, h, ?_⟩
    have hple := p_le_pow
    have hxl := ZMod.val_lt x
    have hyl := ZMod.val_lt y
    have ex : ((beNat (toBE 48 x.val) : Nat) : Fp) = x := by
      rw [beNat_toBE, Nat.mod_eq_of_lt (by omega), ZMod.natCast_zmod_val]
    have ey : ((beNat (toBE 48 y.val) : Nat) : Fp) = y := by
      rw [beNat_toBE, Nat.mod_eq_of_lt (by omega), ZMod.natCast_zmod_val]
    have h' : (beNat (toBE 48 y.val) : Fp) ^ 2 = (beNat (toBE 48 x.val) : Fp) ^ 3 + b1 := by rw [ex, ey]; exact h
    have em : Pt.mk _ _ h' = Pt.mk x y h := by rw [Pt.mk_inj]; exact ⟨ex, ey⟩
    obtain ⟨d', rng'', e1, -, h2, -⟩ := C93_encoding [1] 0 rng 4 _ _ hg (length_toBE _ _) (length_toBE _ _) h'
      (by rw [em]; exact hne)
    rw [em] at h2
    have e3 := h1.symm.trans e1
    simp only [Option.some.injEq, Except.ok.injEq, Prod.mk.injEq] at e3
    rw [e3.1]
    exact h2
  refine ⟨rng, ?_⟩
  have hg1 : r • gen1 = 0 := r_gen1
  by_cases h1 : 3 • (W + gen1) = 0
  · have h2 : 3 • gen1 ≠ 0 := by
      intro h3
      have hd := Nat.dvd_gcd (addOrderOf_dvd_of_nsmul_eq_zero h3) (addOrderOf_dvd_of_nsmul_eq_zero hg1)
      rw [show Nat.gcd 3 r = 1 by norm_num [r], Nat.dvd_one, AddMonoid.addOrderOf_eq_one_iff] at hd
      exact Pt.mk_ne _ hd
    refine key (2 • gen1) (by rw [smul_comm, hg1, smul_zero]) ?_ ?_
    · intro h3
      have hd := Nat.dvd_gcd (addOrderOf_dvd_of_nsmul_eq_zero h3) (addOrderOf_dvd_of_nsmul_eq_zero hg1)
      rw [show Nat.gcd 2 r = 1 by norm_num [r], Nat.dvd_one, AddMonoid.addOrderOf_eq_one_iff] at hd
      exact Pt.mk_ne _ hd
    · rwa [show W + 2 • gen1 = (W + gen1) + gen1 by rw [two_nsmul, add_assoc], smul_add, h1, zero_add]
  · exact key gen1 hg1 (Pt.mk_ne _) h1

end Props.B383
