import Verif.Proof.B383.Ecp2More
import Verif.Proof.B383.Clear
import Verif.Props.B383Pairing
/-!
# Property C88: the maps from strings to the groups of BLS12-383, the ladder
-/

set_option exponentiation.threshold 6000

namespace Props.B383

open Amcl.B383 Spec.B383
open Amcl (Wp BIG beNat_lt48)
open Spec (Pt toBE beNat length_toBE beNat_toBE)

seal Spec.B383.finalExp Spec.toBE Spec.B383.octets Spec.B383.octetsC Spec.B383.octets2

/-- **C88**, mapping a string to a point: `mapit` ends for every string of at least 48 bytes, without panic or
overflow. The first 48 bytes determine the result, by trial and increment. -/
theorem C88_g1_mapit (h : List UInt8) (hl : 48 ≤ h.length) :
    ∃ P g, ECP.mapit h = some P ∧ MapsTo1 h1 (beNat (h.take 48) : Fp) g ∧ P.Aff g := by
  obtain ⟨P, e, g, hg, hP⟩ := ECP.mapit_wp hl
  exact ⟨P, g, e, hg, hP.1, fun h => (hP.2 h).res⟩

/-- **C88**, the specification determines the point. -/
theorem C88_g1_unique (x : Fp) (g g' : G1) (h : MapsTo1 h1 x g) (h' : MapsTo1 h1 x g') : g = g' :=
  Amcl.B383.MapsTo1.unique h h'

/-- **C88**, the point is in the group of order `r` and is not infinity. -/
theorem C88_g1_subgroup (h : List UInt8) (hl : 48 ≤ h.length) :
    ∃ P g, ECP.mapit h = some P ∧ P.Aff g ∧ r • g = 0 ∧ g ≠ 0 := by
  obtain ⟨P, g, e, ⟨k, y, hy, -, -, eg, h0⟩, hP⟩ := C88_g1_mapit h hl
  refine ⟨P, g, e, hP, ?_, h0⟩
  rw [eg]
  rw [smul_smul, mul_comm, ← card_G1.2]
  have := card_G1.1
  exact card_nsmul_eq_zero'

/-- **C88**, short strings panic. -/
theorem C88_g1_short (h : List UInt8) (hl : h.length < 48) : ECP.mapit h = none := by
  rw [ECP.mapit, BIG.frombytes, if_pos hl]
  rfl

/-- **C88**, clearing the cofactor takes every point of the curve to the group of order `r`. -/
theorem C88_g1_cfp (P : ECP) (g : G1) (hP : P.OkY (2 ^ 10) g) :
    ∃ R, P.cfp = some R ∧ R.Aff (h1 • g) ∧ r • h1 • g = 0 := by
  obtain ⟨R, e, hR⟩ := ECP.cfp_wp hP
  refine ⟨R, e, ⟨hR.1, fun h => (hR.2 h).res⟩, ?_⟩
  rw [smul_smul, mul_comm, ← card_G1.2]
  have := card_G1.1
  exact card_nsmul_eq_zero'

/-- **C88**, the ladder: `pinmul` multiplies every point, of any order, by the last `bts` bits of the (possibly
negative) multiplier. -/
theorem C88_g1_pinmul (P : ECP) (g : G1) (hP : P.OkY (2 ^ 10) g) (e bts : Int) (hb : bts ≤ 32) :
    ∃ R, P.pinmul e bts = some R ∧ R.OkY (2 ^ 10) ((e % 2 ^ bts.toNat) • g) := by
  obtain ⟨R, eq, hR, -⟩ := ECP.pinmul_wp hP e hb
  exact ⟨R, eq, hR⟩

/-- **C88**, the usual case: a multiplier that fits into `bts` bits. -/
theorem C88_g1_pinmul_small (P : ECP) (g : G1) (hP : P.OkY (2 ^ 10) g) (e n : Nat) (hn : n ≤ 32) (he : e < 2 ^ n) :
    ∃ R, P.pinmul e n = some R ∧ R.OkY (2 ^ 10) (e • g) := by
  obtain ⟨R, eq, hR⟩ := C88_g1_pinmul P g hP e n (by omega)
  refine ⟨R, eq, ?_⟩
  rwa [Int.toNat_natCast, Int.emod_eq_of_lt (by omega) (by exact_mod_cast he), natCast_zsmul] at hR

/-- **C88**, more than 32 bits: the shift overflows. -/
theorem C88_g1_pinmul_wide (P : ECP) (e bts : Int) (hb : 32 < bts) : P.pinmul e bts = none := by
  obtain ⟨n, hn⟩ : ∃ n : Nat, bts.toNat = n + 1 := ⟨bts.toNat - 1, by omega⟩
  obtain ⟨R0, e0, -⟩ := ECP.new_wp
  rw [ECP.pinmul, e0, hn]
  show (ECP.ladder e (n + 1) (R0, P)).bind _ = none
  rw [ECP.ladder, if_pos (by omega)]
  rfl

/-- The ladder with the low four bits of -3 multiplies the generator by 13. -/
example : ∃ P R, ECP.Rep P gen1 ∧ P.pinmul (-3) 4 = some R ∧ R.OkY (2 ^ 10) ((13 : Int) • gen1) ∧
    (13 : Int) • gen1 ≠ 0 := by
  obtain ⟨P, hP⟩ := ECP.exists_rep gen1
  obtain ⟨R, e, hR⟩ := C88_g1_pinmul P gen1 hP.okY (-3) 4 (by norm_num)
  refine ⟨P, R, hP, e, hR, fun h => ?_⟩
  have h13 : (13 : Nat) • gen1 = 0 := by exact_mod_cast h
  have := Nat.dvd_gcd (addOrderOf_dvd_iff_nsmul_eq_zero.2 h13) (addOrderOf_dvd_iff_nsmul_eq_zero.2 r_gen1)
  rw [show Nat.gcd 13 r = 1 by norm_num [r], Nat.dvd_one, AddMonoid.addOrderOf_eq_one_iff] at this
  exact gen1_ne this

/-- The image of the abscissa of the generator is plus or minus the generator times the cofactor. -/
example : MapsTo1 h1 (g1x : Fp) (h1 • gen1) ∨ MapsTo1 h1 (g1x : Fp) (-(h1 • gen1)) := by
  have key : ∀ y : Fp, ∀ h : y ^ 2 = (g1x : Fp) ^ 3 + b1, y.val % 2 = 0 → h1 • Pt.mk _ _ h ≠ 0 →
      MapsTo1 h1 (g1x : Fp) (h1 • Pt.mk _ _ h) := by
    intro y h hp hn
    refine ⟨0, y, by simpa using h, fun j hj => absurd hj (by omega), hp, ?_, hn⟩
    congr 1
  rcases Nat.mod_two_eq_zero_or_one ((g1y : Nat) : Fp).val with h | h
  · exact Or.inl (key _ g1_on h h1_gen1)
  · right
    have hn := Pt.y_ne g1_on
    have e : -gen1 = Pt.mk (g1x : Fp) (-(g1y : Fp)) (by rw [neg_sq]; exact g1_on) := by rw [gen1, Pt.neg_mk]
    rw [← smul_neg, e]
    refine key _ _ (by rw [val_neg_parity hn, h]) ?_
    rw [← e, smul_neg, neg_ne_zero]
    exact h1_gen1

/-- **C88**, AMCL's map from strings to the twist: `mapit` ends for every string of at least 48 bytes, without panic
or overflow. The first 48 bytes determine the result. -/
theorem C88_g2_mapit (h : List UInt8) (hl : 48 ≤ h.length) :
    ∃ P g, ECP2.mapit h = some P ∧ MapsTo2 0x10008000001001200 (beNat (h.take 48) : Fp) g ∧ P.Rep g ∧
      (g ≠ 0 → P.z.toF = 1) := by
  obtain ⟨P, e, g, hg, hP, hz⟩ := ECP2.mapit_wp hl
  exact ⟨P, g, e, hg, hP.mono (by norm_num), hz⟩

/-- **C88**, short strings panic. -/
theorem C88_g2_short (h : List UInt8) (hl : h.length < 48) : ECP2.mapit h = none := by
  rw [ECP2.mapit, BIG.frombytes, if_pos hl]
  rfl

/-- **C88**, the specification determines the point. -/
theorem C88_g2_unique (u : Int) (x : Fp) (g g' : G2) (h : MapsTo2 u x g) (h' : MapsTo2 u x g') : g = g' := by
  obtain ⟨k, y, e, g₁, g₂, g₃, hn, h0, hs, f1, f2, f3, rfl⟩ := h
  obtain ⟨k', y', e', g₁', g₂', g₃', hn', h0', hs', f1', f2', f3', rfl⟩ := h'
  have hk : k = k' := by
    rcases lt_trichotomy k k' with hlt | he | hlt
    · exact absurd ⟨y, e, h0⟩ (hn' k hlt)
    · exact he
    · exact absurd ⟨y', e', h0'⟩ (hn k' hlt)
  subst hk
  have : y = y' := by
    rcases sq_eq_sq_iff_eq_or_eq_neg.1 (e.trans e'.symm) with h | h
    · exact h
    · exfalso
      obtain ⟨s, hs⟩ := hs
      obtain ⟨t, ht⟩ := hs'
      have ht0 : t ≠ 0 := by
        rintro rfl
        exact h0' (by rw [ht, mul_zero])
      refine FP2.neg_sq_nonsquare ht0 ⟨s, ?_⟩
      rw [← hs, ← ht, h, QuadraticAlgebra.re_neg]
  subst this
  rw [Amcl.B383.TwistFrob.eq f1, Amcl.B383.TwistFrob.eq f1', Amcl.B383.TwistFrob.eq f3, Amcl.B383.TwistFrob.eq f3', Amcl.B383.TwistFrob.eq f2,
    Amcl.B383.TwistFrob.eq f2']

/-- **C88**, what the map multiplies by: `(u²-u-1) + (u-1)ψ + 2ψ²` is multiplication by the cofactor
times `3(u²-1)`, the standard effective cofactor, at every point of the twist. -/
theorem C88_g2_cofactor (Q g₁ g₂ g₃ : G2) (h₁ : TwistFrob ((0x10008000001001200 - 1 : Int) • Q) g₁)
    (h₂ : TwistFrob ((2 : Int) • Q) g₂) (h₃ : TwistFrob g₂ g₃) :
    ((0x10008000001001200 : Int) ^ 2 - 0x10008000001001200 - 1) • Q + g₁ + g₃ =
      (h2 * (3 * (0x10008000001001200 ^ 2 - 1))) • Q := by
  have := Clear.eff Q
  rw [Amcl.B383.TwistFrob.eq h₁, Amcl.B383.TwistFrob.eq h₃, Amcl.B383.TwistFrob.eq h₂]
  exact this

/-- **C88**, the map lands in the subgroup of order `r`: AMCL's shortcut clears the cofactor. -/
theorem C88_g2_subgroup (x : Fp) (g : G2) (h : MapsTo2 0x10008000001001200 x g) : r • g = 0 := by
  obtain ⟨k, y, e, g₁, g₂, g₃, hn, h0, hs, f1, f2, f3, eg⟩ := h
  rw [eg, C88_g2_cofactor _ _ _ _ f1 f2 f3]
  exact Clear.torsion _

/-- **C88**, the whole: every string of at least 48 bytes is mapped to a point of the subgroup of order `r`. -/
theorem C88_g2_mapit_subgroup (h : List UInt8) (hl : 48 ≤ h.length) :
    ∃ P g, ECP2.mapit h = some P ∧ P.Rep g ∧ r • g = 0 := by
  obtain ⟨P, g, e, hg, hP, -⟩ := C88_g2_mapit h hl
  exact ⟨P, g, e, hP, C88_g2_subgroup _ _ hg⟩

/-- **C88**, the characteristic equation `ψ² - (u+1)ψ + p = 0` of the Frobenius endomorphism, at every point of the twist. -/
theorem C88_frobenius_char (Q g₁ g₂ : G2) (h₁ : TwistFrob Q g₁) (h₂ : TwistFrob g₁ g₂) :
    g₂ + p • Q = (0x10008000001001200 + 1) • g₁ := by
  rw [Amcl.B383.TwistFrob.eq h₂, Amcl.B383.TwistFrob.eq h₁]
  exact Clear.char_eq Q

/-- The point over the abscissa `1` is not itself in the subgroup, so there is something to clear. -/
example : r • (Pt.mk _ _ one_on : G2) ≠ 0 := one_order

/-- The string of the number 0 maps to a combination of a point over the abscissa `1`, with no search. -/
example : ∃ P g y h, ECP2.mapit (toBE 48 0) = some P ∧ P.Rep g ∧
    g = ((0x10008000001001200 : Int) ^ 2 - 0x10008000001001200 - 1) • Pt.mk (⟨1, 0⟩ : Fp2) y h +
      psi ((0x10008000001001200 - 1 : Int) • Pt.mk _ _ h) + psi (psi ((2 : Int) • Pt.mk _ _ h)) := by
  obtain ⟨P, g, e, ⟨k, y, h, g₁, g₂, g₃, hn, h0, hs, f1, f2, f3, eg⟩, hP, -⟩ :=
    C88_g2_mapit (toBE 48 0) (by rw [length_toBE])
  have e1 : ((beNat ((toBE 48 0).take 48) : Nat) : Fp) = 0 := by
    rw [List.take_of_length_le (by rw [length_toBE]), beNat_toBE, Nat.mod_eq_of_lt (by norm_num), Nat.cast_zero]
  have hk : k = 0 := by
    by_contra hk
    refine hn 0 (by omega) ?_
    rw [e1, Nat.cast_zero, add_zero]
    have ho := one_on
    rw [Nat.cast_one, Nat.cast_zero] at ho
    refine ⟨_, ho, fun h => ?_⟩
    have h : ((one_ya : Nat) : Fp) = ((0 : Nat) : Fp) := by rw [Nat.cast_zero]; exact h
    rw [ZMod.natCast_eq_natCast_iff, Nat.ModEq] at h
    norm_num [one_ya, p] at h
  subst hk
  have ex : (⟨1, ((beNat ((toBE 48 0).take 48) : Nat) : Fp) + (0 : Nat)⟩ : Fp2) = ⟨1, 0⟩ := by
    rw [e1, Nat.cast_zero, add_zero]
  have em : ∀ h', (Pt.mk _ _ h : G2) = Pt.mk (⟨1, 0⟩ : Fp2) y h' := by
    intro _
    rw [Pt.mk_inj]
    exact ⟨ex, rfl⟩
  have h' := h
  rw [ex] at h'
  refine ⟨P, g, y, h', e, hP, ?_⟩
  rw [eg, Amcl.B383.TwistFrob.eq f1, Amcl.B383.TwistFrob.eq f3, Amcl.B383.TwistFrob.eq f2, em h']

end Props.B383
