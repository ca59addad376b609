import Verif.Proof.Mapit1
import Verif.Props.Pairing
/-!
# Property C49: mapping strings to the first curve, the ladder
-/

set_option exponentiation.threshold 2000

namespace Props

open Amcl Spec

/-- **C49**, mapping a string to a point: `mapit` ends for every string of at least 48 bytes, without panic or
overflow. The first 48 bytes determine the result, by trial and increment. -/
theorem C49_mapit (h : List UInt8) (hl : 48 ≤ h.length) :
    ∃ P g, ECP.mapit h = some P ∧ MapsTo1 h1 (beNat (h.take 48) : Fp) g ∧ P.Aff g := by
  obtain ⟨P, e, g, hg, hP⟩ := ECP.mapit_wp hl
  exact ⟨P, g, e, hg, hP.1, fun h => (hP.2 h).res⟩

/-- **C49**, the specification determines the point. -/
theorem C49_unique (x : Fp) (g g' : G1) (h : MapsTo1 h1 x g) (h' : MapsTo1 h1 x g') : g = g' :=
  Amcl.MapsTo1.unique h h'

/-- **C49**, the point is in the group of order `r` and is not infinity. -/
theorem C49_subgroup (h : List UInt8) (hl : 48 ≤ h.length) :
    ∃ P g, ECP.mapit h = some P ∧ P.Aff g ∧ r • g = 0 ∧ g ≠ 0 := by
  obtain ⟨P, g, e, ⟨k, y, hy, -, -, eg, h0⟩, hP⟩ := C49_mapit h hl
  refine ⟨P, g, e, hP, ?_, h0⟩
  rw [eg]
  rw [smul_smul, mul_comm, ← card_G1.2]
  have := card_G1.1
  exact card_nsmul_eq_zero'

/-- **C49**, short strings panic. -/
theorem C49_short (h : List UInt8) (hl : h.length < 48) : ECP.mapit h = none := by
  rw [ECP.mapit, BIG.frombytes, if_pos hl]
  rfl

/-- **C49**, clearing the cofactor takes every point of the curve to the group of order `r`. -/
theorem C49_cfp (P : ECP) (g : G1) (hP : P.OkY (2 ^ 10) g) :
    ∃ R, P.cfp = some R ∧ R.Aff (h1 • g) ∧ r • h1 • g = 0 := by
  obtain ⟨R, e, hR⟩ := ECP.cfp_wp hP
  refine ⟨R, e, ⟨hR.1, fun h => (hR.2 h).res⟩, ?_⟩
  rw [smul_smul, mul_comm, ← card_G1.2]
  have := card_G1.1
  exact card_nsmul_eq_zero'

/-- **C49**, the ladder: `pinmul` multiplies every point, of any order, by the last `bts` bits of the (possibly
negative) multiplier. -/
theorem C49_pinmul (P : ECP) (g : G1) (hP : P.OkY (2 ^ 10) g) (e bts : Int) (hb : bts ≤ 32) :
    ∃ R, P.pinmul e bts = some R ∧ R.OkY (2 ^ 10) ((e % 2 ^ bts.toNat) • g) := by
  obtain ⟨R, eq, hR, -⟩ := ECP.pinmul_wp hP e hb
  exact ⟨R, eq, hR⟩

/-- **C49**, the usual case: a multiplier that fits into `bts` bits. -/
theorem C49_pinmul_small (P : ECP) (g : G1) (hP : P.OkY (2 ^ 10) g) (e n : Nat) (hn : n ≤ 32) (he : e < 2 ^ n) :
    ∃ R, P.pinmul e n = some R ∧ R.OkY (2 ^ 10) (e • g) := by
  obtain ⟨R, eq, hR⟩ := C49_pinmul P g hP e n (by omega)
  refine ⟨R, eq, ?_⟩
  rwa [Int.toNat_natCast, Int.emod_eq_of_lt (by omega) (by exact_mod_cast he), natCast_zsmul] at hR

/-- **C49**, more than 32 bits: the shift overflows. -/
theorem C49_pinmul_wide (P : ECP) (e bts : Int) (hb : 32 < bts) : P.pinmul e bts = none := by
  obtain ⟨n, hn⟩ : ∃ n : Nat, bts.toNat = n + 1 := ⟨bts.toNat - 1, by omega⟩
  obtain ⟨R0, e0, -⟩ := ECP.new_wp
  rw [ECP.pinmul, e0, hn]
  show (ECP.ladder e (n + 1) (R0, P)).bind _ = none
  rw [ECP.ladder, if_pos (by omega)]
  rfl

/-- The ladder with the low four bits of -3 multiplies the generator by 13. -/
example : ∃ P R, ECP.Rep P gen1 ∧ P.pinmul (-3) 4 = some R ∧ R.OkY (2 ^ 10) ((13 : Int) • gen1) ∧
    (13 : Int) • gen1 ≠ 0 := by
  obtain ⟨P, hP⟩ := ECP.exists_rep gen1
  obtain ⟨R, e, hR⟩ := C49_pinmul P gen1 hP.okY (-3) 4 (by norm_num)
  refine ⟨P, R, hP, e, hR, fun h => ?_⟩
  have h13 : (13 : Nat) • gen1 = 0 := by exact_mod_cast h
  have := Nat.dvd_gcd (addOrderOf_dvd_iff_nsmul_eq_zero.2 h13) (addOrderOf_dvd_iff_nsmul_eq_zero.2 r_gen1)
  rw [show Nat.gcd 13 r = 1 by norm_num [r], Nat.dvd_one, AddMonoid.addOrderOf_eq_one_iff] at this
  exact gen1_ne this

/-- The image of the abscissa of the generator is plus or minus the generator times the cofactor. -/
example : MapsTo1 h1 (g1x : Fp) (h1 • gen1) ∨ MapsTo1 h1 (g1x : Fp) (-(h1 • gen1)) := by
  have key : ∀ y : Fp, ∀ h : y ^ 2 = (g1x : Fp) ^ 3 + b1, y.val % 2 = 0 → h1 • Pt.mk _ _ h ≠ 0 →
      MapsTo1 h1 (g1x : Fp) (h1 • Pt.mk _ _ h) := by
    intro y h hp hn
    refine ⟨0, y, by simpa using h, fun j hj => absurd hj (by omega), hp, ?_, hn⟩
    congr 1
  rcases Nat.mod_two_eq_zero_or_one ((g1y : Nat) : Fp).val with h | h
  · exact Or.inl (key _ g1_on h h1_gen1)
  · right
    have hn := Pt.y_ne g1_on
    have e : -gen1 = Pt.mk (g1x : Fp) (-(g1y : Fp)) (by rw [neg_sq]; exact g1_on) := by rw [gen1, Pt.neg_mk]
    rw [← smul_neg, e]
    refine key _ _ (by rw [val_neg_parity hn, h]) ?_
    rw [← e, smul_neg, neg_ne_zero]
    exact h1_gen1

end Props
