import Verif.Proof.Secp.Mulx
import Verif.Proof.Secp.EcpRest
import Verif.Props.SecpCurve
/-!
# Property C96: mapping strings to the curve of secp256k1, the ladder, the endomorphism
-/

set_option exponentiation.threshold 2000

namespace Props.Secp

open Amcl.Secp Spec.Secp
open Amcl (Wp)
open Spec (Pt toBE beNat length_toBE beNat_toBE)

/-- **C96**, mapping a string to a point: `mapit` ends for every string of at least 32 bytes, without panic or overflow. The first
32 bytes determine the result, by trial and increment. -/
theorem C96_mapit (h : List UInt8) (hl : 32 ≤ h.length) :
    ∃ P g, ECP.mapit h = some P ∧ MapsTo (beNat (h.take 32) : Fp) g ∧ P.OkY 2 g ∧ P.z.toF = 1 := by
  obtain ⟨P, e, g, hg, hP, hz⟩ := ECP.mapit_wp hl
  exact ⟨P, g, e, hg, hP, hz⟩

/-- **C96**, the specification determines the point. -/
theorem C96_unique (x : Fp) (g g' : G1) (h : MapsTo x g) (h' : MapsTo x g') : g = g' := MapsTo.unique h h'

/-- **C96**, the point generates the group. -/
theorem C96_order (h : List UInt8) (hl : 32 ≤ h.length) :
    ∃ P g, ECP.mapit h = some P ∧ P.OkY 2 g ∧ addOrderOf g = n := by
  obtain ⟨P, g, e, ⟨k, y, hy, -, -, rfl⟩, hP, -⟩ := C96_mapit h hl
  exact ⟨P, _, e, hP, order_eq (Pt.mk_ne hy)⟩

/-- **C96**, short strings panic. -/
theorem C96_short (h : List UInt8) (hl : h.length < 32) : ECP.mapit h = none := by
  rw [ECP.mapit, BIG.frombytes, if_pos hl]
  rfl

/-- **C96**, the ladder: `pinmul` multiplies every point by the last `bts` bits of the (possibly negative) multiplier. -/
theorem C96_pinmul (P : ECP) (g : G1) (hP : P.OkY (2 ^ 10) g) (e bts : Int) (hb : bts ≤ 32) :
    ∃ R, P.pinmul e bts = some R ∧ R.OkY (2 ^ 10) ((e % 2 ^ bts.toNat) • g) ∧
      ((e % 2 ^ bts.toNat) • g ≠ 0 → R.z.toF = 1) := by
  obtain ⟨R, eq, hR, hz⟩ := ECP.pinmul_wp hP e hb
  exact ⟨R, eq, hR, fun h => (hz h).res⟩

/-- **C96**, more than 32 bits: the shift overflows. -/
theorem C96_pinmul_wide (P : ECP) (e bts : Int) (hb : 32 < bts) : P.pinmul e bts = none := by
  obtain ⟨n, hn⟩ : ∃ n : Nat, bts.toNat = n + 1 := ⟨bts.toNat - 1, by omega⟩
  obtain ⟨R0, e0, -⟩ := ECP.new_wp
  rw [ECP.pinmul, e0, hn]
  show (ECP.ladder e (n + 1) (R0, P)).bind _ = none
  rw [ECP.ladder, if_pos (by omega)]
  rfl

/-- **C96**, `mulx` with a cube root of unity `c` takes `(x, y)` to `(c x, y)`, and infinity to itself. -/
theorem C96_mulx (P : ECP) (g : G1) (hP : P.OkY (2 ^ 10) g) (f : FP) (c : Fp) (hc : c ^ 3 = 1) (hf : FP.Ok f 1 (2 ^ 10) c) :
    ∃ R g', P.mulx f = some R ∧ R.OkY (2 ^ 10) g' ∧ (g = 0 → g' = 0) ∧
      ∀ x y h, g = Pt.mk x y h → ∃ h', g' = Pt.mk (c * x) y h' := by
  obtain ⟨R, e, hR⟩ := ECP.mulx_wp hP (by norm_num) hc hf
  refine ⟨R, _, e, hR, ?_, ?_⟩
  · rintro rfl
    rfl
  · rintro x y h rfl
    exact ⟨_, rootMap_mk hc h⟩

theorem exists_nsmul (g h : G1) (hg : g ≠ 0) : ∃ k < n, h = k • g := (C69_group.2.2 g h hg).2

/-- **C96**, `mulx` with a cube root of unity multiplies all points by the same number `k`, which is a primitive cube root of unity
modulo `n` if `c` is one modulo `p`. -/
theorem C96_mulx_scalar (c : Fp) (hc : c ^ 3 = 1) : ∃ k < n, (c ≠ 1 → (k ^ 2 + k + 1) % n = 0) ∧
    ∀ (P : ECP) (g : G1) (f : FP), P.OkY (2 ^ 10) g → FP.Ok f 1 (2 ^ 10) c →
      ∃ R, P.mulx f = some R ∧ R.OkY (2 ^ 10) (k • g) := by
  obtain ⟨k, hk, e⟩ := exists_nsmul gen (rootHom hc gen) gen_ne
  have all : ∀ g, rootHom hc g = k • g := by
    intro g
    obtain ⟨j, -, rfl⟩ := exists_nsmul gen g gen_ne
    rw [map_nsmul, e, smul_smul, smul_smul, mul_comm]
  refine ⟨k, hk, fun h1 => ?_, fun P g f hP hf => ?_⟩
  · have hq : c ^ 2 + c + 1 = 0 := by
      have : (c - 1) * (c ^ 2 + c + 1) = 0 := by linear_combination hc
      exact (mul_eq_zero.1 this).resolve_left (sub_ne_zero.2 h1)
    have hx : (gx : Fp) ≠ 0 := x_ne g_on
    have h2 := root_on hc g_on
    have hne : (gx : Fp) ≠ c * gx := by
      intro h
      have : (c - 1) * (gx : Fp) = 0 := by linear_combination -h
      rcases mul_eq_zero.1 this with h | h
      · exact h1 (sub_eq_zero.1 h)
      · exact hx h
    obtain ⟨h3, e3⟩ := Pt.add_ne g_on h2 hne (l := 0) (by ring) rfl rfl
    have hs : gen + rootHom hc gen + rootHom hc (rootHom hc gen) = 0 := by
      show Pt.mk _ _ g_on + rootMap hc (Pt.mk _ _ g_on) + rootMap hc (rootMap hc (Pt.mk _ _ g_on)) = 0
      rw [rootMap_mk, rootMap_mk, e3]
      have : Pt.mk _ _ h3 = -Pt.mk _ _ (root_on hc h2) := by
        rw [Pt.neg_mk, Pt.mk_inj]
        constructor
        · linear_combination (-(gx : Fp)) * hq
        · ring
      rw [this, neg_add_cancel]
    rw [e, map_nsmul, e, smul_smul] at hs
    have : (k ^ 2 + k + 1) • gen = 0 := by
      rw [add_nsmul, add_nsmul, one_nsmul, pow_two]
      rw [← hs]
      abel
    exact (smul_eq_zero gen_ne).1 this
  · obtain ⟨R, e', hR⟩ := ECP.mulx_wp hP (by norm_num) hc hf
    exact ⟨R, e', (all g) ▸ hR⟩

/-- **C96**, the cofactor is 1: `cfp` returns the point unchanged. -/
theorem C96_cfp (P : ECP) : P.cfp = some P ∧ rom.CURVE_COF.val = 1 := ⟨rfl, by norm_num [rom.CURVE_COF, BIG.val]⟩

/-- The ladder with the low four bits of -3 multiplies the generator by 13. -/
example : ∃ G R, ECP.generator = some G ∧ G.pinmul (-3) 4 = some R ∧ R.OkY (2 ^ 10) ((13 : Int) • gen) ∧ (13 : Int) • gen ≠ 0 := by
  obtain ⟨G, e, hG⟩ := C69_group.2.1
  obtain ⟨R, e', hR, -⟩ := C96_pinmul G gen (hG.mono (by norm_num)) (-3) 4 (by norm_num)
  refine ⟨G, R, e, e', hR, fun h => ?_⟩
  have h13 : (13 : Nat) • gen = 0 := by exact_mod_cast h
  have := (smul_eq_zero gen_ne).1 h13
  revert this
  norm_num [n]

/-- The abscissa of the generator is mapped to the generator, whose ordinate is even. -/
example : MapsTo (gx : Fp) gen := by
  refine ⟨0, gy, by simpa using g_on, fun j hj => absurd hj (by omega), ?_, ?_⟩
  · rw [ZMod.val_natCast_of_lt (by norm_num [gy, p])]
    norm_num [gy]
  · rw [gen, Pt.mk_inj]
    simp

/-- There is a cube root of unity other than 1. -/
example : ((0x7ae96a2b657c07106e64479eac3434e99cf0497512f58995c1396c28719501ee : Nat) : Fp) ^ 3 = 1 ∧
    ((0x7ae96a2b657c07106e64479eac3434e99cf0497512f58995c1396c28719501ee : Nat) : Fp) ≠ 1 := by
  constructor
  · have h : ((0x7ae96a2b657c07106e64479eac3434e99cf0497512f58995c1396c28719501ee ^ 3 : Nat) : Fp) = ((1 : Nat) : Fp) := by
      rw [ZMod.natCast_eq_natCast_iff, Nat.ModEq]
      norm_num [p]
    push_cast at h ⊢
    exact h
  · intro h
    have h' : ((0x7ae96a2b657c07106e64479eac3434e99cf0497512f58995c1396c28719501ee : Nat) : Fp) = ((1 : Nat) : Fp) := by
      push_cast at h ⊢; exact h
    rw [ZMod.natCast_eq_natCast_iff, Nat.ModEq] at h'
    revert h'
    norm_num [p]

end Props.Secp
