import Verif.Proof.B383.Degenerate
import Verif.Proof.B383.Points
/-!
# The pairing of BLS12-383 as the code computes it
-/

set_option exponentiation.threshold 6000

namespace Amcl.B383

open Spec Spec.B383

seal Spec.B383.finalExp

/-- A representation with last coordinate 1, unless the point is infinity. -/
def ECP.Aff (P : ECP) (g : G1) : Prop := P.Rep g ∧ (g ≠ 0 → P.z.toF = 1)

/-- The same on the twist. -/
def ECP2.Aff (P : ECP2) (g : G2) : Prop := P.Rep g ∧ (g ≠ 0 → P.z.toF = 1)

theorem ECP.Aff.coords {P : ECP} {x y : Fp} {h : y ^ 2 = x ^ 3 + b1} (hP : P.Aff (Pt.mk x y h)) :
    FP.Ok P.x 1 (2 ^ 18) x ∧ FP.Ok P.y 1 (2 ^ 18) y := by
  obtain ⟨⟨hx, hy, hz, hp⟩, h1⟩ := hP
  have h1 := h1 (Pt.mk_ne h)
  rcases hp with ⟨-, -, -, h0⟩ | ⟨-, x', y', h', ex, ey, e⟩
  · exact absurd h0 (Pt.mk_ne h)
  · rw [Pt.mk_inj] at e
    obtain ⟨rfl, rfl⟩ := e
    rw [h1, mul_one] at ex ey
    rw [ex] at hx
    rw [ey] at hy
    exact ⟨hx.mono (by norm_num), hy.mono (by norm_num)⟩

/-- The coordinates of a representation of infinity. -/
theorem ECP.Rep.inf_coords {P : ECP} (h : P.Rep 0) : P.x.toF = 0 ∧ P.y.toF ≠ 0 := by
  obtain ⟨-, -, -, ⟨h1, h2, -, -⟩ | ⟨-, _, _, h', -, -, e⟩⟩ := h
  · exact ⟨h1, h2⟩
  · exact absurd e.symm (Pt.mk_ne h')

/-- The abscissa is not 0, or the point is infinity. -/
def XNe (g : G1) : Prop := ∀ x y h, g = Pt.mk x y h → x ≠ 0

theorem XNe.of_order {g : G1} (h : r • g = 0) : XNe g := by
  rintro x y h' rfl
  exact Pt.x_ne_of_order h

/-- `ate` and `fexp` compute the pairing, unless both arguments are infinity, or the first is and the other
has abscissa 0. -/
theorem pairing_wp {P : ECP2} {Q : G2} {R : ECP} {g : G1} (hP : P.Aff Q) (hQ : r • Q = 0) (hR : R.Aff g)
    (hx : Q = 0 → g ≠ 0 ∧ XNe g) : Wp (pair.ate P R >>= pair.fexp) fun z => FP12.Can z (pairing Q g) := by
  rcases Pt.cases g with rfl | ⟨x, y, h, rfl⟩
  · obtain ⟨h1, h2⟩ := hR.1.inf_coords
    refine (pair.ate_pairing_wp hP.1 hP.2 (hR.1.x.mono (by norm_num)) (hR.1.y.mono (by norm_num))).mono fun z hz => ?_
    rw [h1, signedMiller_zero_abscissa h2 hQ fun h => (hx h).1 rfl] at hz
    exact hz
  · obtain ⟨h1, h2⟩ := hR.coords
    refine (pair.ate_pairing_wp hP.1 hP.2 h1 h2).mono fun z hz => ?_
    by_cases h0 : Q = 0
    · rw [h0, signedMiller_inf ((hx h0).2 _ _ _ rfl)] at hz
      rwa [h0, pairing_zero_left]
    · rwa [signedMiller_eq h hQ h0] at hz

theorem generator_aff : Wp ECP.generator fun P => P.Aff gen1 :=
  ECP.generator_wp.mono fun _ h => ⟨h.1.mono (by norm_num), fun _ => h.2⟩

theorem ECP2.affine_aff {P : ECP2} {g : G2} (h : P.Rep g) : Wp P.affine fun r => r.Aff g :=
  (ECP2.affine_wp h (by norm_num)).mono fun _ hr => ⟨hr.1, hr.2.2.1⟩

theorem ECP.affine_aff {P : ECP} {g : G1} (h : P.Rep g) : Wp P.affine fun r => r.Aff g :=
  (ECP.affine_wp h (by norm_num)).mono fun _ hr => ⟨hr.1, fun h0 => (hr.2.2.1 h0).res⟩

end Amcl.B383
