import Verif.Proof.Secp.EcpRest
/-!
# `mulx` on the curve of secp256k1
-/

set_option exponentiation.threshold 2000

namespace Amcl.Secp

open Spec.Secp
open Spec (Pt)

theorem root_on {c : Fp} (hc : c ^ 3 = 1) {a b : Fp} (h : b ^ 2 = a ^ 3 + b1) : b ^ 2 = (c * a) ^ 3 + b1 := by
  rw [mul_pow, hc, one_mul]
  exact h

/-- The endomorphism `(x, y) ↦ (c x, y)`. -/
def rootMap {c : Fp} (hc : c ^ 3 = 1) : G1 → G1
  | .zero => 0
  | .some _ _ h => Pt.mk _ _ (root_on hc (Pt.nonsingular_iff.1 h))

theorem rootMap_zero {c : Fp} (hc : c ^ 3 = 1) : rootMap hc 0 = 0 := rfl

theorem rootMap_mk {c : Fp} (hc : c ^ 3 = 1) {a b : Fp} (h : b ^ 2 = a ^ 3 + b1) : rootMap hc (Pt.mk a b h) = Pt.mk _ _ (root_on hc h) := rfl

theorem rootMap_add {w : Fp} (hw : w ^ 3 = 1) (A B : G1) : rootMap hw (A + B) = rootMap hw A + rootMap hw B := by
  rcases Pt.cases A with rfl | ⟨a, b, h, rfl⟩
  · rw [zero_add, rootMap_zero, zero_add]
  rcases Pt.cases B with rfl | ⟨c, d, h', rfl⟩
  · rw [add_zero, rootMap_zero, add_zero]
  have hg : w ≠ 0 := fun h => by rw [h] at hw; norm_num at hw
  have hg3 := hw
  by_cases hc : a = c
  · subst hc
    have : (b - d) * (b + d) = 0 := by linear_combination h - h'
    rcases mul_eq_zero.1 this with e | e
    · have e := sub_eq_zero.1 e
      subst e
      have hb : b ≠ 0 := Pt.y_ne h
      have h2 : (2 : Fp) ≠ 0 := fp_two_ne
      obtain ⟨h3, e3⟩ := Pt.add_self h (l := 3 * a ^ 2 / (2 * b)) (by field_simp) rfl rfl
      obtain ⟨h4, e4⟩ := Pt.add_self (root_on hw h) (l := w ^ 2 * (3 * a ^ 2 / (2 * b)))
        (by field_simp) rfl rfl
      rw [e3, rootMap_mk, rootMap_mk, e4, Pt.mk_inj]
      constructor
      · linear_combination (-w * (3 * a ^ 2 / (2 * b)) ^ 2) * hg3
      · linear_combination (3 * a ^ 2 / (2 * b)) * ((3 * a ^ 2 / (2 * b)) ^ 2 * (1 + w ^ 3) - 3 * a) * hg3
    · have hd : d = -b := by linear_combination e
      subst hd
      rw [Pt.add_opp, rootMap_zero, rootMap_mk, rootMap_mk]
      have : Pt.mk _ _ (root_on hw h') = -Pt.mk _ _ (root_on hw h) := by
        rw [Pt.neg_mk]
      rw [this, add_neg_cancel]
  · have hd : a - c ≠ 0 := sub_ne_zero.2 hc
    have hc' : w * a ≠ w * c := fun e => hc (mul_left_cancel₀ hg e)
    obtain ⟨h3, e3⟩ := Pt.add_ne h h' hc (l := (b - d) / (a - c)) (by field_simp) rfl rfl
    obtain ⟨h4, e4⟩ := Pt.add_ne (root_on hw h) (root_on hw h') hc'
      (l := w ^ 2 * ((b - d) / (a - c))) (by field_simp; linear_combination (b - d) * hg3) rfl rfl
    rw [e3, rootMap_mk, rootMap_mk, rootMap_mk, e4, Pt.mk_inj]
    generalize (b - d) / (a - c) = l
    constructor
    · linear_combination (-w * l ^ 2) * hg3
    · linear_combination (l ^ 3 * (1 + w ^ 3) - l * (2 * a + c)) * hg3

/-- The endomorphism as a homomorphism. -/
def rootHom {c : Fp} (hc : c ^ 3 = 1) : G1 →+ G1 := ⟨⟨rootMap hc, rootMap_zero hc⟩, rootMap_add hc⟩

theorem ECP.mulx_wp {P : ECP} {E : Int} {g : G1} (hP : OkY P E g) (hE : 2 ≤ E ∧ E ≤ 2 ^ 10) {f : FP} {c : Fp} (hc : c ^ 3 = 1)
    (hf : FP.Ok f 1 E c) : Wp (mulx P f) fun r => OkY r E (rootMap hc g) := by
  unfold mulx
  refine Wp.bind (FP.mul_wp hP.x hf (by omega)) fun x hx => ?_
  refine Wp.ret (okY_of (hx.mono (by omega)) hP.y hP.z ?_)
  rcases hP.pt with ⟨a, b, e, rfl⟩ | ⟨hz, x, y, h, ex, ey, rfl⟩
  · exact Or.inl ⟨by rw [a, zero_mul], b, e, rootMap_zero hc⟩
  · refine Or.inr ⟨hz, _, _, root_on hc h, ?_, ey, rootMap_mk hc h⟩
    rw [ex]; ring

end Amcl.Secp
