import Verif.Proof.Secp.BigRest
import Verif.Proof.Secp.EcpCodec
import Verif.Proof.Secp.Ecdh
/-!
# Proofs about the printed forms of secp256k1
-/

set_option exponentiation.threshold 2000

namespace Amcl.Secp

open Spec.Secp
open Amcl (Wp)
open Spec (Pt toBE hexOf)

seal Spec.toBE

theorem FP.tostring_wp {f : FP} {L E : Int} {v : Fp} (hf : FP.Ok f L E v) (h : 1 ≤ L ∧ L ≤ 8 ∧ E ≤ 2 ^ 24) :
    f.tostring = some (hexOf (toBE 32 (FP.outNat f v))) := by
  obtain ⟨r, e, hn, hv⟩ := FP.redc_nat hf h
  have := FP.outNat_le f v
  have := p_le_pow
  rw [FP.tostring, e]
  exact BIG.tostring_256 hn hv (by omega)

theorem ECP.tostring_inf {P : ECP} {E : Int} (hP : ECP.OkY P E 0) (hE : E ≤ 2 ^ 24) :
    P.tostring = some "infinity".toList := by
  obtain ⟨t, e, h⟩ := is_infinity_wpY hP hE
  rw [ECP.tostring, e, h.2 rfl]
  rfl

theorem ECP.tostring_wp {P : ECP} {E : Int} {x y : Fp} {h : y ^ 2 = x ^ 3 + b1} (hP : OkY P E (Pt.mk x y h))
    (hE : E ≤ 2 ^ 24) : P.tostring =
      some ('(' :: hexOf (toBE 32 x.val) ++ ',' :: hexOf (toBE 32 y.val) ++ [')']) := by
  obtain ⟨t, e, ht⟩ := is_infinity_wpY hP hE
  obtain ⟨Q, eQ, hQ, hx, hy, hz, eo⟩ := affine_coordsY hP hE
  have ht : t = false := by
    cases t
    · rfl
    · exact absurd (ht.1 rfl) (Pt.mk_ne h)
  have e1 := FP.tostring_wp hx (by omega)
  have e2 := FP.tostring_wp hy (by omega)
  rw [eo, ECP.xOut_eq h] at e1
  rw [FP.outNat_of_ne (Pt.y_ne h)] at e2
  rw [FP.tostring] at e1 e2
  rw [ECP.tostring, e, ht]
  simp only [Option.bind_eq_bind, Option.bind_some, Bool.false_eq_true, if_false, eQ] at e1 e2 ⊢
  rw [← Option.bind_assoc, e1, Option.bind_some, ← Option.bind_assoc, e2]
  rfl

end Amcl.Secp
