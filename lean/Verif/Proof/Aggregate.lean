import Verif.Proof.Reach
/-!
# Aggregation steps
-/

set_option exponentiation.threshold 2000

namespace Amcl

open Spec

theorem AggregatePublicKey.new_wp : Wp AggregatePublicKey.new fun a => a.Rep 0 := by
  unfold AggregatePublicKey.new
  exact Wp.bind ECP.inf_wp fun P hP => Wp.ret (hP.mono (by norm_num))

theorem ECP.add_affine_wp {P Q : ECP} {g h : G1} (hP : P.Rep g) (hQ : Q.Rep h) :
    Wp (P.add Q >>= ECP.affine) fun r => r.Rep (g + h) := by
  refine Wp.bind (ECP.add_wp (hP.mono (by norm_num)) (hQ.mono (by norm_num))) fun S hS => ?_
  exact (ECP.affine_wp hS (by norm_num)).mono fun r hr => hr.1.mono (by norm_num)

theorem AggregatePublicKey.add_wp {a : AggregatePublicKey} {k : PublicKey} {g h : G1} (ha : a.Rep g)
    (hk : k.Rep h) : Wp (a.add k) fun r => r.Rep (g + h) := by
  unfold AggregatePublicKey.add
  have := ECP.add_affine_wp ha hk
  obtain ⟨r, e, hr⟩ := this
  rw [← bind_assoc, e]
  exact Wp.ret hr

theorem AggregatePublicKey.add_aggregate_wp {a k : AggregatePublicKey} {g h : G1} (ha : a.Rep g)
    (hk : k.Rep h) : Wp (a.add_aggregate k) fun r => r.Rep (g + h) := by
  unfold AggregatePublicKey.add_aggregate
  have := ECP.add_affine_wp ha hk
  obtain ⟨r, e, hr⟩ := this
  rw [← bind_assoc, e]
  exact Wp.ret hr

theorem AggregateSignature.new_wp : Wp AggregateSignature.new fun a => a.Rep 0 := by
  unfold AggregateSignature.new
  exact Wp.bind ECP2.inf_wp fun P hP => Wp.ret (hP.mono (by norm_num))

theorem ECP2.add_affine_wp {P Q : ECP2} {g h : G2} (hP : P.Rep g) (hQ : Q.Rep h) :
    Wp (P.add Q >>= ECP2.affine) fun r => r.Rep (g + h) := by
  refine Wp.bind (ECP2.add_wp (hP.mono (by norm_num)) (hQ.mono (by norm_num))) fun S hS => ?_
  exact (ECP2.affine_wp hS (by norm_num)).mono fun r hr => hr.1.mono (by norm_num)

theorem AggregateSignature.add_wp {a : AggregateSignature} {k : Signature} {g h : G2} (ha : a.Rep g)
    (hk : k.Rep h) : Wp (a.add k) fun r => r.Rep (g + h) := by
  unfold AggregateSignature.add
  have := ECP2.add_affine_wp ha hk
  obtain ⟨r, e, hr⟩ := this
  rw [← bind_assoc, e]
  exact Wp.ret hr

theorem AggregateSignature.add_aggregate_wp {a k : AggregateSignature} {g h : G2} (ha : a.Rep g)
    (hk : k.Rep h) : Wp (a.add_aggregate k) fun r => r.Rep (g + h) := by
  unfold AggregateSignature.add_aggregate
  have := ECP2.add_affine_wp ha hk
  obtain ⟨r, e, hr⟩ := this
  rw [← bind_assoc, e]
  exact Wp.ret hr

theorem Signature.sign_wp {P : ECP2} {g : G2} {sk : SecretKey} {n : Nat} (hP : P.Rep g) (hs : sk.Rep n) :
    Wp (Signature.sign P sk) fun s => s.Rep (n • g) ∧ (n • g ≠ 0 → s.point.z.toF = 1) := by
  unfold Signature.sign
  have hl := hs.lt
  have hv := hs.val
  refine Wp.bind (ECP2.mul_wp hP hs.nrm (by omega) (by omega)) fun Q hQ => ?_
  rw [hv, natCast_zsmul] at hQ
  refine Wp.bind (ECP2.affine_wp hQ.1 (by norm_num)) fun r hr => ?_
  exact Wp.ret ⟨hr.1, hr.2.2.1⟩

end Amcl
