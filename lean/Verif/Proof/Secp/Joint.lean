import Verif.Proof.Secp.EcpMul
import Verif.Proof.Joint
import Verif.Model.Secp.Joint
/-!
# `ECP::mul2` computes sums of two multiples
-/

set_option exponentiation.threshold 2000

namespace Amcl.Secp

open Spec.Secp
open Spec (Pt)

namespace Joint

open Amcl.Joint (Laws TableOk Dig F2 table_wp fold_wp)

variable {P G : Type} [AddCommGroup G]

variable {o : PointOps P} {Res Rep Rep' : P → G → Prop} {Any : P → Prop}

/-- One digit: odd, in `[-3, 3]`, and what is left is odd again. -/
theorem digit_wp {t : BIG} (nt : t.Nrm) (h0 : 0 < t.val) (ho : t.val % 2 = 1) (h1 : t.val < 2 ^ 280) :
    Wp (digit t) fun r => (r.1 = -3 ∨ r.1 = -1 ∨ r.1 = 1 ∨ r.1 = 3) ∧ r.2.Nrm ∧
      t.val = r.1 + 4 * r.2.val ∧ r.2.val = 2 * (t.val / 8) + 1 := by
  unfold digit
  refine Wp.bind (BIG.lastbits_wp (nt.lim56 (by omega) (by omega) |>.mono (by norm_num)) (n := 3) (by norm_num)) ?_
  rintro ⟨l, t1⟩ ⟨hl, nt1, vt1⟩
  simp only at hl nt1 vt1 ⊢
  have l0 : 0 ≤ l ∧ l < 8 ∧ l % 2 = 1 := by omega
  rw [i64_eq (by omega) (by omega), Option.bind_eq_bind, Option.bind_some]
  refine Wp.bind (BIG.dec_wp (x := l - 4) (nt1.lim56 (by omega) (by omega) |>.mono (by norm_num))
    ⟨by omega, by omega⟩) ?_
  rintro t2 ⟨vt2, lt2, nt2⟩
  have e0 := nt1.w0_eq
  have nt2 := nt2 nt1 (by omega) (by omega)
  refine Wp.bind (BIG.norm_wp (nt2.lim (B := 2 ^ 57) (by omega) (by omega) (by norm_num) |>.mono (by norm_num))) ?_
  rintro t3 ⟨nt3, vt3⟩
  refine Wp.bind (BIG.fshr_wp nt3 (by norm_num)) ?_
  rintro t4 ⟨nt4, vt4⟩
  refine Wp.ret ⟨?_, nt4, ?_, ?_⟩ <;> dsimp only <;> omega

theorem digits_wp (n : Nat) : ∀ te tf : BIG, te.Nrm → 0 < te.val → te.val % 2 = 1 → te.val < 2 ^ 280 →
    te.val < 2 * 4 ^ n → tf.Nrm → 0 < tf.val → tf.val % 2 = 1 → tf.val < 2 ^ 280 → tf.val < 2 * 4 ^ n →
    Wp (digits n te tf) fun r => r.2 = 5 ∧ ∃ ds : List (Int × Int), List.Forall₂ Dig r.1 ds ∧
      ds.foldr (fun d a => d.1 + 4 * a) 1 = te.val ∧ ds.foldr (fun d a => d.2 + 4 * a) 1 = tf.val := by
  induction n with
  | zero =>
    intro te tf nte e0 eo _ e1 ntf f0 fo _ f1
    rw [digits]
    refine Wp.bind (BIG.lastbits_wp (nte.lim56 (by omega) (by omega) |>.mono (by norm_num)) (n := 3) (by norm_num)) ?_
    rintro ⟨l, t1⟩ ⟨hl, nt1, vt1⟩
    refine Wp.bind (BIG.lastbits_wp (ntf.lim56 (by omega) (by omega) |>.mono (by norm_num)) (n := 3) (by norm_num)) ?_
    rintro ⟨m, t2⟩ ⟨hm, nt2, vt2⟩
    simp only at hl hm
    have e2 : te.val = 1 := by omega
    have f2 : tf.val = 1 := by omega
    have e3 : l = 1 := by omega
    have f3 : m = 1 := by omega
    subst e3
    subst f3
    exact Wp.ret ⟨rfl, [], List.Forall₂.nil, by simp [e2], by simp [f2]⟩
  | succ n ih =>
    intro te tf nte e0 eo eb e1 ntf f0 fo fb f1
    rw [digits]
    refine Wp.bind (digit_wp nte e0 eo eb) ?_
    rintro ⟨a, te'⟩ ⟨ha, nte', va, ve⟩
    refine Wp.bind (digit_wp ntf f0 fo fb) ?_
    rintro ⟨b, tf'⟩ ⟨hb, ntf', vb, vf⟩
    simp only at ha nte' va ve hb ntf' vb vf ⊢
    rw [i64_eq (by omega) (by omega), Option.bind_eq_bind, Option.bind_some,
      i64_eq (by omega) (by omega), Option.bind_eq_bind, Option.bind_some,
      as8_eq (by omega) (by omega)]
    rw [pow_succ] at e1 f1
    refine Wp.bind (ih te' tf' nte' (by omega) (by omega) (by omega) (by omega) ntf' (by omega) (by omega)
      (by omega) (by omega)) ?_
    rintro ⟨ws, top⟩ ⟨w1, ds, w2, w3, w4⟩
    dsimp only at w1 w2 w3 w4 ⊢
    refine Wp.ret ⟨w1, (a, b) :: ds, List.Forall₂.cons ⟨ha, hb, rfl⟩ w2, ?_, ?_⟩
    · rw [List.foldr_cons, w3]
      omega
    · rw [List.foldr_cons, w4]
      omega

/-- `mul2` computes `e•g + f•h`. -/
theorem mul2_wp (L : Laws o Res Rep Rep' Any) {Post : P → G → Prop}
    (ha : ∀ {a g}, Res a g → Wp (o.affine a) fun r => Post r g)
    {s Q : P} {g h : G} (hs : Rep s g) (hQ : Rep Q h) {e f : BIG} (he : e.Nrm)
    (h0 : 0 ≤ e.val) (h1 : e.val < 2 ^ 276) (hf : f.Nrm) (f0 : 0 ≤ f.val) (f1 : f.val < 2 ^ 276) :
    Wp (mul2 o s e Q f) fun r => Post r (e.val • g + f.val • h) := by
  unfold mul2
  refine Wp.bind (L.dbl (L.up hQ)) fun S hS => ?_
  refine Wp.bind (L.dbl (L.up hs)) fun T hT => ?_
  refine Wp.bind (table_wp L hs hQ hS hT) ?_
  rintro W ⟨hW, w2, ew2, hw2⟩
  refine Wp.bind (Window.oddExp_wp he h0 (by omega)) ?_
  rintro ⟨te, ns⟩ ⟨nt, ot, hns, vt⟩
  dsimp only at nt ot hns vt ⊢
  have hC : Rep (o.cmove T s ns) ((if ns = 0 then (2:Int) else 1) • g) := by
    rw [L.cmove (L.any (L.up hT)) (L.any (L.up hs)) hns]
    split
    · rw [two_zsmul]; exact hT
    · rw [one_zsmul]; exact hs
  generalize o.cmove T s ns = C at hC
  have hd : (if ns = 0 then (2:Int) else 1) = 1 ∨ (if ns = 0 then (2:Int) else 1) = 2 := by
    split <;> simp
  generalize (if ns = 0 then (2:Int) else 1) = δ at hd hC vt
  refine Wp.bind (Window.oddExp_wp hf f0 (by omega)) ?_
  rintro ⟨tf, ms⟩ ⟨mt, pt, hms, ut⟩
  dsimp only at mt pt hms ut ⊢
  have hD : Rep (o.cmove S Q ms) ((if ms = 0 then (2:Int) else 1) • h) := by
    rw [L.cmove (L.any (L.up hS)) (L.any (L.up hQ)) hms]
    split
    · rw [two_zsmul]; exact hS
    · rw [one_zsmul]; exact hQ
  generalize o.cmove S Q ms = D at hD
  have hd' : (if ms = 0 then (2:Int) else 1) = 1 ∨ (if ms = 0 then (2:Int) else 1) = 2 := by
    split <;> simp
  generalize (if ms = 0 then (2:Int) else 1) = ε at hd' hD ut
  refine Wp.bind (L.add (L.up hC) (L.up hD)) fun E hE => ?_
  refine Wp.bind (BIG.add_wp (nt.lim56 (by omega) (by omega)) (mt.lim56 (by omega) (by omega)) (by norm_num)) ?_
  rintro a ⟨la, va⟩
  refine Wp.bind (BIG.norm_wp (la.mono (by norm_num))) ?_
  rintro b ⟨nb, vb⟩
  refine Wp.bind (BIG.nbits_wp (nb.lim56 (by omega) (by omega) |>.mono (by norm_num)) (by omega)) ?_
  rintro _ rfl
  have hsz : Nat.size b.val.toNat ≤ 278 := by
    rw [Nat.size_le]
    omega
  rw [if_neg (by omega)]
  have hlt : b.val < 2 * 4 ^ (1 + (Nat.size b.val.toNat + 1) / 2) := by
    have h2 : b.val.toNat < 2 ^ Nat.size b.val.toNat := Nat.lt_size_self _
    have h3 : (2:Nat) ^ Nat.size b.val.toNat ≤ 2 ^ (2 * (1 + (Nat.size b.val.toNat + 1) / 2)) :=
      Nat.pow_le_pow_right (by norm_num) (by omega)
    rw [pow_mul] at h3
    have h4 : b.val.toNat < 4 ^ (1 + (Nat.size b.val.toNat + 1) / 2) := lt_of_lt_of_le h2 (by simpa using h3)
    have h5 : b.val < (4:Int) ^ (1 + (Nat.size b.val.toNat + 1) / 2) := by
      have : (b.val.toNat : Int) < ((4 ^ (1 + (Nat.size b.val.toNat + 1) / 2) : Nat) : Int) := by exact_mod_cast h4
      push_cast at this
      omega
    omega
  refine Wp.bind (digits_wp _ te tf nt (by omega) ot (by omega) (by omega) mt (by omega) pt (by omega)
    (by omega)) ?_
  rintro ⟨ws, top⟩ ⟨w1, ds, d1, d2, d3⟩
  dsimp only at w1 d1 ⊢
  subst w1
  rw [if_neg (by norm_num)]
  refine Wp.bind (R := fun x => x = w2) (Wp.of_eq (by simpa using ew2) rfl) ?_
  rintro _ rfl
  refine Wp.bind (fold_wp L hW (List.rel_reverse d1) _ C 1 1 (by simpa using hw2) (L.any (L.up hC))) ?_
  rintro ⟨P1, q⟩ hP1
  dsimp only at hP1 ⊢
  rw [List.foldl_reverse, List.foldl_reverse, d2, d3] at hP1
  refine Wp.bind (L.neg hE) fun N hN => ?_
  refine Wp.bind (L.add0 (L.up hP1) hN) fun P2 hP2 => ?_
  refine (ha hP2).mono fun r hr => ?_
  rw [vt, ut] at hr
  convert hr using 1
  module

end Joint

namespace ECP

theorem jointLaws : Amcl.Joint.Laws ops (fun P g => Ok P 32 g) (fun P g => Ok P (2 ^ 12) g)
    (fun P g => Ok P (2 ^ 13) g) (fun P => ∃ g, Ok P (2 ^ 13) g) where
  res h := h.mono (by norm_num)
  up h := h.mono (by norm_num)
  any h := ⟨_, h⟩
  add0 h h' := add_wp (h.mono (by norm_num)) (h'.mono (by norm_num))
  dbl0 h := dbl_wp (h.mono (by norm_num))
  neg h := (neg_wp h (by norm_num)).mono fun _ h => h.mono (by norm_num)
  cmove h h' hd := cmove_eq h.choose_spec h'.choose_spec (by norm_num) hd

/-- What `mul2` returns: a representation of `g`, affine unless `g = 0`. -/
def Post2 (P : ECP) (g : G1) : Prop := Ok P 32 g ∧ (g ≠ 0 → FP.Can P.z 1)

theorem mul2_wp {P Q : ECP} {g h : G1} (hP : Ok P (2 ^ 12) g) (hQ : Ok Q (2 ^ 12) h) {e f : BIG} (he : e.Nrm)
    (e0 : 0 ≤ e.val) (e1 : e.val < 2 ^ 276) (hf : f.Nrm) (f0 : 0 ≤ f.val) (f1 : f.val < 2 ^ 276) :
    Wp (mul2 P e Q f) fun r => Post2 r (e.val • g + f.val • h) :=
  Joint.mul2_wp jointLaws (fun h => (affine_wp h (by norm_num)).mono fun _ h => ⟨h.1, h.2.2.1⟩) hP hQ he e0 e1
    hf f0 f1

end ECP

end Amcl.Secp
