import Verif.Model.Show
import Verif.Spec.Hex
import Verif.Proof.Reach
/-!
# Proofs about the printed forms
-/

set_option exponentiation.threshold 2000

namespace Amcl

open Spec

namespace BIG

/-- The limbs moved down by `m`. -/
def wordShr (a : BIG) (m : Nat) : BIG :=
  ⟨a.limb m, a.limb (m + 1), a.limb (m + 2), a.limb (m + 3), a.limb (m + 4), a.limb (m + 5), a.limb (m + 6)⟩

theorem wordShr_spec {a : BIG} (h : Nrm a) (h0 : 0 ≤ a.val) (h1 : a.val < 2 ^ 406) {m : Nat} (hm : m ≤ 6) :
    Nrm (wordShr a m) ∧ (wordShr a m).val = a.val / 2 ^ (58 * m) := by
  have h6 := h.top (B := 2 ^ 58) h0 (by omega)
  obtain ⟨g0, g1, g2, g3, g4, g5⟩ := h
  interval_cases m <;> (refine ⟨?_, ?_⟩ <;> [constructor; skip]) <;>
    simp only [wordShr, limb, val] <;> omega

theorem or64_zero {x : Int} (h1 : -2 ^ 63 ≤ x) (h2 : x < 2 ^ 63) : or64 x 0 = x := by
  rw [or64]
  have e : BitVec.ofInt 64 0 = 0#64 := rfl
  rw [e, BitVec.or_zero, BitVec.toInt_ofInt]
  exact Int.bmod_eq_of_le (by omega) (by omega)

theorem fshrW_zero {n : Nat} {x : Int} (h1 : 0 ≤ x) (h2 : x < 2 ^ 63) : fshrW n x 0 = sar x n := by
  have e : and64 (shl64 0 (58 - n)) BMASK = 0 := by simp [shl64, and64]
  rw [fshrW, e]
  have hs : 0 ≤ sar x n ∧ sar x n ≤ x := by
    rw [sar]
    exact ⟨Int.ediv_nonneg h1 (by positivity), Int.ediv_le_self _ h1⟩
  exact or64_zero (by omega) (by omega)

theorem shrAny_eq {a : BIG} (h : Nrm a) (h0 : 0 ≤ a.val) (h1 : a.val < 2 ^ 406) {k : Nat} (hk : k < 406) :
    shrAny a k = fshr (wordShr a (k / 58)) (k % 58) := by
  have h6 := h.top (B := 2 ^ 58) h0 (by omega)
  have hm : k / 58 ≤ 6 := by omega
  have e6 : ∀ n, fshrW n a.w6 0 = sar a.w6 n := fun n => fshrW_zero (by omega) (by omega)
  have e0 : ∀ n, fshrW n 0 0 = 0 := fun n => by rw [fshrW_zero (by omega) (by omega)]; simp [sar]
  have s0 : ∀ n, sar 0 n = 0 := fun n => by simp [sar]
  unfold shrAny
  rw [if_neg (by omega)]
  have hn : k % 58 ≤ 58 := by omega
  generalize k % 58 = n at hn
  generalize k / 58 = m at hm
  interval_cases m <;> simp [shrAnyW, fshr, wordShr, limb, e6, e0, s0, hn]

theorem shrAny_wp {a : BIG} (h : Nrm a) (h0 : 0 ≤ a.val) (h1 : a.val < 2 ^ 406) {k : Nat} (hk : k < 406) :
    Wp (shrAny a k) fun r => Nrm r ∧ r.val = a.val / 2 ^ k := by
  obtain ⟨hn, hv⟩ := wordShr_spec h h0 h1 (m := k / 58) (by omega)
  rw [shrAny_eq h h0 h1 hk]
  refine (fshr_wp hn (k := k % 58) (by omega)).mono ?_
  rintro r ⟨h2, h3⟩
  refine ⟨h2, ?_⟩
  rw [h3, hv, Int.ediv_ediv_of_nonneg (by positivity), ← pow_add, show 58 * (k / 58) + k % 58 = k by omega]

theorem upperHex_eq : ∀ d : Fin 16, upperHex (d.val : Int) = hexDigit d := by decide

theorem tostringLoop_wp {a : BIG} (h : Nrm a) {v : Nat} (hv : a.val = v) (h1 : v < 2 ^ 406) (n : Nat)
    (hn : 4 * n ≤ 406 + 2) : ∀ s, tostringLoop a n s = some (s ++ toHex n v) := by
  induction n with
  | zero => intro s; simp [tostringLoop, toHex]
  | succ n ih =>
    intro s
    obtain ⟨b, e, hb, vb⟩ := shrAny_wp h (by omega) (by omega) (k := n * 4) (by omega)
    have hd : and64 b.w0 15 = ((v / 16 ^ n % 16 : Nat) : Int) := by
      have e := and64_mask (show 4 < 64 by norm_num) b.w0
      have e2 : (2:Int) ^ (n * 4) = ((16 ^ n : Nat) : Int) := by
        rw [mul_comm, pow_mul]; push_cast; norm_num
      rw [hv, e2, ← Int.natCast_ediv] at vb
      have := hb.w0_eq
      norm_num at e
      rw [e]
      omega
    have hu := upperHex_eq ⟨v / 16 ^ n % 16, Nat.mod_lt _ (by norm_num)⟩
    rw [tostringLoop, e]
    simp only [Option.bind_eq_bind, Option.bind_some]
    rw [ih (by omega), hd, hu, toHex_succ, List.append_assoc]
    rfl

theorem tostring_eq {a : BIG} (h : Nrm a) {v : Nat} (hv : a.val = v) (h1 : v < 2 ^ 406) :
    a.tostring = some (toHex (max 96 ((Nat.size v + 3) / 4)) v) := by
  obtain ⟨n, e, hn⟩ := nbits_wp (h.lim58 (by omega) (by omega) |>.mono (by norm_num)) (by omega)
  have hs : Nat.size v ≤ 406 := Nat.size_le.2 h1
  rw [tostring, e]
  simp only [Option.bind_eq_bind, Option.bind_some]
  rw [hv, Int.toNat_natCast] at hn
  have hl : (if (if n % 4 = 0 then n / 4 else n / 4 + 1) < 96 then 96
      else if n % 4 = 0 then n / 4 else n / 4 + 1) = max 96 ((Nat.size v + 3) / 4) := by
    split_ifs <;> omega
  rw [hl, tostringLoop_wp h hv h1 _ (by omega), List.nil_append]

theorem tostring_384 {a : BIG} (h : Nrm a) {v : Nat} (hv : a.val = v) (h1 : v < 2 ^ 384) :
    a.tostring = some (hexOf (toBE 48 v)) := by
  have hs : Nat.size v ≤ 384 := Nat.size_le.2 h1
  rw [tostring_eq h hv (by omega), max_eq_left (by omega), ← toHex_eq]

end BIG

theorem FP.tostring_wp {f : FP} {L E : Int} {v : Fp} (hf : FP.Ok f L E v) (h : 1 ≤ L ∧ L ≤ 8 ∧ E ≤ 2 ^ 25) :
    f.tostring = some (hexOf (toBE 48 (FP.outNat f v))) := by
  obtain ⟨r, e, hn, hv⟩ := FP.redc_nat hf h
  have := FP.outNat_le f v
  have := p_le_pow
  rw [FP.tostring, e]
  exact BIG.tostring_384 hn hv (by omega)

theorem FP.shown (f : FP) (v : Fp) : Shown (hexOf (toBE 48 (FP.outNat f v))) v := by
  rw [FP.outNat]
  split
  · rename_i h; exact .inr ⟨h.1, rfl⟩
  · exact .inl rfl

theorem FP2.tostring_wp {f : FP2} {E : Int} {v : Fp2} (hf : FP2.Ok f 1 E v) (h : E ≤ 2 ^ 25) :
    ∃ a b, f.tostring = some ('[' :: a ++ ',' :: b ++ [']']) ∧ Shown a v.re ∧ Shown b v.im := by
  refine ⟨_, _, ?_, FP.shown f.a v.re, FP.shown f.b v.im⟩
  rw [FP2.tostring, FP.tostring_wp hf.a (by omega), FP.tostring_wp hf.b (by omega)]
  rfl

theorem ECP.tostring_inf {P : ECP} {E : Int} (hP : ECP.Ok P E 0) (hE : E ≤ 2 ^ 25) :
    P.tostring = some "infinity".toList := by
  obtain ⟨t, e, h⟩ := is_infinity_wp hP hE
  rw [ECP.tostring, e, h.2 rfl]
  rfl

theorem ECP.tostring_wp {P : ECP} {E : Int} {x y : Fp} {h : y ^ 2 = x ^ 3 + b1} (hP : Ok P E (Pt.mk x y h))
    (hE : E ≤ 2 ^ 25) : P.tostring =
      some ('(' :: hexOf (toBE 48 (P.xOut x)) ++ ',' :: hexOf (toBE 48 y.val) ++ [')']) := by
  obtain ⟨t, e, ht⟩ := is_infinity_wp hP hE
  obtain ⟨Q, eQ, hQ, hx, hy, hz, eo⟩ := affine_coords hP hE
  have ht : t = false := by
    cases t
    · rfl
    · exact absurd (ht.1 rfl) (Pt.mk_ne h)
  have e1 := FP.tostring_wp hx (by omega)
  have e2 := FP.tostring_wp hy (by omega)
  rw [eo] at e1
  rw [FP.outNat_of_ne (Pt.y_ne h)] at e2
  rw [FP.tostring] at e1 e2
  rw [ECP.tostring, e, ht]
  simp only [Option.bind_eq_bind, Option.bind_some, Bool.false_eq_true, if_false, eQ] at e1 e2 ⊢
  rw [← Option.bind_assoc, e1, Option.bind_some, ← Option.bind_assoc, e2]
  rfl

theorem ECP2.tostring_inf {P : ECP2} {E : Int} (hP : ECP2.Ok P E 0) (hE : E ≤ 2 ^ 20) :
    P.tostring = some "infinity".toList := by
  obtain ⟨t, e, h⟩ := is_infinity_wp hP (by omega)
  rw [ECP2.tostring, e, h.2 rfl]
  rfl

theorem ECP2.tostring_wp {P : ECP2} {E : Int} {x y : Fp2} {h : y ^ 2 = x ^ 3 + b2} (hP : Ok P E (Pt.mk x y h))
    (hE : 2 ≤ E ∧ E ≤ 2 ^ 20) : ∃ a b c d, P.tostring =
      some ("([".toList ++ a ++ ",".toList ++ b ++ "],[".toList ++ c ++ ",".toList ++ d ++ "])".toList) ∧
      Shown a x.re ∧ Shown b x.im ∧ Shown c y.re ∧ Shown d y.im := by
  obtain ⟨t, e, ht⟩ := is_infinity_wp hP (by omega)
  obtain ⟨Q, eQ, hQ, hx, hy, -⟩ := affine_coords hP hE
  have ht : t = false := by
    cases t
    · rfl
    · exact absurd (ht.1 rfl) (Pt.mk_ne h)
  obtain ⟨a, b, e1, ha, hb⟩ := FP2.tostring_wp hx (by omega)
  obtain ⟨c, d, e2, hc, hd⟩ := FP2.tostring_wp hy (by omega)
  refine ⟨a, b, c, d, ?_, ha, hb, hc, hd⟩
  rw [ECP2.tostring, e, ht]
  simp only [Option.bind_eq_bind, Option.bind_some, Bool.false_eq_true, if_false, eQ, e1, e2]
  simp

end Amcl
