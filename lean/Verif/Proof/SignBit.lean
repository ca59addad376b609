import Verif.Spec.SignBit
import Verif.Proof.Fp
import Verif.Model.Utils
/-!
# `calc_a_flag`
-/

set_option exponentiation.threshold 2000

namespace Amcl

open Spec

/-- The carry of the doubling loop never reaches the low byte: each byte is doubled modulo 256. -/
theorem doubleBytes_eq (l : List UInt8) : ∀ c, c % 256 = 0 →
    utils.doubleBytes c l = l.map fun y => UInt8.ofNat (2 * y.toNat) := by
  induction l with
  | nil => intro c _; rfl
  | cons y ys ih =>
    intro c hc
    rw [utils.doubleBytes, List.map_cons]
    rw [ih _ (by omega)]
    congr 1
    apply UInt8.toNat_inj.1
    show (UInt8.ofNat ((y.toNat * 2 + c) % 2 ^ 8)).toNat = (UInt8.ofNat (2 * y.toNat)).toNat
    rw [UInt8.toNat_ofNat', UInt8.toNat_ofNat']
    omega

theorem calc_a_flag_eq {y : BIG} (hy : y.Lim (2 ^ 62)) (h0 : 0 ≤ y.val) (h1 : y.val ≤ p) :
    utils.calc_a_flag y = some (UInt8.ofNat (signBit y.val.toNat)) := by
  have hp := p_val
  unfold utils.calc_a_flag
  rw [BIG.tobytes_eq hy h0, Option.bind_eq_bind, Option.bind_some, doubleBytes_eq _ 0 rfl]
  generalize hv : y.val.toNat = v
  have hv1 : v ≤ p := by omega
  have hb0 : v / 256 ^ 47 < 27 := by
    have : p < 27 * 256 ^ 47 := by norm_num [p]
    omega
  rw [toBE_succ, toBE_succ]
  simp only [List.map_cons]
  generalize toBE 46 v = rest
  have e0 : (UInt8.ofNat (2 * (UInt8.ofNat (v / 256 ^ 47 % 256)).toNat)).toNat = 2 * (v / 256 ^ 47) := by
    simp only [UInt8.toNat_ofNat']; omega
  have e1 : (UInt8.ofNat (2 * (UInt8.ofNat (v / 256 ^ 46 % 256)).toNat)).toNat =
      2 * (v / 256 ^ 46 % 256) % 256 := by
    simp only [UInt8.toNat_ofNat']; omega
  generalize UInt8.ofNat (2 * (UInt8.ofNat (v / 256 ^ 47 % 256)).toNat) = d0 at e0
  generalize UInt8.ofNat (2 * (UInt8.ofNat (v / 256 ^ 46 % 256)).toNat) = d1 at e1
  show some (utils.cmpQ (d0 :: d1 :: _) utils.Q) = _
  congr 1
  rw [utils.Q, utils.cmpQ, utils.cmpQ]
  simp only [gt_iff_lt, UInt8.lt_iff_toNat_lt, e0, e1, signBit]
  rw [show (26 : UInt8).toNat = 26 from rfl, show (1 : UInt8).toNat = 1 from rfl]
  have hm : v / 256 ^ 46 % 256 < 256 := Nat.mod_lt _ (by norm_num)
  generalize v / 256 ^ 46 % 256 = c1 at *
  generalize v / 256 ^ 47 = c0 at *
  by_cases h14 : 14 ≤ c0
  · rw [if_pos (by omega), if_pos (Or.inl h14)]; rfl
  · rw [if_neg (by omega)]
    by_cases h13 : c0 = 13
    · rw [if_neg (by omega)]
      by_cases hc : c1 ≠ 0 ∧ c1 ≠ 128
      · rw [if_pos (by omega), if_pos (Or.inr ⟨h13, hc⟩)]; rfl
      · rw [if_neg (by omega), if_pos (by omega), if_neg (by omega)]; rfl
    · rw [if_pos (by omega), if_neg (by omega)]; rfl

end Amcl
