import Verif.Proof.SignBit
/-!
# Property C19: meaning of the sign bit
-/

set_option exponentiation.threshold 2000

namespace Spec

/-- The values of `y` for which the encoders' bit differs from the documented one: leading bytes
`0d 80`, or leading bytes `0d 00` with `2y > p`. -/
def Exceptional (y : Nat) : Prop :=
  y / 256 ^ 46 = 0x0d80 ∨ (y / 256 ^ 46 = 0x0d00 ∧ 2 * y > p)

theorem signBit_cases {y : Nat} (hy : y ≤ p) :
    (signBit y = docBit y ∧ ¬ Exceptional y) ∨ (signBit y = 0 ∧ docBit y = 1 ∧ Exceptional y) := by
  unfold signBit docBit Exceptional
  rw [show (256 : Nat) ^ 47 = 2 ^ 376 by norm_num, show (256 : Nat) ^ 46 = 2 ^ 368 by norm_num]
  have hp : p = 0x1a0111ea397fe69a4b1ba7b6434bacd764774b84f38512bf6730d2a0f6b0f6241eabfffeb153ffffb9feffffffffaaab := by
    norm_num [p]
  rw [hp] at *
  split <;> split <;> omega

theorem signBit_eq_iff {y : Nat} (hy : y ≤ p) : signBit y = docBit y ↔ ¬ Exceptional y := by
  rcases signBit_cases hy with h | ⟨h1, h2, h3⟩
  · simp [h.1, h.2]
  · simp [h1, h2, h3]

theorem docBit_neg {y : Nat} (h0 : 0 < y) (hy : y < p) : docBit (p - y) = 1 - docBit y := by
  unfold docBit
  have : p % 2 = 1 := by norm_num [p]
  split <;> split <;> omega

theorem exceptional_doc {y : Nat} (hy : y ≤ p) (h : Exceptional y) : docBit y = 1 ∧ signBit y = 0 := by
  rcases signBit_cases hy with h' | ⟨h1, h2, h3⟩
  · exact absurd h h'.2
  · exact ⟨h2, h1⟩

/-- The bit separates `y` from `p - y` unless one of them is exceptional, and then it is 0 for both. -/
theorem signBit_neg_iff {y : Nat} (h0 : 0 < y) (hy : y < p) :
    (signBit y = signBit (p - y) ↔ Exceptional y ∨ Exceptional (p - y)) ∧
    (Exceptional y ∨ Exceptional (p - y) → signBit y = 0 ∧ signBit (p - y) = 0) := by
  have hn := docBit_neg h0 hy
  have hd : docBit y < 2 := by unfold docBit; split <;> norm_num
  rcases signBit_cases hy.le with ⟨h1, h2⟩ | ⟨h1, h2, h3⟩ <;>
    rcases signBit_cases (Nat.sub_le p y) with ⟨k1, k2⟩ | ⟨k1, k2, k3⟩
  · refine ⟨⟨fun h => ?_, fun h => ?_⟩, fun h => ?_⟩
    · omega
    · exact absurd h (by simp [h2, k2])
    · exact absurd h (by simp [h2, k2])
  · refine ⟨⟨fun _ => .inr k3, fun _ => ?_⟩, fun _ => ⟨?_, ?_⟩⟩ <;> omega
  · refine ⟨⟨fun _ => .inl h3, fun _ => ?_⟩, fun _ => ⟨?_, ?_⟩⟩ <;> omega
  · omega

end Spec

namespace Props

open Amcl Spec

/-- **C19.** The bit `calc_a_flag` returns for `y < p`: it is the documented `⌊2y/p⌋` unless `y` is
exceptional; it differs between `y` and `p - y` unless one of the two is exceptional, and is 0 for both
then. -/
theorem C19_sign_bit (y : BIG) (hy : y.Nrm) (h0 : 0 < y.val) (h1 : y.val < p) :
    ∃ s : Nat, utils.calc_a_flag y = some (UInt8.ofNat s) ∧ s < 2 ∧
      (s = docBit y.val.toNat ↔ ¬ Exceptional y.val.toNat) ∧
      ∀ z : BIG, z.Nrm → z.val = p - y.val → ∃ t : Nat, utils.calc_a_flag z = some (UInt8.ofNat t) ∧ t < 2 ∧
        (s = t ↔ Exceptional y.val.toNat ∨ Exceptional z.val.toNat) ∧
        (s = t → s = 0 ∧ t = 0) := by
  have hp := p_lt
  refine ⟨_, calc_a_flag_eq ((hy.lim58 (by omega) (by omega)).mono (by norm_num)) (by omega) (by omega),
    signBit_lt _, signBit_eq_iff (by omega), ?_⟩
  intro z hz hv
  refine ⟨_, calc_a_flag_eq ((hz.lim58 (by omega) (by omega)).mono (by norm_num)) (by omega) (by omega),
    signBit_lt _, ?_⟩
  have e : z.val.toNat = p - y.val.toNat := by omega
  rw [e]
  have := signBit_neg_iff (y := y.val.toNat) (by omega) (by omega)
  exact ⟨this.1, fun h => this.2 (this.1.1 h)⟩

/-- Exceptional values of both kinds, and an ordinary one. -/
example : Exceptional (0x0d80 * 256 ^ 46) ∧ Exceptional (0x0d0090 * 256 ^ 45) ∧ ¬ Exceptional 2 := by
  refine ⟨.inl (by norm_num), .inr ⟨by norm_num, by norm_num [p]⟩, ?_⟩
  rintro (h | ⟨h, -⟩) <;> norm_num at h

/-- The hypotheses hold for the limbs of 2. -/
example : (⟨2, 0, 0, 0, 0, 0, 0⟩ : BIG).Nrm ∧ (0 : Int) < (⟨2, 0, 0, 0, 0, 0, 0⟩ : BIG).val ∧
    (⟨2, 0, 0, 0, 0, 0, 0⟩ : BIG).val < p :=
  ⟨by constructor <;> norm_num, by norm_num [BIG.val], by norm_num [BIG.val, p]⟩

end Props
