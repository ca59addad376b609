import Verif.Model.BigRest
import Verif.Model.Joint
import Verif.Proof.Big
/-!
# Proofs about `or` and `isok`
-/

set_option exponentiation.threshold 2000

namespace Amcl

/-- Bitwise or works limb by limb. -/
theorem or_digits (k : Nat) {x x' : Nat} (y y' : Nat) (hx : x < 2 ^ k) (hx' : x' < 2 ^ k) :
    (x + y * 2 ^ k) ||| (x' + y' * 2 ^ k) = (x ||| x') + (y ||| y') * 2 ^ k := by
  have ho := Nat.or_lt_two_pow hx hx'
  rw [add_comm x, add_comm x', add_comm (x ||| x'), mul_comm y, mul_comm y', mul_comm (y ||| y'),
    Nat.two_pow_add_eq_or_of_lt hx, Nat.two_pow_add_eq_or_of_lt hx', Nat.two_pow_add_eq_or_of_lt ho]
  have : 2 ^ k * (y ||| y') = 2 ^ k * y ||| 2 ^ k * y' := by
    rw [mul_comm, mul_comm _ y, mul_comm _ y', ← Nat.shiftLeft_eq, ← Nat.shiftLeft_eq, ← Nat.shiftLeft_eq,
      Nat.shiftLeft_or_distrib]
  rw [this]
  ac_rfl

theorem or64_nat {x y : Nat} (hx : x < 2 ^ 63) (hy : y < 2 ^ 63) : or64 (x : Int) (y : Int) = ((x ||| y : Nat) : Int) := by
  have ho := Nat.or_lt_two_pow hx hy
  rw [or64, BitVec.ofInt_natCast, BitVec.ofInt_natCast, ← BitVec.ofNat_or, BitVec.toInt_eq_toNat_of_lt, BitVec.toNat_ofNat,
    Nat.mod_eq_of_lt (by omega)]
  rw [BitVec.toNat_ofNat, Nat.mod_eq_of_lt (by omega)]; omega

namespace BIG

theorem or_bits {a b : BIG} (ha : a.Nrm) (hb : b.Nrm) {x y : Nat} (hx : a.val = x) (hy : b.val = y) (x1 : x < 2 ^ 406)
    (y1 : y < 2 ^ 406) : (a.or b).Nrm ∧ (a.or b).val = ((x ||| y : Nat) : Int) := by
  have ta := ha.top (B := 2 ^ 58) (by omega) (by omega)
  have tb := hb.top (B := 2 ^ 58) (by omega) (by omega)
  obtain ⟨a0, a1, a2, a3, a4, a5⟩ := ha
  obtain ⟨b0, b1, b2, b3, b4, b5⟩ := hb
  obtain ⟨w0, w1, w2, w3, w4, w5, w6⟩ := a
  obtain ⟨v0, v1, v2, v3, v4, v5, v6⟩ := b
  dsimp only at *
  lift w0 to Nat using a0.1
  lift w1 to Nat using a1.1
  lift w2 to Nat using a2.1
  lift w3 to Nat using a3.1
  lift w4 to Nat using a4.1
  lift w5 to Nat using a5.1
  lift w6 to Nat using ta.1
  lift v0 to Nat using b0.1
  lift v1 to Nat using b1.1
  lift v2 to Nat using b2.1
  lift v3 to Nat using b3.1
  lift v4 to Nat using b4.1
  lift v5 to Nat using b5.1
  lift v6 to Nat using tb.1
  have hx : x = w0 + (w1 + (w2 + (w3 + (w4 + (w5 + w6 * 2 ^ 58) * 2 ^ 58) * 2 ^ 58) * 2 ^ 58) * 2 ^ 58) * 2 ^ 58 := by
    simp only [val] at hx; omega
  have hy : y = v0 + (v1 + (v2 + (v3 + (v4 + (v5 + v6 * 2 ^ 58) * 2 ^ 58) * 2 ^ 58) * 2 ^ 58) * 2 ^ 58) * 2 ^ 58 := by
    simp only [val] at hy; omega
  have o0 := Nat.or_lt_two_pow (n := 58) (x := w0) (y := v0) (by omega) (by omega)
  have o1 := Nat.or_lt_two_pow (n := 58) (x := w1) (y := v1) (by omega) (by omega)
  have o2 := Nat.or_lt_two_pow (n := 58) (x := w2) (y := v2) (by omega) (by omega)
  have o3 := Nat.or_lt_two_pow (n := 58) (x := w3) (y := v3) (by omega) (by omega)
  have o4 := Nat.or_lt_two_pow (n := 58) (x := w4) (y := v4) (by omega) (by omega)
  have o5 := Nat.or_lt_two_pow (n := 58) (x := w5) (y := v5) (by omega) (by omega)
  rw [hx, hy, or_digits 58 _ _ (by omega) (by omega), or_digits 58 _ _ (by omega) (by omega),
    or_digits 58 _ _ (by omega) (by omega), or_digits 58 _ _ (by omega) (by omega),
    or_digits 58 _ _ (by omega) (by omega), or_digits 58 _ _ (by omega) (by omega), BIG.or]
  dsimp only
  rw [or64_nat (by omega) (by omega), or64_nat (by omega) (by omega), or64_nat (by omega) (by omega),
    or64_nat (by omega) (by omega), or64_nat (by omega) (by omega), or64_nat (by omega) (by omega),
    or64_nat (by omega) (by omega)]
  refine ⟨?_, ?_⟩
  · constructor <;> dsimp only <;> omega
  · simp only [val]; push_cast; ring

theorem sar_zero_iff {x : Int} {k : Nat} : sar x k = 0 ↔ 0 ≤ x ∧ x < 2 ^ k := by
  have hp : (0:Int) < 2 ^ k := by positivity
  rw [sar]
  constructor
  · intro h
    have := Int.emod_add_mul_ediv x (2 ^ k)
    rw [h, mul_zero, add_zero] at this
    rw [← this]
    exact ⟨Int.emod_nonneg _ hp.ne', Int.emod_lt_of_pos _ hp⟩
  · rintro ⟨h0, h1⟩
    exact Int.ediv_eq_zero_of_lt h0 h1

theorem isok_iff (a : BIG) : a.isok = true ↔ a.Nrm ∧ 0 ≤ a.w6 ∧ a.w6 < 2 ^ 58 := by
  simp only [isok, Bool.and_eq_true, beq_iff_eq, sar_zero_iff]
  constructor
  · rintro ⟨⟨⟨⟨⟨⟨h0, h1⟩, h2⟩, h3⟩, h4⟩, h5⟩, h6⟩
    exact ⟨⟨h0, h1, h2, h3, h4, h5⟩, h6⟩
  · rintro ⟨⟨h0, h1, h2, h3, h4, h5⟩, h6⟩
    exact ⟨⟨⟨⟨⟨⟨h0, h1⟩, h2⟩, h3⟩, h4⟩, h5⟩, h6⟩

end BIG
end Amcl
