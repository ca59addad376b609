import Verif.Spec.B383.Groups
/-!
# Specification: the generators of BLS12-383
-/

set_option exponentiation.threshold 2000

namespace Spec.B383

/-- x-coordinate of the generator of the first group. -/
def g1x : Nat := 0x41fcba55b979ece4e3835f4052ddb050f31d9f76b081f42c2f87bad84af1e3445c55dbf083f4770478c4773908734573
/-- y-coordinate of the generator of the first group. -/
def g1y : Nat := 0x68f167274cfb300024ae9cdc31c46d99d0dadc66bb6449107530a94adeb4d2dde57d49ec87f98fd212d165e8003f224

theorem g1_on : (g1y : Fp) ^ 2 = (g1x : Fp) ^ 3 + b1 := by
  have h : ((g1y ^ 2 : Nat) : Fp) = ((g1x ^ 3 + 15 : Nat) : Fp) := by
    rw [ZMod.natCast_eq_natCast_iff, Nat.ModEq]
    norm_num [g1x, g1y, p]
  push_cast at h
  exact h

/-- The generator of the first group. -/
def gen1 : G1 := Pt.mk (g1x : Fp) (g1y : Fp) g1_on

/-- Coordinates of the generator of the second group: `x = g2xa + g2xb·i`. -/
def g2xa : Nat := 0x634d22407ec03e8c07990967cb1e746432501c852d5725bd47f1c90f562572ee81fdab6795d1d3e143cb3b62d7f2d86
/-- See `g2xa`. -/
def g2xb : Nat := 0x300d7800600164baf37a7717288361dd24f498ed9d05cc89dfd98ba88e92d5d75b54ab28d57fe60defd9e41ec452de15
/-- `y = g2ya + g2yb·i`. -/
def g2ya : Nat := 0x33792cf93d225347c949d8573fe6347b6e990ed673c99b3e689783aca913a2e75b49ede4f20d61965c68f0bb9408cb41
/-- See `g2ya`. -/
def g2yb : Nat := 0x20e5247dd2cd8c6b24ee7ba7d15a7ae001ce0d446b3efa8f7af0b2f449f7bc98b0143cb0de6224863ad846437f479093

theorem g2_on : (⟨(g2ya : Fp), (g2yb : Fp)⟩ : Fp2) ^ 2 = (⟨(g2xa : Fp), (g2xb : Fp)⟩ : Fp2) ^ 3 + b2 := by
  have h15r : (15 : Fp2).re = 15 := rfl
  have h15i : (15 : Fp2).im = 0 := rfl
  have e1 : ((g2ya ^ 2 + 3 * g2xa * g2xb ^ 2 : Nat) : Fp) = ((g2xa ^ 3 + 15 + g2yb ^ 2 : Nat) : Fp) := by
    rw [ZMod.natCast_eq_natCast_iff, Nat.ModEq]
    norm_num [g2xa, g2xb, g2ya, g2yb, p]
  have e2 : ((2 * g2ya * g2yb + g2xb ^ 3 : Nat) : Fp) = ((3 * g2xa ^ 2 * g2xb + 15 : Nat) : Fp) := by
    rw [ZMod.natCast_eq_natCast_iff, Nat.ModEq]
    norm_num [g2xa, g2xb, g2ya, g2yb, p]
  push_cast at e1 e2
  generalize (g2xa : Fp) = xa at *
  generalize (g2xb : Fp) = xb at *
  generalize (g2ya : Fp) = ya at *
  generalize (g2yb : Fp) = yb at *
  rw [b2]
  ext
  · simp [pow_succ, i, QuadraticAlgebra.re_one, QuadraticAlgebra.im_one, h15r, h15i]
    linear_combination e1
  · simp [pow_succ, i, QuadraticAlgebra.re_one, QuadraticAlgebra.im_one, h15r, h15i]
    linear_combination e2

/-- The generator of the second group. -/
def gen2 : G2 := Pt.mk _ _ g2_on

end Spec.B383
