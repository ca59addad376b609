import Verif.Spec.Groups
/-!
# Specification: the standard generators of BLS12-381
-/

set_option exponentiation.threshold 2000

namespace Spec

/-- x-coordinate of the standard generator of the first group. -/
def g1x : Nat := 0x17f1d3a73197d7942695638c4fa9ac0fc3688c4f9774b905a14e3a3f171bac586c55e83ff97a1aeffb3af00adb22c6bb
/-- y-coordinate of the standard generator of the first group. -/
def g1y : Nat := 0x08b3f481e3aaa0f1a09e30ed741d8ae4fcf5e095d5d00af600db18cb2c04b3edd03cc744a2888ae40caa232946c5e7e1

theorem g1_on : (g1y : Fp) ^ 2 = (g1x : Fp) ^ 3 + b1 := by
  have h : ((g1y ^ 2 : Nat) : Fp) = ((g1x ^ 3 + 4 : Nat) : Fp) := by
    rw [ZMod.natCast_eq_natCast_iff, Nat.ModEq]
    norm_num [g1x, g1y, p]
  push_cast at h
  exact h

/-- The standard generator of the first group. -/
def gen1 : G1 := Pt.mk (g1x : Fp) (g1y : Fp) g1_on

/-- Coordinates of the standard generator of the second group: `x = g2xa + g2xb·i`. -/
def g2xa : Nat := 0x24aa2b2f08f0a91260805272dc51051c6e47ad4fa403b02b4510b647ae3d1770bac0326a805bbefd48056c8c121bdb8
/-- See `g2xa`. -/
def g2xb : Nat := 0x13e02b6052719f607dacd3a088274f65596bd0d09920b61ab5da61bbdc7f5049334cf11213945d57e5ac7d055d042b7e
/-- `y = g2ya + g2yb·i`. -/
def g2ya : Nat := 0xce5d527727d6e118cc9cdc6da2e351aadfd9baa8cbdd3a76d429a695160d12c923ac9cc3baca289e193548608b82801
/-- See `g2ya`. -/
def g2yb : Nat := 0x606c4a02ea734cc32acd2b02bc28b99cb3e287e85a763af267492ab572e99ab3f370d275cec1da1aaa9075ff05f79be

theorem g2_on : (⟨(g2ya : Fp), (g2yb : Fp)⟩ : Fp2) ^ 2 = (⟨(g2xa : Fp), (g2xb : Fp)⟩ : Fp2) ^ 3 + b2 := by
  have h4r : (4 : Fp2).re = 4 := rfl
  have h4i : (4 : Fp2).im = 0 := rfl
  have e1 : ((g2ya ^ 2 + 3 * g2xa * g2xb ^ 2 : Nat) : Fp) = ((g2xa ^ 3 + 4 + g2yb ^ 2 : Nat) : Fp) := by
    rw [ZMod.natCast_eq_natCast_iff, Nat.ModEq]
    norm_num [g2xa, g2xb, g2ya, g2yb, p]
  have e2 : ((2 * g2ya * g2yb + g2xb ^ 3 : Nat) : Fp) = ((3 * g2xa ^ 2 * g2xb + 4 : Nat) : Fp) := by
    rw [ZMod.natCast_eq_natCast_iff, Nat.ModEq]
    norm_num [g2xa, g2xb, g2ya, g2yb, p]
  push_cast at e1 e2
  generalize (g2xa : Fp) = xa at *
  generalize (g2xb : Fp) = xb at *
  generalize (g2ya : Fp) = ya at *
  generalize (g2yb : Fp) = yb at *
  rw [b2]
  ext
  · simp [pow_succ, i, QuadraticAlgebra.re_one, QuadraticAlgebra.im_one, h4r, h4i]
    linear_combination e1
  · simp [pow_succ, i, QuadraticAlgebra.re_one, QuadraticAlgebra.im_one, h4r, h4i]
    linear_combination e2

/-- The standard generator of the second group. -/
def gen2 : G2 := Pt.mk _ _ g2_on

end Spec
