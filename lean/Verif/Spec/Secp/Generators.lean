import Verif.Spec.Secp.Groups
/-!
# Specification: the base point of secp256k1 (SEC 2, section 2.4.1)
-/

set_option exponentiation.threshold 2000

namespace Spec.Secp

/-- x-coordinate of the base point. -/
def gx : Nat := 0x79BE667EF9DCBBAC55A06295CE870B07029BFCDB2DCE28D959F2815B16F81798
/-- y-coordinate of the base point. -/
def gy : Nat := 0x483ADA7726A3C4655DA4FBFC0E1108A8FD17B448A68554199C47D08FFB10D4B8

theorem g_on : (gy : Fp) ^ 2 = (gx : Fp) ^ 3 + b1 := by
  have h : ((gy ^ 2 : Nat) : Fp) = ((gx ^ 3 + 7 : Nat) : Fp) := by
    rw [ZMod.natCast_eq_natCast_iff, Nat.ModEq]
    norm_num [gx, gy, p]
  push_cast at h
  exact h

/-- The base point. -/
def gen : G1 := Pt.mk (gx : Fp) (gy : Fp) g_on

end Spec.Secp
