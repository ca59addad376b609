import Verif.Spec.B383.Mpin
/-!
# Specification: what AMCL's strings stand for, refused strings included
-/

namespace Spec.B383

/-- The string `b` stands for the point `g`: for a finite point if it begins with one of the two strings of it, for infinity if it
begins with no string of a point. -/
def Reads1 (b : List UInt8) (g : G1) : Prop := ∀ x y h, g = Pt.mk x y h ↔ octets x y <+: b ∨ octetsC x y <+: b

/-- The string `b` of at least 192 bytes stands for the point `g` of the twist: its blocks are the coordinates, and it stands for
infinity if they satisfy no equation. -/
def Reads2 (b : List UInt8) (g : G2) : Prop := ∀ x y h, g = Pt.mk x y h ↔ x = block2 b 0 ∧ y = block2 b 96

end Spec.B383
