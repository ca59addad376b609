import Verif.Proof.Primes
/-!
# Specification: the prime field
-/

namespace Spec

/-- The BLS12-381 field characteristic. -/
def p : Nat :=
  4002409555221667393417789825735904156556882819939007885332058136124031650490837864442687629129015664037894272559787

/-- The BLS12-381 group order. -/
def r : Nat := 52435875175126190479447740508185965837690552500527637822603658699938581184513

theorem prime_p : p.Prime := Primes.prime_p
theorem prime_r : r.Prime := Primes.prime_r

instance fact_p : Fact p.Prime := ⟨prime_p⟩
instance fact_r : Fact r.Prime := ⟨prime_r⟩

/-- The base field. -/
abbrev Fp := ZMod p

/-- Hexadecimal forms, as printed in the standards. -/
example : p = 0x1a0111ea397fe69a4b1ba7b6434bacd764774b84f38512bf6730d2a0f6b0f6241eabfffeb153ffffb9feffffffffaaab
    ∧ r = 0x73eda753299d7d483339d80809a1d80553bda402fffe5bfeffffffff00000001 := by
  constructor <;> rfl

end Spec
