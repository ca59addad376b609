import Verif.Proof.Secp.Primes
/-!
# Specification: the prime field of secp256k1 (SEC 2, section 2.4.1)
-/

namespace Spec.Secp

/-- The secp256k1 field characteristic. -/
def p : Nat := 115792089237316195423570985008687907853269984665640564039457584007908834671663

/-- The secp256k1 group order. -/
def n : Nat := 115792089237316195423570985008687907852837564279074904382605163141518161494337

theorem prime_p : p.Prime := Primes.Secp.prime_p
theorem prime_n : n.Prime := Primes.Secp.prime_n

instance fact_p : Fact p.Prime := ⟨prime_p⟩
instance fact_n : Fact n.Prime := ⟨prime_n⟩

/-- The base field. -/
abbrev Fp := ZMod p

/-- The forms printed in the standard. -/
example : p = 2 ^ 256 - 2 ^ 32 - 977
    ∧ n = 0xFFFFFFFFFFFFFFFFFFFFFFFFFFFFFFFEBAAEDCE6AF48A03BBFD25E8CD0364141 := by
  constructor <;> rfl

end Spec.Secp
