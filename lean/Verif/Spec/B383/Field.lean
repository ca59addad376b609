import Verif.Proof.B383.Primes
/-!
# Specification: the prime field
-/

namespace Spec.B383

/-- The BLS12-383 field characteristic. -/
def p : Nat :=
  13143624632111687734396218524029004720845126870820156444247788574162855139416800818697211380413727823476285338464427

/-- The BLS12-383 group order. -/
def r : Nat := 115848638697272667145794417268073757960001407039087633408816076049920489684993

theorem prime_p : p.Prime := Primes.B383.prime_p
theorem prime_r : r.Prime := Primes.B383.prime_r

instance fact_p : Fact p.Prime := ⟨prime_p⟩
instance fact_r : Fact r.Prime := ⟨prime_r⟩

/-- The base field. -/
abbrev Fp := ZMod p

/-- Hexadecimal forms. -/
example : p = 0x5565569564ab6eb5a06dadc41fea9284a0ad462cf365a511ac31b801696124f47a8c3f298a64852bda371d6485aab0ab
    ∧ r = 0x1002001800c00b809c04401c81698b381de05f095a120d3973b2099ebfebc0001 := by
  constructor <;> rfl

end Spec.B383
