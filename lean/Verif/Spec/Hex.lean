import Verif.Spec.Bytes
import Verif.Spec.Field
/-!
# Specification: hexadecimal
-/

namespace Spec

/-- The sixteen digits, upper case. -/
def hexDigits : List Char :=
  ['0', '1', '2', '3', '4', '5', '6', '7', '8', '9', 'A', 'B', 'C', 'D', 'E', 'F']

/-- The digit for a number below 16. -/
def hexDigit (d : Nat) : Char := hexDigits.getD d '?'

/-- Two digits for each byte of a string. -/
def hexOf (l : List UInt8) : List Char := l.flatMap fun b => [hexDigit (b.toNat / 16), hexDigit (b.toNat % 16)]

/-- The last `n` base-16 digits of `v`, most significant first. -/
def toHex : Nat → Nat → List Char
  | 0, _ => []
  | n + 1, v => toHex n (v / 16) ++ [hexDigit (v % 16)]

/-- A coordinate of a point as printed: 96 digits of its least residue; a zero coordinate may appear as the
field prime `p` instead. -/
def Shown (s : List Char) (v : Fp) : Prop :=
  s = hexOf (toBE 48 v.val) ∨ v = 0 ∧ s = hexOf (toBE 48 p)

theorem hexOf_append (l m : List UInt8) : hexOf (l ++ m) = hexOf l ++ hexOf m := by simp [hexOf]

theorem length_hexOf (l : List UInt8) : (hexOf l).length = 2 * l.length := by
  induction l with
  | nil => rfl
  | cons b l ih =>
    rw [show b :: l = [b] ++ l from rfl, hexOf_append, List.length_append, ih]
    simp only [hexOf, List.flatMap_cons, List.flatMap_nil, List.append_nil, List.length_cons, List.length_nil,
      List.length_append]
    omega

theorem hexDigit_inj : ∀ a b : Fin 16, hexDigit a = hexDigit b → a = b := by decide

/-- Hexadecimal determines the bytes. -/
theorem hexOf_inj : ∀ {l m : List UInt8}, hexOf l = hexOf m → l = m
  | [], [], _ => rfl
  | [], b :: m, h => by simp [hexOf] at h
  | a :: l, [], h => by simp [hexOf] at h
  | a :: l, b :: m, h => by
    rw [show a :: l = [a] ++ l from rfl, show b :: m = [b] ++ m from rfl, hexOf_append, hexOf_append] at h
    have ha := a.toNat_lt
    have hb := b.toNat_lt
    simp only [hexOf, List.flatMap_cons, List.flatMap_nil, List.append_nil, List.cons_append, List.nil_append,
      List.cons.injEq] at h
    obtain ⟨h1, h2, h3⟩ := h
    have e1 := hexDigit_inj ⟨a.toNat / 16, by omega⟩ ⟨b.toNat / 16, by omega⟩ h1
    have e2 := hexDigit_inj ⟨a.toNat % 16, by omega⟩ ⟨b.toNat % 16, by omega⟩ h2
    simp only [Fin.mk.injEq] at e1 e2
    rw [hexOf_inj (l := l) (m := m) h3, UInt8.toNat_inj.1 (show a.toNat = b.toNat by omega)]

/-- The two descriptions agree. -/
theorem toHex_eq (n v : Nat) : toHex (2 * n) v = hexOf (toBE n v) := by
  induction n generalizing v with
  | zero => rfl
  | succ n ih =>
    rw [show 2 * (n + 1) = 2 * n + 1 + 1 by ring, toHex, toHex, toBE, hexOf_append, ih]
    have e : (UInt8.ofNat (v % 256)).toNat = v % 256 := by simp
    simp only [hexOf, List.flatMap_cons, List.flatMap_nil, e, List.append_nil, List.append_assoc,
      List.cons_append, List.nil_append]
    rw [Nat.div_div_eq_div_mul, show v / 16 % 16 = v % 256 / 16 by omega, show v % 16 = v % 256 % 16 by omega]

theorem toHex_succ (n v : Nat) : toHex (n + 1) v = hexDigit (v / 16 ^ n % 16) :: toHex n v := by
  induction n generalizing v with
  | zero => simp [toHex]
  | succ n ih =>
    rw [toHex, ih, toHex, Nat.div_div_eq_div_mul, ← pow_succ', List.cons_append]

/-- `0x01AF` and the 4 last digits of 431. -/
example : hexOf [1, 0xAF] = ['0', '1', 'A', 'F'] ∧ toHex 4 431 = ['0', '1', 'A', 'F'] := by decide

end Spec
