import Mathlib.Tactic.Ring
import Mathlib.Tactic.NormNum
import Mathlib.Data.List.Induction
/-!
# Specification: big-endian byte strings
-/

namespace Spec

/-- The number written big-endian in a byte string. -/
def beNat (l : List UInt8) : Nat := l.foldl (fun a b => 256 * a + b.toNat) 0

/-- The last `n` base-256 digits of `v`, most significant first. -/
def toBE : Nat → Nat → List UInt8
  | 0, _ => []
  | n + 1, v => toBE n (v / 256) ++ [UInt8.ofNat (v % 256)]

theorem beNat_nil : beNat [] = 0 := rfl

theorem beNat_append_singleton (l : List UInt8) (b : UInt8) :
    beNat (l ++ [b]) = 256 * beNat l + b.toNat := by
  simp [beNat]

theorem beNat_append (l m : List UInt8) : beNat (l ++ m) = 256 ^ m.length * beNat l + beNat m := by
  induction m using List.reverseRecOn with
  | nil => simp [beNat]
  | append_singleton m b ih =>
    rw [← List.append_assoc, beNat_append_singleton, ih, beNat_append_singleton]
    simp only [List.length_append, List.length_singleton, pow_succ]
    ring

theorem beNat_cons (b : UInt8) (l : List UInt8) :
    beNat (b :: l) = 256 ^ l.length * b.toNat + beNat l := by
  have := beNat_append [b] l
  simpa [beNat] using this

theorem beNat_lt (l : List UInt8) : beNat l < 256 ^ l.length := by
  induction l using List.reverseRecOn with
  | nil => simp [beNat]
  | append_singleton l b ih =>
    rw [beNat_append_singleton, List.length_append, List.length_singleton, pow_succ]
    have := b.toNat_lt
    omega

theorem length_toBE (n v : Nat) : (toBE n v).length = n := by
  induction n generalizing v with
  | zero => rfl
  | succ n ih => simp [toBE, ih]

theorem beNat_toBE (n v : Nat) : beNat (toBE n v) = v % 256 ^ n := by
  induction n generalizing v with
  | zero => simp [toBE, beNat, Nat.mod_one]
  | succ n ih =>
    rw [toBE, beNat_append_singleton, ih, pow_succ, mul_comm (256 ^ n) 256, Nat.mod_mul]
    have : (UInt8.ofNat (v % 256)).toNat = v % 256 := by simp
    omega

theorem toBE_beNat (l : List UInt8) : toBE l.length (beNat l) = l := by
  induction l using List.reverseRecOn with
  | nil => rfl
  | append_singleton l b ih =>
    have hb := b.toNat_lt
    rw [List.length_append, List.length_singleton, toBE, beNat_append_singleton,
      show (256 * beNat l + b.toNat) / 256 = beNat l by omega,
      show (256 * beNat l + b.toNat) % 256 = b.toNat by omega, ih]
    simp

theorem beNat_inj {l m : List UInt8} (hl : l.length = m.length) (h : beNat l = beNat m) : l = m := by
  rw [← toBE_beNat l, ← toBE_beNat m, hl, h]

/-- A concrete instance: `0x01 0x02` is 258 and back. -/
example : beNat [1, 2] = 258 ∧ toBE 2 258 = [1, 2] := by decide

end Spec
