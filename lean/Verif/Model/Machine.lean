/-!
# Machine integers

Rust `i64`, `i128` and `i32` values are Lean `Int`s. Checked operations return `none` where a debug
build panics, so `some r` means that debug and release builds both compute `r`.
-/

namespace Amcl

/-- `amcl/src/arch.rs` (`Chunk = i64`): result of an `i64` operation, `none` on overflow. -/
def i64 (x : Int) : Option Int := if -2 ^ 63 ≤ x ∧ x < 2 ^ 63 then some x else none

/-- `amcl/src/arch.rs` (`DChunk = i128`): result of an `i128` operation, `none` on overflow. -/
def i128 (x : Int) : Option Int := if -2 ^ 127 ≤ x ∧ x < 2 ^ 127 then some x else none

/-- Result of an `i32` operation, `none` on overflow. -/
def i32 (x : Int) : Option Int := if -2 ^ 31 ≤ x ∧ x < 2 ^ 31 then some x else none

/-- Rust `a + b` on `i64`. -/
def add64 (x y : Int) : Option Int := i64 (x + y)
/-- Rust `a - b` on `i64`. -/
def sub64 (x y : Int) : Option Int := i64 (x - y)
/-- Rust `a * b` on `i64`. -/
def mul64 (x y : Int) : Option Int := i64 (x * y)

/-- Rust `a & b` on `i64`. -/
def and64 (x y : Int) : Int := (BitVec.ofInt 64 x &&& BitVec.ofInt 64 y).toInt
/-- Rust `a | b` on `i64`. -/
def or64 (x y : Int) : Int := (BitVec.ofInt 64 x ||| BitVec.ofInt 64 y).toInt
/-- Rust `a ^ b` on `i64`. -/
def xor64 (x y : Int) : Int := (BitVec.ofInt 64 x ^^^ BitVec.ofInt 64 y).toInt
/-- Rust `a & b` on `i128`. -/
def and128 (x y : Int) : Int := (BitVec.ofInt 128 x &&& BitVec.ofInt 128 y).toInt
/-- Rust `a & b` on `i32`. -/
def and32 (x y : Int) : Int := (BitVec.ofInt 32 x &&& BitVec.ofInt 32 y).toInt
/-- Rust `a ^ b` on `i32`. -/
def xor32 (x y : Int) : Int := (BitVec.ofInt 32 x ^^^ BitVec.ofInt 32 y).toInt

/-- Rust `a << n` on `i64` for `n < 64`: high bits are dropped silently. -/
def shl64 (x : Int) (n : Nat) : Int := Int.bmod (x * 2 ^ n) (2 ^ 64)
/-- Rust `a >> n` (arithmetic shift) on signed integers, `n` below the width. -/
def sar (x : Int) (n : Nat) : Int := x / 2 ^ n
/-- Rust `x as i64` (wrapping). -/
def as64 (x : Int) : Int := Int.bmod x (2 ^ 64)
/-- Rust `x as i32` (wrapping). -/
def as32 (x : Int) : Int := Int.bmod x (2 ^ 32)
/-- Rust `x as i8` (wrapping). -/
def as8 (x : Int) : Int := Int.bmod x (2 ^ 8)
/-- Rust `a.wrapping_mul(b)` on `i64`. -/
def wmul64 (x y : Int) : Int := Int.bmod (x * y) (2 ^ 64)

end Amcl
