/-!
# Rust primitives

Conventions used by every model file.

* A Rust function that may panic is modelled as a function into `Option`; `none` is the panic
  (failed assertion, failed `unwrap`, index out of bounds, or overflow of a checked `+ - *`,
  as in a debug build).
* Unsigned integers are `Nat`, signed integers are `Int`. `u8 x`, `i32 x`, ... are the overflow checks
  applied to the mathematical result of a checked operation.
* `wrapU32`, `wrapI32`, ... are the conversions performed by `as` and by `wrapping_*` operations.

The definitions are operations of the Rust language; each cites one of the lines that use it.
-/

namespace Verif

/-- `assert!(p)` (as in `src/history/window.rs:57`) -/
def check (p : Prop) [Decidable p] : Option Unit := if p then some () else none

@[simp] theorem check_eq_some {p : Prop} [Decidable p] {u : Unit} : check p = some u ↔ p := by
  unfold check; split <;> simp_all

theorem check_pos {p : Prop} [Decidable p] (h : p) : check p = some () := by simp [h]

theorem check_neg {p : Prop} [Decidable p] (h : ¬p) : check p = none := by simp [check, h]

/-- overflow check for an unsigned integer of the given width (as in `src/lut/estimator.rs:38`) -/
def uN (bits : Nat) (n : Nat) : Option Nat := if n < 2 ^ bits then some n else none

/-- overflow check for a signed integer of the given width (as in `src/estimators/decelerating.rs:80`) -/
def iN (bits : Nat) (z : Int) : Option Int :=
  if -(2 : Int) ^ (bits - 1) ≤ z ∧ z < (2 : Int) ^ (bits - 1) then some z else none

/-- checked `u8` arithmetic (as in `src/fixed_point/mod.rs:163`) -/
def u8 (n : Nat) : Option Nat := if n < 0x100 then some n else none
/-- checked `u16` arithmetic (as in `src/history/tree/node.rs:160`) -/
def u16 (n : Nat) : Option Nat := if n < 0x10000 then some n else none
/-- checked `u32` arithmetic (as in `src/lut/estimator.rs:38`) -/
def u32 (n : Nat) : Option Nat := if n < 0x100000000 then some n else none
/-- checked `u64` arithmetic (as in `src/fixed_point/mod.rs:289`) -/
def u64 (n : Nat) : Option Nat := if n < 0x10000000000000000 then some n else none
/-- checked `usize` arithmetic, on a 64-bit target (as in `src/history/window.rs:132`) -/
def usize (n : Nat) : Option Nat := if n < 0x10000000000000000 then some n else none
/-- checked unsigned subtraction (as in `src/history/window.rs:96`) -/
def subU (a b : Nat) : Option Nat := if b ≤ a then some (a - b) else none
/-- checked `i16` arithmetic (the width of `src/fixed_point/mod.rs:61-65`) -/
def i16 (z : Int) : Option Int := if -0x8000 ≤ z ∧ z < 0x8000 then some z else none
/-- checked `i32` arithmetic (as in `src/fixed_point/mod.rs:116`) -/
def i32 (z : Int) : Option Int := if -0x80000000 ≤ z ∧ z < 0x80000000 then some z else none
/-- checked `i64` arithmetic (as in `src/estimators/decelerating.rs:80-82`) -/
def i64 (z : Int) : Option Int :=
  if -0x8000000000000000 ≤ z ∧ z < 0x8000000000000000 then some z else none

/-- `as u8` (as in `src/coding/encoder.rs:83`) -/
def wrapU8 (n : Nat) : Nat := n % 0x100
/-- `as u16` (as in `src/util/hash.rs:41`) -/
def wrapU16 (n : Nat) : Nat := n % 0x10000
/-- `as u32` (as in `src/estimators/decelerating.rs:87`) -/
def wrapU32 (n : Nat) : Nat := n % 0x100000000
/-- `as u64`, `wrapping_mul` on `u64` (as in `src/util/hash.rs:27`) -/
def wrapU64 (n : Nat) : Nat := n % 0x10000000000000000
/-- `as i32`, `wrapping_add` on `i32` (as in `src/coding/encoder.rs:105`) -/
def wrapI32 (z : Int) : Int := (z + 0x80000000) % 0x100000000 - 0x80000000
/-- `as i64` (as in `src/fixed_point/mod.rs:102`) -/
def wrapI64 (z : Int) : Int :=
  (z + 0x8000000000000000) % 0x10000000000000000 - 0x8000000000000000

theorem u8_eq {n : Nat} (h : n < 256) : u8 n = some n := by simp [u8, h]
theorem u16_eq {n : Nat} (h : n < 65536) : u16 n = some n := by simp [u16, h]
theorem u32_eq {n : Nat} (h : n < 4294967296) : u32 n = some n := by simp [u32, h]
theorem u64_eq {n : Nat} (h : n < 18446744073709551616) : u64 n = some n := by simp [u64, h]
theorem usize_eq {n : Nat} (h : n < 18446744073709551616) : usize n = some n := by simp [usize, h]
theorem subU_eq {a b : Nat} (h : b ≤ a) : subU a b = some (a - b) := by simp [subU, h]
theorem i16_eq {z : Int} (h : -32768 ≤ z ∧ z < 32768) : i16 z = some z := by simp [i16, h]
theorem i32_eq {z : Int} (h : -2147483648 ≤ z ∧ z < 2147483648) : i32 z = some z := by
  simp [i32, h]
theorem i64_eq {z : Int} (h : -9223372036854775808 ≤ z ∧ z < 9223372036854775808) :
    i64 z = some z := by simp [i64, h]
theorem wrapI32_eq {z : Int} (h : -2147483648 ≤ z ∧ z < 2147483648) : wrapI32 z = z := by
  unfold wrapI32; omega
theorem wrapI64_eq {z : Int} (h : -9223372036854775808 ≤ z ∧ z < 9223372036854775808) :
    wrapI64 z = z := by
  unfold wrapI64; omega
theorem wrapU32_eq {n : Nat} (h : n < 4294967296) : wrapU32 n = n := by unfold wrapU32; omega
theorem wrapU64_eq {n : Nat} (h : n < 18446744073709551616) : wrapU64 n = n := by
  unfold wrapU64; omega

/-- rewriting lemma: continue after a successful step -/
theorem ob_some {α β : Type _} (a : α) (f : α → Option β) : (some a >>= f) = f a := rfl
/-- rewriting lemma: a panic propagates -/
theorem ob_none {α β : Type _} (f : α → Option β) : ((none : Option α) >>= f) = none := rfl

end Verif
