import Verif.Fixed.Model
import Verif.Random.Model
import Mathlib.Data.Int.Log
import Mathlib.Data.Rat.Floor

/-!
# Model of the conversions to and from floating point

A finite `f64` or `f32` is the rational number it denotes; the two zeros are one number. An operation
gives the exact result rounded to nearest, ties to even, as IEEE 754 and the Rust reference prescribe; `none` is an
infinite result (or a division by zero). The code modelled here never makes a NaN.
-/

namespace Verif.Float

open Verif Verif.Fixed

/-- nearest integer, ties to even (part of the rounding of all `f64` operations; used for `src/fixed_point/mod.rs:44-55`) -/
def halfEven (q : ℚ) : ℤ :=
  if q - ⌊q⌋ < 1 / 2 then ⌊q⌋ else if 1 / 2 < q - ⌊q⌋ then ⌊q⌋ + 1 else if ⌊q⌋ % 2 = 0 then ⌊q⌋ else ⌊q⌋ + 1

/-- exponent of the last place for numbers with `prec` bits and smallest exponent `emin` (part of the rounding of all `f64` operations; used for `src/fixed_point/mod.rs:44-55`) -/
def lastPlace (prec : ℕ) (emin : ℤ) (q : ℚ) : ℤ := max (Int.log 2 |q| - (prec - 1)) emin

/-- rounding to `prec` significant bits (part of the rounding of all `f64` operations; used for `src/fixed_point/mod.rs:44-55`) -/
def rounded (prec : ℕ) (emin : ℤ) (q : ℚ) : ℚ :=
  halfEven (q / 2 ^ lastPlace prec emin q) * 2 ^ lastPlace prec emin q

/-- rounding to an `f64` (used for `src/fixed_point/mod.rs:44-55`) -/
def rnd (q : ℚ) : ℚ := rounded 53 (-1074) q

/-- result of an `f64` operation (used for `src/fixed_point/mod.rs:44-55`) -/
def fl (q : ℚ) : Option ℚ := if |rnd q| < 2 ^ 1024 then some (rnd q) else none

/-- `f64` addition (`src/main.rs:50`, `76`) -/
def fAdd (a b : ℚ) : Option ℚ := fl (a + b)

/-- `f64` subtraction (`src/main.rs:66-68`) -/
def fSub (a b : ℚ) : Option ℚ := fl (a - b)

/-- `f64` multiplication (`src/fixed_point/mod.rs:49`) -/
def fMul (a b : ℚ) : Option ℚ := fl (a * b)

/-- `f64` division (`src/fixed_point/mod.rs:54`) -/
def fDiv (a b : ℚ) : Option ℚ := if b = 0 then none else fl (a / b)

/-- `f64 as f32` (`src/fixed_point/mod.rs:45`) -/
def toF32 (q : ℚ) : Option ℚ := if |rounded 24 (-149) q| < 2 ^ 128 then some (rounded 24 (-149) q) else none

/-- rounding toward zero (the cast `input as Self`, `src/fixed_point/mod.rs:524`) -/
def truncQ (q : ℚ) : ℤ := if 0 ≤ q then ⌊q⌋ else ⌈q⌉

/-- `into_f64` of the four raw types: `as f64` (`src/fixed_point/mod.rs:526`, `533`, `540`, `547`) -/
def intoF64 (z : ℤ) : Option ℚ := fl z

/-- `from_f64` of `i32` and `i64`: `as`, which truncates and saturates (`src/fixed_point/mod.rs:524`, `538`) -/
def fromF64RawI (w : ℕ) (q : ℚ) : ℤ := max (-2 ^ (w - 1)) (min (2 ^ (w - 1) - 1) (truncQ q))

/-- `from_f64` of `u32` and `u64` (`src/fixed_point/mod.rs:531`, `545`) -/
def fromF64RawU (w : ℕ) (q : ℚ) : ℕ := (max 0 (min (2 ^ w - 1) (truncQ q))).toNat

/-- `FixedPoint::as_f64` (`src/fixed_point/mod.rs:53-55`), signed -/
def asF64I (T : FixI) (raw : ℤ) : Option ℚ := do
  let a ← intoF64 raw
  let b ← intoF64 (2 ^ T.frac)
  fDiv a b

/-- `FixedPoint::as_f64` (`src/fixed_point/mod.rs:53-55`), unsigned -/
def asF64U (T : FixU) (raw : ℕ) : Option ℚ := do
  let a ← intoF64 raw
  let b ← intoF64 (2 ^ T.frac)
  fDiv a b

/-- `FixedPoint::from_f64` (`src/fixed_point/mod.rs:47-51`), signed of width `w` -/
def fromF64I (w : ℕ) (T : FixI) (input : ℚ) : Option ℤ := do
  let b ← intoF64 (2 ^ T.frac)
  let x ← fMul input b
  T.new (fromF64RawI w x)

/-- `FixedPoint::from_f64` (`src/fixed_point/mod.rs:47-51`), unsigned of width `w` -/
def fromF64U (w : ℕ) (T : FixU) (input : ℚ) : Option ℕ := do
  let b ← intoF64 (2 ^ T.frac)
  let x ← fMul input b
  T.new (fromF64RawU w x)

/-- `FixedPoint::as_f32` (`src/fixed_point/mod.rs:45`), signed -/
def asF32I (T : FixI) (raw : ℤ) : Option ℚ := do
  let x ← asF64I T raw
  toF32 x

/-- `FixedPoint::as_f32` (`src/fixed_point/mod.rs:45`), unsigned -/
def asF32U (T : FixU) (raw : ℕ) : Option ℚ := do
  let x ← asF64U T raw
  toF32 x

/-- `FixedPoint::from_f32` (`src/fixed_point/mod.rs:44`), signed; `f32 as f64` keeps the number -/
def fromF32I (w : ℕ) (T : FixI) (input : ℚ) : Option ℤ := fromF64I w T input

/-- `FixedPoint::from_f32` (`src/fixed_point/mod.rs:44`), unsigned -/
def fromF32U (w : ℕ) (T : FixU) (input : ℚ) : Option ℕ := fromF64U w T input

/-- `next_real1` (`src/random/mod.rs:118-120`) -/
def nextReal1 (t : Random.Twister) : Option (ℚ × Random.Twister) := do
  let (x, t) ← Random.nextInt64 t
  let a ← intoF64 ((x >>> 11 : ℕ) : ℤ)
  let c ← fDiv 1 9007199254740991
  let r ← fMul a c
  some (r, t)

/-- `next_real2` (`src/random/mod.rs:123-125`) -/
def nextReal2 (t : Random.Twister) : Option (ℚ × Random.Twister) := do
  let (x, t) ← Random.nextInt64 t
  let a ← intoF64 ((x >>> 11 : ℕ) : ℤ)
  let c ← fDiv 1 9007199254740992
  let r ← fMul a c
  some (r, t)

/-- `next_real3` (`src/random/mod.rs:128-130`) -/
def nextReal3 (t : Random.Twister) : Option (ℚ × Random.Twister) := do
  let (x, t) ← Random.nextInt64 t
  let a ← intoF64 ((x >>> 12 : ℕ) : ℤ)
  let a ← fAdd a (1 / 2)
  let c ← fDiv 1 4503599627370496
  let r ← fMul a c
  some (r, t)

/-- one round of the loop of `estimate_compression` (`src/main.rs:64-69`); `lg` is the platform's `f64::log2` -/
def costStep (lg : ℚ → ℚ) (total : ℚ) (f : ℕ) (bit : Bool) : Option ℚ := do
  let p ← asF64U finalProbability f
  if bit then do
    let q ← fSub 1 p
    fSub total (lg q)
  else fSub total (lg p)

/-- `total_cost_in_bits` after some bits with their predictions (`src/main.rs:53-72`) -/
def costTotal (lg : ℚ → ℚ) : ℚ → List ℕ → List Bool → Option ℚ
  | total, f :: fs, b :: bs => do
    let total ← costStep lg total f b
    costTotal lg total fs bs
  | total, _, _ => some total

end Verif.Float
