import Verif.Pred.Model
import Verif.Float.Model

/-!
# Model of the floating point checks in the constructors of the stretch and squash tables

`src/lut/stretch.rs:73-82`, `src/lut/squash.rs:31-51`. The logarithm and the exponential function of the platform are
parameters. The numbers `none` stands for are an infinite result of an operation and a panic.
-/

namespace Verif.Lut

open Verif Verif.Fixed Verif.Float

/-- the constant `0.000_001` (`stretch.rs:81`) -/
def tolerance : ℚ := rnd (1 / 10 ^ 6)

/-- the comparison of a table entry with the logarithm (`stretch.rs:73-81`) -/
def selfCheck (ln : ℚ → ℚ) (input : Nat) (entry : Int) : Option Unit := do
  let actual ← asF64I stretchedProbD entry
  let x ← asF64U fractOnlyU32 input
  let y ← fSub 1 x
  let odds ← fDiv x y
  let d ← fSub (ln odds) actual
  check (|d| < tolerance)

/-- one table entry with its check (`stretch.rs:65-82`) -/
def stretchEntryChecked (ln : ℚ → ℚ) (level index : Nat) : Option Int := do
  let input ← entryInput level index
  let entry ← stretchEntry level index
  selfCheck ln input entry
  some entry

/-- one level of the table (`stretch.rs:43-84`) -/
def stretchLevelChecked (ln : ℚ → ℚ) (level : Nat) : Option (List Int) :=
  (List.range 512).mapM fun i => if level = 7 ∧ i = 0 then some (2 ^ 31 - 1) else stretchEntryChecked ln level i

/-- `StretchLut::new` (`stretch.rs:38-86`) -/
def stretchLutChecked (ln : ℚ → ℚ) : Option (List (List Int)) := do
  let step ← addU32 fractOnlyU32 (levelStart 7) (levelStep 7)
  check (step = minAccurate)
  (List.range 8).mapM (stretchLevelChecked ln)

/-- one round of the first loop (`squash.rs:35-51`): the entry, and the new value of `max_error` -/
def squashRound (exp : ℚ → ℚ) (lut : List (List Int)) (maxStretched maxError : ℚ) (k : Nat) : Option (Nat × ℚ) := do
  let target ← stretchedProbD.new ((k : Int) * 2 ^ 14)
  let negTarget ← negI32 stretchedProbD target
  let x ← asF64I stretchedProbD negTarget
  let d ← fAdd 1 (exp x)
  let expected ← fDiv 1 d
  let actual ← findSquashed lut target
  let a ← asF64U fractOnlyU32 actual
  let error ← fSub expected a
  let t ← asF64I stretchedProbD target
  some (actual, if |t| ≤ maxStretched then max maxError |error| else maxError)

/-- the first loop (`squash.rs:35-52`) for the entries `k`, …, `k + n - 1` -/
def squashLoop (exp : ℚ → ℚ) (lut : List (List Int)) (maxStretched : ℚ) : Nat → ℚ → Nat → Option (List Nat × ℚ)
  | _, maxError, 0 => some ([], maxError)
  | k, maxError, n + 1 => do
    let (entry, maxError) ← squashRound exp lut maxStretched maxError k
    let (entries, maxError) ← squashLoop exp lut maxStretched (k + 1) maxError n
    some (entry :: entries, maxError)

/-- `SquashLut::new` (`squash.rs:29-58`): the table and the final `max_error`, which is printed on request -/
def squashLutChecked (exp : ℚ → ℚ) (lut : List (List Int)) : Option (List Nat × ℚ) := do
  let s ← stretch lut minAccurate
  let m ← asF64I stretchedProbD s
  let maxStretched := -m
  check (maxStretched > 0)
  let (upper, maxError) ← squashLoop exp lut maxStretched 0 0 (squashSize / 2 + 1)
  let lower ← (upper.drop 1).mapM flipU32
  some (lower.reverse ++ upper, maxError)

/-- `LookUpTables::new` (`src/lut/mod.rs:50-76`) with the floating point part -/
def tablesChecked (ln exp : ℚ → ℚ) : Option Pred.Tables := do
  let log2 ← Log2.log2LutNew
  let rates ← Est.ratesDefault
  let cache ← Est.cacheNew rates
  let costs ← Log2.costLutNew log2 rates
  let stretch ← stretchLutChecked ln
  let (squash, _) ← squashLutChecked exp stretch
  let direct ← Est.predictionsNew (Lut.stretch stretch) rates
  let apm0 ← Mix.apmLutNew 0 squash
  let apm1 ← Mix.apmLutNew 1 squash
  let apm2 ← Mix.apmLutNew 2 squash
  some ⟨log2, rates, cache, direct, costs, stretch, squash, [apm0, apm1, apm2]⟩

end Verif.Lut
