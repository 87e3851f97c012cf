import Verif.Pred.Model
import Verif.Float.Model

/-!
# Model of the report the program prints

The numbers passed to `println!`, before they are formatted. All of them are nonnegative, so there is one infinity.
-/

namespace Verif.Pred

open Verif Verif.Float

/-- a nonnegative `f64`, or not a number (the quotients of `src/main.rs:78-81`) -/
inductive Num
  | fin (q : ℚ)
  | inf
  | nan
  deriving DecidableEq

/-- result of an operation on finite numbers that does not divide by zero (`src/main.rs:78-81`) -/
def Num.of : Option ℚ → Num
  | some q => .fin q
  | none => .inf

/-- `f64` division of finite nonnegative numbers (`src/main.rs:78-81`) -/
def numDiv (a b : ℚ) : Num := if b = 0 then (if a = 0 then .nan else .inf) else Num.of (fDiv a b)

/-- `f64` multiplication of a nonnegative number by a positive finite one (`src/main.rs:79`) -/
def numMul (a : Num) (b : ℚ) : Num :=
  match a with
  | .fin q => Num.of (fMul q b)
  | .inf => .inf
  | .nan => .nan

/-- the literal `1e-9` (`src/main.rs:50`, `76`) -/
def nano : ℚ := rnd (1 / 1000000000)

/-- seconds from `start` to `now`, both in nanoseconds of the clock (`src/main.rs:49-50`, `75-76`); `duration_since`
fails if the clock was set back -/
def secondsBetween (start now : ℕ) : Option ℚ := do
  check (start ≤ now)
  let a ← intoF64 ((now - start) / 1000000000 : ℕ)
  let b ← intoF64 ((now - start) % 1000000000 : ℕ)
  let c ← fMul b nano
  fAdd a c

/-- the numbers printed by `estimate_compression` (`src/main.rs:83-93`) and, for the two statistics it asks for, by
`print_state` (`src/main.rs:95-100`, `src/predictor/stats.rs:104-110`) -/
structure Report where
  initialization : ℚ
  totalDuration : ℚ
  nsPerByte : Num
  bytesPerSecond : Num
  costInBytes : Num
  costInBits : ℚ
  inputLength : ℕ
  averageCost : Num
  ratio : Num
  contextLength : Num
  lutCost : Num
  deriving DecidableEq

/-- `print_state` for `AverageContextLength` (`src/predictor/stats.rs:107-110`) -/
def statsContextLength (s : Stats) : Option Num := do
  let a ← intoF64 s.totalContexts
  let n ← u64 (s.totalBytes * 8)
  let b ← intoF64 n
  some (numDiv a b)

/-- `print_state` for `TotalCostUsingLuts` (`src/predictor/stats.rs:104-106`) -/
def statsLutCost (s : Stats) : Option Num := do
  let c ← asF64I log2Q s.totalCost
  some (numDiv c 8)

/-- one line of `print_costs_and_occurrences_by_context_type` (`src/predictor/stats.rs:122-132`): order, number of
unary contexts, count / 8, cost / 8, average occurrence count -/
def contextLine (s : Stats) (order unary : ℕ) : Option (ℕ × ℕ × Num × Num × Num) := do
  let i := order * 5 + unary
  let o ← s.occurrences[i]?
  let n ← s.orderCounts[i]?
  let o ← intoF64 o
  let m ← intoF64 n
  let c ← s.orderCosts[i]?
  let c ← asF64I log2Q c
  some (order, unary, numDiv m 8, numDiv c 8, numDiv o m)

/-- `print_costs_and_occurrences_by_context_type` (`src/predictor/stats.rs:119-135`) -/
def contextLines (s : Stats) : Option (List (ℕ × ℕ × Num × Num × Num)) :=
  ((List.range 5).flatMap fun order => (List.range 5).map fun unary => (order, unary)).mapM fun x => contextLine s x.1 x.2

/-- the closure `print_symbol` (`src/predictor/stats.rs:138-145`): code, printable character, count, cost / 8 -/
def symbolCell (s : Stats) (code : ℕ) : Option (ℕ × Char × ℕ × Num) := do
  let char := if 32 ≤ code ∧ code < 127 then Char.ofNat code else ' '
  let n ← s.symbolCounts[code]?
  let c ← s.symbolCosts[code]?
  let c ← asF64I log2Q c
  some (code, char, n, numDiv c 8)

/-- `print_costs_and_occurrences_by_symbol_value` (`src/predictor/stats.rs:137-157`): the rows of the table; the code is
computed in `u8` -/
def symbolRows (s : Stats) : Option (List (List (ℕ × Char × ℕ × Num))) :=
  (List.range 32).mapM fun row => (List.range 4).mapM fun column => do
    let off ← u8 (column * 32)
    let code ← u8 (row + off)
    symbolCell s code

/-- what the platform provides: its logarithm and the three readings of the clock (`src/main.rs:45-50`, `66-68`, `74-77`) -/
structure Platform where
  log2 : ℚ → ℚ
  start : ℕ
  initialized : ℕ
  finished : ℕ

/-- `estimate_compression` (`src/main.rs:43-103`) on a file given as the results of reading its bytes; `none` in the file
is a read error, which `main` unwraps. Window, order and mode are the constants of the program -/
def estimateCompression (e : Platform) (file : List (Option (List Bool))) : Option Report := do
  let t ← tablesNew
  let p0 ← predNew t .light 10000000 20
  let initialization ← secondsBetween e.start e.initialized
  let bytes ← file.mapM id
  let (fs, p) ← calls t .light p0 (bytes.flatMap byteCalls)
  let total ← costTotal e.log2 0 fs bytes.flatten
  let n ← u64 bytes.length
  let duration ← secondsBetween e.start e.finished
  let n' ← intoF64 n
  let n8 ← u64 (n * 8)
  let n8' ← intoF64 n8
  let contextLength ← statsContextLength p.stats
  let lutCost ← statsLutCost p.stats
  some {
    initialization, totalDuration := duration
    nsPerByte := numMul (numDiv duration n') 1000000000
    bytesPerSecond := numDiv n' duration
    costInBytes := numDiv total 8
    costInBits := total
    inputLength := n
    averageCost := numDiv total n'
    ratio := numDiv n8' total
    contextLength, lutCost }

/-- `main` (`src/main.rs:29-34`): the arguments include the name of the program; `fs` opens a file for reading -/
def mainRun (e : Platform) (args : List String) (fs : String → Option (List (Option (List Bool)))) : Option Report := do
  let name ← args[1]?
  let file ← fs name
  estimateCompression e file

end Verif.Pred
