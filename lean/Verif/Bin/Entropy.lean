import Verif.Float.Model
import Verif.Log2.Model
import Verif.Pred.Model

/-!
# Model of `src/bin/entropy_simulations.rs`

The probability is any float; `main` takes 37 values of the logistic function. The logarithm of the platform is a
parameter.
-/

namespace Verif.Bin

open Verif Verif.Fixed Verif.Est Verif.Log2 Verif.Float

/-- the variables of the loop (`src/bin/entropy_simulations.rs:53-56`) -/
structure Sim where
  estimator : Nat
  total : Int
  zeros : Nat
  acc : ℚ

/-- one round of the loop (`entropy_simulations.rs:59-73`) -/
def simStep (p : ℚ) (rates lut : List Nat) (runLength i : Nat) (s : Sim) : Option Sim := do
  check (runLength ≠ 0)
  let e ← (if i % runLength = 0 then decNew else some s.estimator)
  let acc ← fAdd s.acc p
  let bit := decide (acc < 1)
  let acc ← (if 1 ≤ acc then fSub acc 1 else some acc)
  let q ← toFixU 32 fractOnlyU32 finalProbability (decPrediction e)
  let cost ← estimateCost lut q bit
  let cost ← toFixI 64 log2D Pred.log2Q cost
  let total ← addI64 Pred.log2Q s.total cost
  let zeros ← (if bit = false then u32 (s.zeros + 1) else some s.zeros)
  let e ← decUpdate rates e bit
  some ⟨e, total, zeros, acc⟩

/-- the loop from round `i` on (`src/bin/entropy_simulations.rs:58-74`) -/
def simLoop (p : ℚ) (rates lut : List Nat) (runLength : Nat) : Nat → Nat → Sim → Option Sim
  | 0, _, s => some s
  | n + 1, i, s => do
    let s ← simStep p rates lut runLength i s
    simLoop p rates lut runLength n (i + 1) s

/-- `check_decelerating_estimator_single` (`entropy_simulations.rs:48-75`): total cost, zeros, ones -/
def simulate (p : ℚ) (rates lut : List Nat) (runLength : Nat) : Option (Int × Nat × Nat) := do
  check (0 < p ∧ p < 1)
  let e ← decNew
  let s ← simLoop p rates lut runLength 10000 0 ⟨e, 0, 0, p⟩
  let ones ← subU 10000 s.zeros
  some (s.total, s.zeros, ones)

/-- the probability of `main` (`entropy_simulations.rs:33`); `y` is what `exp` returns -/
def simProbability (y : ℚ) : Option ℚ := do
  let a ← fAdd 1 y
  fDiv 1 a

/-- one simulation of `main` (`entropy_simulations.rs:29`, `39-41`) -/
def simulateWith (factor addend : Nat) (p : ℚ) (runLength : Nat) : Option (Int × Nat × Nat) := do
  let lut ← log2LutNew
  let rates ← ratesMake factor addend
  simulate p rates lut runLength

/-- the ideal cost (`entropy_simulations.rs:76-78`); `lg` is the logarithm of the platform. `none` stands for a result that
is not finite. -/
def idealCost (lg : ℚ → ℚ) (zeros ones : Nat) : Option ℚ := do
  let z ← intoF64 zeros
  let n ← intoF64 10000
  let p ← fDiv z n
  let a ← fMul z (-lg p)
  let o ← intoF64 ones
  let q ← fSub 1 p
  let b ← fMul o (-lg q)
  fAdd a b

/-- the numbers printed by one simulation (`entropy_simulations.rs:79-83`) -/
structure SimReport where
  probability : ℚ
  totalCost : ℚ
  idealCost : ℚ
  overhead : ℚ
  ratio : ℚ
  zeros : Nat
  ones : Nat

/-- one simulation with its report (`entropy_simulations.rs:39-41`, `48-84`); `none` stands for a panic or a printed number
that is not finite -/
def simReport (lg : ℚ → ℚ) (factor addend : Nat) (p : ℚ) (runLength : Nat) : Option SimReport := do
  let (total, zeros, ones) ← simulateWith factor addend p runLength
  let ideal ← idealCost lg zeros ones
  let cost ← asF64I Pred.log2Q total
  let r ← fDiv cost ideal
  let overhead ← fSub r 1
  let n ← intoF64 10000
  let ratio ← fDiv n cost
  some ⟨p, cost, ideal, overhead, ratio, zeros, ones⟩

/-- the run lengths of `main` (`entropy_simulations.rs:34-35`) -/
def simLengths : List Nat := [1, 2, 3, 5, 8, 13, 21, 34, 55, 89, 100, 200, 300, 1000, 2000, 10000]

/-- the tables of `main` (`entropy_simulations.rs:37`) -/
def simTables : List (Nat × Nat) := [(1, 2), (1, 3), (2, 2), (2, 3)]

/-- `main` (`entropy_simulations.rs:28-46`): for each power the reports of all run lengths and tables; `ex` and `lg` are
exponential and logarithm of the platform -/
def simMain (ex lg : ℚ → ℚ) : Option (List (ℚ × List (List SimReport))) :=
  (List.range 37).mapM fun i => do
    let x ← intoF64 (-((i : ℤ) - 18))
    let power ← fDiv x 2
    let p ← simProbability (ex power)
    let out ← simLengths.mapM fun l => simTables.mapM fun t => simReport lg t.1 t.2 p l
    some (power, out)

end Verif.Bin
