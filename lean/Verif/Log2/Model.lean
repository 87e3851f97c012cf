import Verif.Fixed.Model
import Verif.Est.Model

/-!
# Model of the base 2 logarithm table, bit costs and the cost tracker

`src/lut/log2.rs`, `FixU32::log2` / `FixU64::log2` in `src/fixed_point/mod.rs`,
`FinalProbability::estimate_cost` in `src/coding/mod.rs`, `src/estimators/cost.rs`, `src/lut/cost.rs`.
-/

namespace Verif.Log2

open Verif Verif.Fixed

/-- loop of `one_plus_log2_restricted` (`src/lut/log2.rs:61-69`) -/
def onePlusLoop : Nat → Nat → Nat → Option (Nat × Nat)
  | 0, logRaw, a => some (logRaw, a)
  | k + 1, logRaw, a => do
    let logRaw := wrapU32 (logRaw * 2)
    let a ← mulU32 fractOnlyU32 fractOnlyU32 fractOnlyU32 a a
    if a < 2 ^ 30 then
      let d ← u32 (a * 2)
      let a ← fractOnlyU32.new d
      onePlusLoop k logRaw a
    else
      onePlusLoop k (logRaw ||| 1) a

/-- `one_plus_log2_restricted` (`src/lut/log2.rs:54-71`) -/
def onePlusLog2 (input : Nat) : Option Nat := do
  check (input / 2 ^ 31 = 0)
  check (input ≥ 2 ^ 30)
  let (logRaw, _) ← onePlusLoop 31 0 input
  fractOnlyU32.new logRaw

/-- one entry of `Log2Lut::new` (`src/lut/log2.rs:29-37`) -/
def log2Entry (index : Nat) : Option Nat := do
  let input := index + 2 ^ 11
  let half ← fractOnlyU32.new (wrapU32 (input * 2 ^ 19))
  let log2 ← onePlusLog2 half
  let scaled ← scaledDownU 32 log2 20
  let diff ← subU scaled index
  check (diff ≤ 176)
  some (wrapU8 diff)

/-- `Log2Lut::new` (`src/lut/log2.rs:26-40`) -/
def log2LutNew : Option (List Nat) := (List.range 2048).mapM log2Entry

/-- `Log2Lut::log2_restricted` (`src/lut/log2.rs:45-48`) -/
def log2Restricted (lut : List Nat) (input : Nat) : Option Nat := do
  let fract ← subU input (2 ^ 11)
  let d ← lut[fract]?
  u32 (d + fract)

/-- `leading_zeros` of a `w`-bit integer (as used in `src/fixed_point/mod.rs:263`, `482`) -/
def leadingZeros (w raw : Nat) : Nat := if raw = 0 then w else w - 1 - Nat.log2 raw

/-- `FixU32::log2` (`src/fixed_point/mod.rs:261-271`, `w = 32`) and `FixU64::log2` (`480-490`,
`w = 64`); `frac` is `Self::FRACTIONAL_BITS`. -/
def log2 (lut : List Nat) (w frac raw : Nat) : Option Int := do
  check (raw ≠ 0)
  let lz := leadingZeros w raw
  let shifted := raw * 2 ^ lz % 2 ^ w / 2 ^ (w - 11 - 1)
  let fract ← log2Restricted lut (wrapU32 shifted)
  let trunc : Int := ((w - frac : Nat) : Int) - lz - 1
  i32 ((fract : Int) + trunc * 2 ^ 11)

/-- `FinalProbability::estimate_cost` (`src/coding/mod.rs:31-39`) -/
def estimateCost (lut : List Nat) (prob : Nat) (bit : Bool) : Option Int := do
  let p ←
    if bit then do
      let q ← subU (2 ^ 23) prob
      finalProbability.new q
    else some prob
  let l ← log2 lut 32 23 p
  negI32 log2D l

/-! ## `CostTracker`, `src/estimators/cost.rs` -/

/-- `CostTracker::INITIAL` (`cost.rs:31-32`) -/
def costInitial : Nat := 2 ^ 15

/-- `CostTracker::updated` (`cost.rs:46-54`) -/
def costUpdated (t : Nat) (newCost : Int) : Option Nat := do
  let s ← scaledDownU 16 t 4
  let decayed ← subU t s
  check (newCost > 0)
  check (((newCost % 2 ^ 16 : Int)) = newCost)
  some (satAddU 16 decayed newCost.toNat)

/-- `CostTracker::updated_on_bit` (`cost.rs:40-44`) -/
def costUpdatedOnBit (lut : List Nat) (t probabilitySq : Nat) (bit : Bool) : Option Nat := do
  let p ← toFixU 32 fractOnlyU32 finalProbability probabilitySq
  let c ← estimateCost lut p bit
  costUpdated t c

/-! ## `CostTrackersLut`, `src/lut/cost.rs` -/

/-- loop of `CostTrackersLut::new` (`src/lut/cost.rs:38-47`) -/
def costLutLoop (lut rates : List Nat) : Nat → Nat → Nat → Option (List Nat)
  | 0, _, _ => some []
  | k + 1, tracker, estimator => do
    let p ← toFixU 32 fractOnlyU32 finalProbability (Est.decPrediction estimator)
    let oppositeCost ← estimateCost lut p true
    let entry ← costUpdated tracker oppositeCost
    let cost ← estimateCost lut p false
    let tracker ← costUpdated tracker cost
    let estimator ← Est.decUpdate rates estimator false
    let rest ← costLutLoop lut rates k tracker estimator
    some (entry :: rest)

/-- `CostTrackersLut::new` (`src/lut/cost.rs:33-49`) -/
def costLutNew (lut rates : List Nat) : Option (List Nat) := do
  let e ← Est.decNew
  costLutLoop lut rates 1024 costInitial e

/-- `CostTrackersLut::for_new_node` (`src/lut/cost.rs:51-54`) -/
def costForNewNode (table : List Nat) (oppositeRun : Nat) : Option Nat :=
  table[min oppositeRun 1023]?

end Verif.Log2
