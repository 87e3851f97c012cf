import Verif.Fixed.Model

/-!
# Model of the probability estimators

`src/estimators/decelerating.rs`, `src/estimators/fixed_speed.rs`, `src/lut/estimator.rs`.
Bits are `Bool` (`Bit::One = true`). Predictions are the probability of bit zero.
-/

namespace Verif.Est

open Verif Verif.Fixed

/-! ## `DeceleratingEstimatorRates`, `src/lut/estimator.rs:26-52` -/

/-- `DeceleratingEstimatorRates::make` (`src/lut/estimator.rs:34-43`) -/
def ratesMake (factor addend : Nat) : Option (List Nat) :=
  (List.range 1024).mapM fun index => do
    let m ← u32 (index * factor)
    let den ← u32 (m + addend)
    check (den ≠ 0)
    some (2 ^ 31 / den)

/-- `DeceleratingEstimatorRates::make_default` (`src/lut/estimator.rs:30-32`) -/
def ratesDefault : Option (List Nat) := ratesMake 1 2

/-! ## `DeceleratingEstimator`, `src/estimators/decelerating.rs` -/

/-- `MAX_COUNT` (`decelerating.rs:30`) -/
def maxCount : Nat := 1000

/-- `DeceleratingEstimator::make` (`decelerating.rs:41-60`), on the packed `u32` -/
def decMake (prediction count : Nat) : Option Nat := do
  check (prediction % 512 = 0)
  let p := prediction / 512
  let p := if p = 0 then 1 else if p = 2 ^ 22 then 2 ^ 22 - 1 else p
  check (0 < p ∧ p < 2 ^ 22)
  check (count ≤ maxCount)
  some (p * 2 ^ 10 % 2 ^ 32 ||| count)

/-- `DeceleratingEstimator::new` (`decelerating.rs:35-39`) -/
def decNew : Option Nat := decMake (2 ^ 30) 0

/-- `DeceleratingEstimator::prediction` (`decelerating.rs:63-68`) -/
def decPrediction (e : Nat) : Nat := wrapU32 (e / 2 ^ 10 * 2 ^ 9)

/-- `DeceleratingEstimator::usage_count` (`decelerating.rs:70-72`) -/
def decCount (e : Nat) : Nat := wrapU16 e % 2 ^ 10

/-- conversion `i64 as u32` (`src/estimators/decelerating.rs:87`) -/
def i64AsU32 (z : Int) : Nat := (z % 2 ^ 32).toNat

/-- `DeceleratingEstimator::update` (`decelerating.rs:74-90`) -/
def decUpdate (rates : List Nat) (e : Nat) (value : Bool) : Option Nat := do
  let prediction := decPrediction e
  let count := decCount e
  let factor ← rates[count]?
  let error ← i64 ((if value then 0 else 2 ^ 31) - (prediction : Int))
  let correction ← i64 (error * factor)
  let p ← i64 ((prediction : Int) * 2 ^ 31 + correction)
  let p ← i64 (p - 2 ^ 61)
  let p ← scaledDownI 64 p (31 + 31 - 22)
  let p ← i64 (p + 2 ^ 21)
  let c ← u16 (count + 1)
  some (i64AsU32 p * 2 ^ 10 % 2 ^ 32 ||| min c maxCount)

/-- feeding a sequence of bits (repeated calls of `DeceleratingEstimator::update`, `src/estimators/decelerating.rs:74-91`) -/
def decRun (rates : List Nat) : Nat → List Bool → Option Nat
  | e, [] => some e
  | e, b :: bs => do
    let e ← decUpdate rates e b
    decRun rates e bs

/-! ## Caches, `src/lut/estimator.rs:54-108` -/

/-- loop of `DeceleratingEstimatorCache::new` (`src/lut/estimator.rs:62-67`) -/
def cacheLoop (rates : List Nat) : Nat → Nat → Option (List Nat)
  | 0, _ => some []
  | k + 1, estimator => do
    let current ← decUpdate rates estimator true
    let estimator ← decUpdate rates estimator false
    let rest ← cacheLoop rates k estimator
    some (current :: rest)

/-- `DeceleratingEstimatorCache::new` (`src/lut/estimator.rs:58-69`) -/
def cacheNew (rates : List Nat) : Option (List Nat) := do
  let e ← decNew
  cacheLoop rates 1024 e

/-- `DeceleratingEstimatorCache::for_new_node` (`src/lut/estimator.rs:71-81`) -/
def cacheForNewNode (cache : List Nat) (lastBit : Bool) (oppositeRun : Nat) : Option Nat := do
  check (oppositeRun ≤ maxCount)
  if lastBit then
    cache[oppositeRun]?
  else do
    let flipped ← cache[oppositeRun]?
    let prediction ← flipU32 (decPrediction flipped)
    decMake prediction (decCount flipped)

/-- loop of `DeceleratingEstimatorPredictions::new` (`src/lut/estimator.rs:94-99`); the stretch table
is a parameter -/
def predictionsLoop (rates : List Nat) (stretch : Nat → Option Int) :
    Nat → Nat → Option (List (Nat × Int))
  | 0, _ => some []
  | k + 1, estimator => do
    let sq := decPrediction estimator
    let st ← stretch sq
    let estimator ← decUpdate rates estimator false
    let rest ← predictionsLoop rates stretch k estimator
    some ((sq, st) :: rest)

/-- `DeceleratingEstimatorPredictions::new` (`src/lut/estimator.rs:89-101`) -/
def predictionsNew (stretch : Nat → Option Int) (rates : List Nat) :
    Option (List (Nat × Int)) := do
  let e ← decMake (2 ^ 30) 1
  predictionsLoop rates stretch 1024 e

/-- `DeceleratingEstimatorPredictions::for_0_bit_run` (`src/lut/estimator.rs:103-107`) -/
def for0BitRun (table : List (Nat × Int)) (run : Nat) : Option (Nat × Int) := do
  check (run ≤ maxCount)
  table[run]?

/-! ## `FixedSpeedEstimator`, `src/estimators/fixed_speed.rs` -/

/-- `FixedSpeedEstimator::new` (`fixed_speed.rs:28-31`) -/
def fixNew (fract : Nat) : Option Nat := do
  check (fract ≠ 0)
  some fract

/-- `FixedSpeedEstimator::default` (`fixed_speed.rs:54-58`) -/
def fixDefault : Nat := 2 ^ 15

/-- `FixedSpeedEstimator::prediction` (`fixed_speed.rs:34-37`) -/
def fixPrediction (e : Nat) : Nat := wrapU32 (e * 2 ^ 15)

/-- `FixedSpeedEstimator::update` (`fixed_speed.rs:39-51`) -/
def fixUpdate (e : Nat) (value : Bool) : Option Nat :=
  if value then
    subU e (e / 2 ^ 7)
  else do
    let error ← subU (2 ^ 16) e
    let correction := error / 2 ^ 7
    u16 (e + wrapU16 correction)

/-- feeding a sequence of bits (repeated calls of `FixedSpeedEstimator::update`, `src/estimators/fixed_speed.rs:39-51`) -/
def fixRun : Nat → List Bool → Option Nat
  | e, [] => some e
  | e, b :: bs => do
    let e ← fixUpdate e b
    fixRun e bs

end Verif.Est
