import Verif.Log2.Model

/-!
# Model of the stretch and squash tables

`src/lut/stretch.rs`, `src/lut/squash.rs`.

The `f64` computations of the two constructors are left out here: they only feed debug output and the
assertion `(expected - actual).abs() < 0.000_001` of `stretch.rs:81`. `Verif.Lut.SelfCheck` models the constructors with
them, and `Verif.Lut.SelfCheckProps` shows that the tables are the same.
-/

namespace Verif.Lut

open Verif Verif.Fixed Verif.Log2

/-- `StretchHelper` (`stretch.rs:147-155`) -/
def stretchHelper : FixI := ⟨25, some⟩

/-- the constant `ln2` (`stretch.rs:39`) -/
def ln2 : Int := 1488522236

/-- `StretchLut::minimum_accurately_mapped_input` (`stretch.rs:33-36`) -/
def minAccurate : Nat := 2 ^ 14

/-- `StretchLut::log2` (`stretch.rs:88-101`) -/
def stretchLog2 (fract : Nat) : Option Int := do
  check (fract ≠ 0)
  let lz := leadingZeros 32 fract
  check (lz > 0)
  let scaled ← fractOnlyU32.new (wrapU32 (fract * 2 ^ (lz - 1)))
  let pre ← onePlusLog2 scaled
  let pre ← fractOnlyI32.new (wrapI32 pre)
  let pre ← toFixI 32 fractOnlyI32 stretchHelper pre
  let excess ← i32 (1 + lz - (32 - 31))
  let excess ← toFixI 32 noFractI32 stretchHelper excess
  subI32 stretchHelper pre excess

/-- `level_start_fract` (`stretch.rs:46-51`) -/
def levelStart (level : Nat) : Nat := if level = 7 then 0 else 2 ^ (31 - 2 - level)

/-- `level_step_fract` (`stretch.rs:52-59`) -/
def levelStep (level : Nat) : Nat :=
  if level = 7 then 2 ^ (31 - 1 - 7 - 9) else 2 ^ (31 - 2 - level - 9)

/-- the input of a table entry (`stretch.rs:65-67`) -/
def entryInput (level index : Nat) : Option Nat := do
  let m ← mulU32 fractOnlyU32 noFractU32 fractOnlyU32 (levelStep level) index
  addU32 fractOnlyU32 (levelStart level) m

/-- one table entry (`stretch.rs:65-72`) -/
def stretchEntry (level index : Nat) : Option Int := do
  let input ← entryInput level index
  let direct ← stretchLog2 input
  let flipped ← flipU32 input
  let flippedLog ← stretchLog2 flipped
  let l ← subI32 stretchHelper direct flippedLog
  mulI32 stretchHelper fractOnlyI32 stretchedProbD l ln2

/-- one level of the table (`stretch.rs:43-84`); entry 0 of the last level keeps the filler value -/
def stretchLevel (level : Nat) : Option (List Int) :=
  (List.range 512).mapM fun i => if level = 7 ∧ i = 0 then some (2 ^ 31 - 1) else stretchEntry level i

/-- `StretchLut::new` (`stretch.rs:38-86`) -/
def stretchLutNew : Option (List (List Int)) := do
  let step ← addU32 fractOnlyU32 (levelStart 7) (levelStep 7)
  check (step = minAccurate)
  (List.range 8).mapM stretchLevel

/-- reading the table (the indexing in `src/lut/stretch.rs:105-155`) -/
def lutGet (lut : List (List Int)) (level index : Nat) : Option Int := do
  let row ← lut[level]?
  row[index]?

/-- `left_bound` (`stretch.rs:121-126`) -/
def stretchLeft (lut : List (List Int)) (level index : Nat) : Option Int :=
  if index ≠ 0 ∨ level ≠ 7 then lutGet lut level index else lutGet lut level 1

/-- `right_bound` (`stretch.rs:127-134`) -/
def stretchRight (lut : List (List Int)) (level index : Nat) : Option Int :=
  if index ≠ 511 then lutGet lut level (index + 1)
  else if level > 0 then lutGet lut (level - 1) 0
  else some 0

/-- the interpolation of `StretchLut::stretch` (`stretch.rs:114-143`) on an input in `(0, 1/2)` -/
def stretchLower (lut : List (List Int)) (input : Nat) : Option Int := do
  check (input ≠ 0)
  let lz := leadingZeros 32 input
  let lz2 ← subU lz 2
  let level := min 7 lz2
  let shift := if level = 7 then level + 2 else level + 3
  let indexLeft := wrapU32 (input * 2 ^ shift) / 2 ^ (32 - 9)
  let leftBound ← stretchLeft lut level indexLeft
  let rightBound ← stretchRight lut level indexLeft
  let weightRight ← fractOnlyI32.new (wrapI32 (wrapU32 (input * 2 ^ (shift + 9)) / 2))
  let m ← mulI32 stretchedProbD fractOnlyI32 stretchedProbD leftBound weightRight
  let resultLeft ← subI32 stretchedProbD leftBound m
  let resultRight ← mulI32 stretchedProbD fractOnlyI32 stretchedProbD rightBound weightRight
  addI32 stretchedProbD resultLeft resultRight

/-- `StretchLut::stretch` (`stretch.rs:103-144`) -/
def stretch (lut : List (List Int)) (input : Nat) : Option Int :=
  if input = 2 ^ 30 then some 0
  else do
    let flipped ← flipU32 input
    if input > 2 ^ 30 then do
      let r ← stretchLower lut flipped
      negI32 stretchedProbD r
    else stretchLower lut input

/-! ## `SquashLut`, `src/lut/squash.rs` -/

/-- the binary search of `find_squashed_prob` (`squash.rs:65-76`); the result is either an exact hit or the
final bounds. Each iteration halves the distance, so 31 iterations suffice; running out of them would be
`none`. -/
def searchLoop (lut : List (List Int)) (target : Int) : Nat → Nat → Nat → Option (Nat ⊕ (Nat × Nat))
  | 0, lower, upper => if upper - lower > 1 then none else some (.inr (lower, upper))
  | k + 1, lower, upper =>
    if upper - lower > 1 then do
      let middle := lower + (upper - lower) / 2
      let s ← stretch lut middle
      if s > target then searchLoop lut target k lower middle
      else if s < target then searchLoop lut target k middle upper
      else some (.inl middle)
    else some (.inr (lower, upper))

/-- the choice after the search (`squash.rs:77-99`) -/
def searchChoose (lut : List (List Int)) (target : Int) (lower upper : Nat) : Option Nat := do
  check (lower + 1 = upper)
  let lowerFract ← fractOnlyU32.new lower
  let upperFract ← fractOnlyU32.new upper
  let ls ← stretch lut lowerFract
  let us ← stretch lut upperFract
  if ls ≠ us then do
    check (ls ≤ target)
    check (us ≥ target)
    let ld ← subI32 stretchedProbD target ls
    let ud ← subI32 stretchedProbD us target
    if ld < ud then some lowerFract else some upperFract
  else do
    let f ← flipU32 minAccurate
    some (min (max lower minAccurate) f)

/-- `SquashLut::find_squashed_prob` (`squash.rs:60-100`) -/
def findSquashed (lut : List (List Int)) (target : Int) : Option Nat := do
  let r ← searchLoop lut target 31 1 (2 ^ 31 - 1)
  match r with
  | .inl middle => some middle
  | .inr (lower, upper) => searchChoose lut target lower upper

/-- `ARRAY_SIZE` (`squash.rs:26-27`) -/
def squashSize : Nat := 3073

/-- the upper half of the table (`squash.rs:35-52`): `index = ARRAY_SIZE / 2 + k` -/
def squashUpper (lut : List (List Int)) (k : Nat) : Option Nat := do
  let target ← stretchedProbD.new ((k : Int) * 2 ^ 14)
  findSquashed lut target

/-- `SquashLut::new` (`squash.rs:29-58`): the upper half by search, the lower half by flipping -/
def squashLutNew (lut : List (List Int)) : Option (List Nat) := do
  let s ← stretch lut minAccurate
  check (-s > 0)
  let upper ← (List.range (squashSize / 2 + 1)).mapM (squashUpper lut)
  let lower ← (upper.drop 1).mapM flipU32
  some (lower.reverse ++ upper)

/-- `SquashLut::squash` (`squash.rs:102-125`) -/
def squash (table : List Nat) (input : Int) : Option Nat := do
  let indexLeft ← i32 (input / 2 ^ 14 + 12 * 2 ^ 7)
  check (indexLeft ≥ 0)
  let indexLeft := indexLeft.toNat
  if indexLeft = squashSize - 1 then table[indexLeft]?
  else do
    let leftBound ← table[indexLeft]?
    let rightBound ← table[indexLeft + 1]?
    let weightRight ← fractOnlyU32.new ((input % 2 ^ 14).toNat * 2 ^ (31 - 14))
    let m ← mulU32 fractOnlyU32 fractOnlyU32 fractOnlyU32 leftBound weightRight
    let resultLeft ← subU32 fractOnlyU32 leftBound m
    let resultRight ← mulU32 fractOnlyU32 fractOnlyU32 fractOnlyU32 rightBound weightRight
    addU32 fractOnlyU32 resultLeft resultRight

end Verif.Lut
