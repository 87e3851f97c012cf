import Verif.Lut.Model
import Verif.Est.Model

/-!
# Model of the mixers, `src/mixing/mixer.rs`

`Mixer1` … `Mixer5` and `MixerN` share the code of the trait `Mixer`; they differ in the number of inputs and in how
the flat initial weight is computed. Inputs are a list whose length is the size.
-/

namespace Verif.Mix

open Verif Verif.Fixed Verif.Lut

/-- `MixerInput` (`mixer.rs:139-144`) -/
structure MInput where
  weight : Int
  sq : Nat
  st : Int
deriving DecidableEq, Repr

/-- `MixerInput::NEUTRAL` (`mixer.rs:146-153`) -/
def neutralInput : MInput := ⟨0, 2 ^ 30, 0⟩

/-- the data of a mixer: inputs and `MixerCommon` (`mixer.rs:160-173`) -/
structure Mixer where
  inputs : List MInput
  mask : Nat
  index : Nat
deriving DecidableEq, Repr

/-- `UPDATE_FACTOR_INDEX_LIMIT` (`mixer.rs:40`) -/
def indexLimit : Nat := Est.maxCount

/-- `MixerInitializationMode` (`mixer.rs:28-29`) -/
inductive Init where
  | allZero
  | dominantFirst
  | equalSummingToOne
deriving DecidableEq, Repr

/-- `initialize_weights` (`mixer.rs:183-200`) -/
def initializeWeights (m : Mixer) (mode : Init) (flat : Option Int) : Option Mixer :=
  match mode with
  | .allZero => some m
  | .dominantFirst =>
    match m.inputs with
    | [] => none
    | x :: xs => some { m with inputs := { x with weight := 2 ^ 21 } :: xs }
  | .equalSummingToOne => do
    let w ← flat
    some { m with inputs := m.inputs.map fun x => { x with weight := w } }

/-- `FixedSizeMixer::new` and the `new_neutral` of the five implementations (`mixer.rs:201-343`);
`size` is `SIZE`, between 1 and 5 -/
def fixedNew (size initialIndex : Nat) (mode : Init) : Option Mixer := do
  check (initialIndex ≤ indexLimit)
  let m : Mixer := ⟨List.replicate size neutralInput, 0, initialIndex⟩
  initializeWeights m mode (some (2 ^ 21 / (size : Int)))

/-- `MixerInitializationMode::flat_mixer_weight` (`mixer.rs:31-38`) -/
def flatWeight (size : Nat) : Option Int := do
  check (size ≠ 0)
  let w ← divI 32 (2 ^ 21) size
  mixerWeight.new w

/-- `MixerN::new`, `MixerN::new_neutral` (`mixer.rs:350-373`) -/
def mixerNNew (size initialIndex : Nat) (mode : Init) : Option Mixer := do
  check (size ≤ 30)
  check (initialIndex ≤ indexLimit)
  let m : Mixer := ⟨List.replicate size neutralInput, 0, initialIndex⟩
  initializeWeights m mode (flatWeight size)

/-- `Mixer::prediction_sq` (`mixer.rs:48-51`) with `assert_input_is_set` (`mixer.rs:72-77`; `DO_CHECKS` is
true) -/
def predictionSq (m : Mixer) (i : Nat) : Option Nat := do
  check (i < m.inputs.length)
  check (m.mask &&& 2 ^ i ≠ 0)
  let x ← m.inputs[i]?
  some x.sq

/-- `Mixer::prediction_st` (`mixer.rs:53-56`) -/
def predictionSt (m : Mixer) (i : Nat) : Option Int := do
  check (i < m.inputs.length)
  check (m.mask &&& 2 ^ i ≠ 0)
  let x ← m.inputs[i]?
  some x.st

/-- `Mixer::set_input` (`mixer.rs:62-70`); `1u32 << index` cannot overflow because the size is at most 30 -/
def setInput (m : Mixer) (i sq : Nat) (st : Int) : Option Mixer := do
  check (i < m.inputs.length)
  check (m.mask &&& 2 ^ i = 0)
  let x ← m.inputs[i]?
  some { m with mask := m.mask ||| 2 ^ i, inputs := m.inputs.set i { x with sq := sq, st := st } }

/-- the loop of `mix_all` (`mixer.rs:83-87`) -/
def mixSum : Int → List MInput → Option Int
  | acc, [] => some acc
  | acc, x :: xs => do
    let w ← mulWideI32 mixerWeight stretchedProbD stretchedProbQ x.weight x.st
    let acc ← addI64 stretchedProbQ acc w
    mixSum acc xs

/-- `Mixer::mix_all` (`mixer.rs:79-91`) -/
def mixAll (table : List Nat) (m : Mixer) : Option (Nat × Int) := do
  check (m.mask = 2 ^ m.inputs.length - 1)
  let sum ← mixSum 0 m.inputs
  let st ← toFixI64I32 stretchedProbQ stretchedProbD (clampStretchedQ sum)
  let sq ← squash table st
  some (sq, st)

/-- one input in the loops of `update_and_reset` (`mixer.rs:107-111, 119-123`) -/
def updateInput (bit : Bool) (factor : Int) (x : MInput) : Option MInput := do
  let e ← mulI32 stretchedProbD fractOnlyI32 mixerWeight x.st factor
  let w ← if bit then subI32 mixerWeight x.weight e else addI32 mixerWeight x.weight e
  some { x with weight := clampWeight w }

/-- the error of a prediction (`mixer.rs:103-104, 115-116`), `u32 as i32` included -/
def mixError (bit : Bool) (sq : Nat) : Option Int := do
  let e ← if bit then some sq else flipU32 sq
  fractOnlyI32.new (wrapI32 e)

/-- `Mixer::update_and_reset` (`mixer.rs:93-130`) -/
def updateAndReset (rates : List Nat) (m : Mixer) (bit : Bool) (sq maxIndex : Nat) : Option Mixer := do
  check (m.mask = 2 ^ m.inputs.length - 1)
  let rate ← rates[m.index]?
  let dynamic ← fractOnlyI32.new (wrapI32 rate)
  let factor ← mulI32 fractOnlyI32 fractOnlyI32 fractOnlyI32 (2 ^ 30) dynamic
  let error ← mixError bit sq
  let factor ← mulI32 fractOnlyI32 fractOnlyI32 fractOnlyI32 error factor
  let inputs ← m.inputs.mapM (updateInput bit factor)
  check (m.index ≤ maxIndex)
  check (maxIndex ≤ indexLimit)
  let next ← u16 (m.index + 1)
  some { inputs := inputs, mask := 0, index := min maxIndex next }

/-- a call of the public interface of a mixer (`mixer.rs:47-131`) -/
inductive Event where
  | set (i sq : Nat) (st : Int)
  | readSq (i : Nat)
  | readSt (i : Nat)
  | mix
  | update (bit : Bool) (sq maxIndex : Nat)
deriving DecidableEq, Repr

/-- what a call returns (`mixer.rs:47-131`) -/
inductive Out where
  | nothing
  | sq (v : Nat)
  | st (v : Int)
  | both (sq : Nat) (st : Int)
deriving DecidableEq, Repr

/-- one call (`mixer.rs:47-131`) -/
def call (table rates : List Nat) (m : Mixer) : Event → Option (Out × Mixer)
  | .set i sq st => (setInput m i sq st).map fun m => (.nothing, m)
  | .readSq i => (predictionSq m i).map fun v => (.sq v, m)
  | .readSt i => (predictionSt m i).map fun v => (.st v, m)
  | .mix => (mixAll table m).map fun v => (.both v.1 v.2, m)
  | .update bit sq maxIndex => (updateAndReset rates m bit sq maxIndex).map fun m => (.nothing, m)

/-- a history of calls (`mixer.rs:47-131`) -/
def calls (table rates : List Nat) : Mixer → List Event → Option (List Out × Mixer)
  | m, [] => some ([], m)
  | m, e :: es => do
    let (o, m) ← call table rates m e
    let (os, m) ← calls table rates m es
    some (o :: os, m)

/-- set several inputs (repeated calls of `set_input`, `mixer.rs:62-70`) -/
def setInputs : Mixer → List (Nat × Nat × Int) → Option Mixer
  | m, [] => some m
  | m, (i, sq, st) :: rest => do
    let m ← setInput m i sq st
    setInputs m rest

end Verif.Mix
