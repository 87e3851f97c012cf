import Verif.Lut.Model

/-!
# Model of the adaptive probability map, `src/lut/apm.rs` and `src/mixing/apm.rs`

Probabilities are raw `FractOnlyU32` values, stretched probabilities raw `StretchedProbD` values. Debug printing is
left out. `usize` products cannot overflow for the sizes that can be allocated.
-/

namespace Verif.Mix

open Verif Verif.Fixed Verif.Lut

/-- `ApmWeightingLut` (`src/lut/apm.rs:23-28`) -/
structure ApmLut where
  stops : List Nat
  shifts : List Nat
  extras : List Nat
  fb : Nat
deriving DecidableEq, Repr

/-- multiplication of two probabilities, `fix_u32::mul` at `FractOnlyU32` (`src/fixed_point/mod.rs:288-307`) -/
def mulP (a b : Nat) : Option Nat := mulU32 fractOnlyU32 fractOnlyU32 fractOnlyU32 a b

/-- the squashed value of an interval stop (`src/lut/apm.rs:44-48`, `src/mixing/apm.rs:46-50`) -/
def stopValue (table : List Nat) (fb i : Nat) : Option Nat := do
  let scale ← subU 21 fb
  let st ← stretchedProbD.new (wrapI32 (((i : Int) - (intervalStopsCount fb / 2 : Nat)) * 2 ^ scale))
  squash table st

/-- the loop of `extra_factor` (`src/lut/apm.rs:107-117`); `fuel` bounds the number of iterations, running out of it
counts as a failure -/
def extraLoop (s remainder : Nat) : Nat → Nat → Nat → Option Nat
  | 0, low, high => if high - low ≤ 1 then some low else none
  | fuel + 1, low, high =>
    if high - low ≤ 1 then some low
    else do
      let mid ← addU32 fractOnlyU32 low ((high - low) / 2)
      let current ← mulP mid s
      if current < remainder then extraLoop s remainder fuel mid high
      else extraLoop s remainder fuel low mid

/-- `ApmWeightingLut::extra_factor` (`src/lut/apm.rs:100-119`) -/
def extraFactor (s : Nat) : Option Nat :=
  if s = 0 then some 0
  else do
    let remainder ← flipU32 s
    let high ← subU32 fractOnlyU32 oneUnsafe 1
    extraLoop s remainder 31 0 high

/-- shift and extra factor of an interval (`src/lut/apm.rs:57-62`) -/
def intervalData (stops : List Nat) (i : Nat) : Option (Nat × Nat × Nat) := do
  let right ← stops[i + 1]?
  let left ← stops[i]?
  let len ← subU32 fractOnlyU32 right left
  let shift ← subU (Log2.leadingZeros 32 len) 1
  let shifted ← fractOnlyU32.new (wrapU32 (len * 2 ^ shift))
  let extra ← extraFactor shifted
  let m ← mulP shifted extra
  let _ ← addU32 fractOnlyU32 shifted m
  some (len, shift, extra)

/-- the running sum of the interval lengths (`src/lut/apm.rs:55, 74`) -/
def lengthSum : Nat → List (Nat × Nat × Nat) → Option Nat
  | acc, [] => some acc
  | acc, x :: xs => do
    let acc ← addU32 fractOnlyU32 acc x.1
    lengthSum acc xs

/-- the symmetry assertion on the stops (`src/lut/apm.rs:79-82`) -/
def stopsSymmetric (stops : List Nat) (i : Nat) : Option Unit := do
  let a ← stops[i]?
  let b ← stops[stops.length - i - 1]?
  let f ← flipU32 b
  check (a = f)

/-- the symmetry assertion on shifts and factors (`src/lut/apm.rs:83-88`) -/
def listSymmetric (l : List Nat) (i : Nat) : Option Unit := do
  let a ← l[i]?
  let b ← l[l.length - i - 1]?
  check (a = b)

/-- `ApmWeightingLut::new` (`src/lut/apm.rs:31-98`). The order of the independent steps of the second loop is
irrelevant because all of them are pure. -/
def apmLutNew (fb : Nat) (table : List Nat) : Option ApmLut := do
  let n := intervalStopsCount fb
  let stops ← (List.range n).mapM (stopValue table fb)
  let data ← (List.range (n - 1)).mapM (intervalData stops)
  let _ ← lengthSum 0 data
  let shifts := data.map fun x => x.2.1
  let extras := data.map fun x => x.2.2
  let _ ← (List.range n).mapM (stopsSymmetric stops)
  let _ ← (List.range (n - 1)).mapM (listSymmetric shifts)
  let _ ← (List.range (n - 1)).mapM (listSymmetric extras)
  some { stops := stops, shifts := shifts, extras := extras, fb := fb }

/-- `AdaptiveProbabilityMap` (`src/mixing/apm.rs:25-31`) -/
structure Apm where
  mappings : List Nat
  fb : Nat
  contexts : Nat
  saved : Int
  savedWeight : Nat
deriving DecidableEq, Repr

/-- the symmetry assertion in `new` (`src/mixing/apm.rs:53-56`) -/
def mapSymmetric (l : List Nat) (offset i : Nat) : Option Unit := do
  let a ← l[offset + i]?
  let f ← flipU32 a
  let b ← l[offset - i]?
  check (f = b)

/-- the mappings built by `new` (`src/mixing/apm.rs:39-63`) -/
def apmMappings (contexts fb : Nat) (table : List Nat) : Option (List Nat) :=
  if contexts = 0 then some []
  else do
    let n := intervalStopsCount fb
    let single ← (List.range n).mapM (stopValue table fb)
    let _ ← (List.range (n / 2 + 1)).mapM (mapSymmetric single (n / 2))
    some (List.replicate contexts single).flatten

/-- `AdaptiveProbabilityMap::new` (`src/mixing/apm.rs:37-72`) -/
def apmNew (contexts fb : Nat) (table : List Nat) : Option Apm := do
  let mappings ← apmMappings contexts fb table
  check (mappings.length = contexts * intervalStopsCount fb)
  some { mappings := mappings, fb := fb, contexts := contexts, saved := -1, savedWeight := 0 }

/-- the stretched input moved away from the ends (`src/mixing/apm.rs:87-93`) -/
def innerSt (st : Int) : Option Int :=
  if st = -(12 * 2 ^ 21) then addI32 stretchedProbD (-(12 * 2 ^ 21)) 1
  else if st = 12 * 2 ^ 21 then subI32 stretchedProbD (12 * 2 ^ 21) 1
  else some st

/-- the interval of an input (`src/mixing/apm.rs:94-103`); `sq` is limited to the stops already -/
def apmIndex (lut : ApmLut) (fb sq : Nat) (st : Int) : Option Nat := do
  let scale ← subU 21 fb
  let n := intervalStopsCount fb
  let left ← i32 (st / 2 ^ scale + (n / 2 : Nat))
  check (0 ≤ left ∧ left + 1 < n)
  let left := left.toNat
  let stop ← lut.stops[left]?
  if sq < stop then do
    check (left ≠ 0)
    some (left - 1)
  else some left

/-- the weight of the right end (`src/mixing/apm.rs:111-118`) -/
def apmWeight (lut : ApmLut) (left sq : Nat) : Option Nat := do
  let stop ← lut.stops[left]?
  let d ← subU32 fractOnlyU32 sq stop
  let shift ← lut.shifts[left]?
  let w ← fractOnlyU32.new (wrapU32 (d * 2 ^ shift))
  let extra ← lut.extras[left]?
  let m ← mulP w extra
  addU32 fractOnlyU32 w m

/-- the input limited to the range of the stops (`src/mixing/apm.rs:83-86`) -/
def limitSq (lut : ApmLut) (n sq : Nat) : Option Nat := do
  let last ← lut.stops[n - 1]?
  let first ← lut.stops[0]?
  some (max (min sq last) first)

/-- the weight of the left end (`src/mixing/apm.rs:119-122`) -/
def weightLeft (wr : Nat) : Option Nat := if wr = 0 then some oneUnsafe else flipU32 wr

/-- `AdaptiveProbabilityMap::refine` (`src/mixing/apm.rs:74-130`) -/
def refine (a : Apm) (context sq : Nat) (st : Int) (lut : ApmLut) : Option (Nat × Apm) := do
  check (a.fb = lut.fb)
  check (a.saved = -1)
  let n := intervalStopsCount a.fb
  let sq ← limitSq lut n sq
  let st ← innerSt st
  let left ← apmIndex lut a.fb sq st
  let lo ← lut.stops[left]?
  check (lo ≤ sq)
  let hi ← lut.stops[left + 1]?
  check (sq ≤ hi)
  let leftBound ← a.mappings[context * n + left]?
  let rightBound ← a.mappings[context * n + (left + 1)]?
  let wr ← apmWeight lut left sq
  let wl ← weightLeft wr
  let resultRight ← mulP rightBound wr
  let resultLeft ← mulP leftBound wl
  let result ← addU32 fractOnlyU32 resultLeft resultRight
  some (result, { a with saved := (left : Int), savedWeight := wl })

/-- the new value of an entry (`src/mixing/apm.rs:155-170`) -/
def newEntry (bit : Bool) (weight logRate entry : Nat) : Option Nat := do
  check (logRate > 0 ∧ logRate < 30)
  let error ← if bit then some entry else flipU32 entry
  let e ← fractOnlyU32.new (error / 2 ^ logRate)
  let correction ← mulP weight e
  if bit then subU32 fractOnlyU32 entry correction else addU32 fractOnlyU32 entry correction

/-- `update_single_entry` (`src/mixing/apm.rs:153-171`) -/
def updateEntry (mappings : List Nat) (bit : Bool) (weight index logRate : Nat) : Option (List Nat) := do
  let entry ← mappings[index]?
  let v ← newEntry bit weight logRate entry
  some (mappings.set index v)

/-- `update_predictions` (`src/mixing/apm.rs:132-151`) -/
def updatePredictions (a : Apm) (context : Nat) (bit : Bool) (logRate : Nat) (fixedWeight : Bool) : Option Apm := do
  check (0 ≤ a.saved)
  check (context < a.contexts)
  let base := context * intervalStopsCount a.fb
  let left := a.saved.toNat
  let wl := if fixedWeight then 2 ^ 30 else a.savedWeight
  let wr ← subU32 fractOnlyU32 oneUnsafe wl
  let mappings ← updateEntry a.mappings bit wl (base + left) logRate
  let mappings ← updateEntry mappings bit wr (base + left + 1) logRate
  some { a with mappings := mappings, saved := -1 }

/-- a call of the public interface of a map (`src/mixing/apm.rs:74`, `132`) -/
inductive ApmEvent where
  | refine (context sq : Nat) (st : Int)
  | update (context : Nat) (bit : Bool) (logRate : Nat) (fixedWeight : Bool)
deriving DecidableEq, Repr

/-- a history of calls (`src/mixing/apm.rs:74`, `132`); returns the refined probabilities in order -/
def apmCalls (lut : ApmLut) : Apm → List ApmEvent → Option (List Nat × Apm)
  | a, [] => some ([], a)
  | a, .refine c sq st :: es => do
    let (r, a) ← refine a c sq st lut
    let (rs, a) ← apmCalls lut a es
    some (r :: rs, a)
  | a, .update c bit rate fixed :: es => do
    let a ← updatePredictions a c bit rate fixed
    apmCalls lut a es

end Verif.Mix
