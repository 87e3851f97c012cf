import Verif.Pred.Model
import Verif.Tree.Spec

/-!
# What is expected of the predictor

The specification knows the history of calls, the bits fed so far and, for the statistics, which strings have
occurred before.
-/

namespace Verif.Pred

open Verif Verif.History Verif.Tree Verif.Util

/-! ## Protocol -/

/-- between bytes; within a byte after `j` bits; the same with a prediction made for the next bit -/
inductive Phase
  | idle
  | ready (j : Nat)
  | pending (j : Nat)
  deriving DecidableEq, Repr

/-- the calls allowed in a phase: every byte is started, then each of its 8 bits is predicted and fed -/
def phaseStep : Phase → Call → Option Phase
  | .idle, .start => some (.ready 0)
  | .ready j, .predict => some (.pending j)
  | .pending j, .update _ => some (if j = 7 then .idle else .ready (j + 1))
  | _, _ => none

/-- a history of calls -/
def phaseRun : Phase → List Call → Option Phase
  | ph, [] => some ph
  | ph, c :: cs => do
    let ph ← phaseStep ph c
    phaseRun ph cs

/-- the bits fed -/
def fed (cs : List Call) : List Bool :=
  cs.filterMap fun c => match c with
    | .update b => some b
    | _ => none

/-- the number of bytes started -/
def started (cs : List Call) : Nat := cs.countP fun c => decide (c = .start)

/-! ## Statistics -/

/-- the number of orders whose context has occurred before -/
def contextCount (maxOrder : Nat) (hist : List Bool) : Nat :=
  ((List.range (maxOrder + 1)).filter fun k => occs hist k ≠ []).length

/-- the number of orders whose context has occurred before, but only ever followed by one of the two bits -/
def unaryCount (maxOrder : Nat) (hist : List Bool) : Nat :=
  ((List.range (maxOrder + 1)).filter fun k =>
    occs hist k ≠ [] ∧ ¬ (true ∈ following hist k ∧ false ∈ following hist k)).length

/-- what one bit adds to the statistics, given the history within the window, the bit and its probability -/
structure BitInfo where
  /-- number of contexts -/
  contexts : Nat
  /-- cost in 1/2048 bits; nothing when there is no context -/
  cost : Int
  /-- class: highest order and number of unary contexts, both limited to 4 -/
  slot : Option (Nat × Nat)

/-- the addition of a bit `b` predicted with probability `p` after the bits `hist` -/
def bitInfo (t : Tables) (window maxOrder : Nat) (hist : List Bool) (b : Bool) (p : Nat) : BitInfo :=
  let w := windowed window hist
  let n := contextCount maxOrder w
  if n = 0 then ⟨0, 0, none⟩
  else ⟨n, (Log2.estimateCost t.log2 p b).getD 0, some (min 4 (n - 1), min 4 (unaryCount maxOrder w))⟩

/-- the additions of all bits fed -/
def infos (t : Tables) (window maxOrder : Nat) (bits : List Bool) (fs : List Nat) : List BitInfo :=
  (List.range bits.length).map fun i =>
    bitInfo t window maxOrder (bits.take i) (bits.getD i false) (fs.getD i 0)

/-- the finished bytes with their costs, when `n` bytes have been started: all but the last one -/
def byteCosts (bits : List Bool) (costs : List Int) (n : Nat) : List (Nat × Int) :=
  (List.range (n - 1)).map fun k => (Bits.val ((bits.drop (8 * k)).take 8), ((costs.drop (8 * k)).take 8).sum)

end Verif.Pred
