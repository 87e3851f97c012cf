import Verif.Tree.Spec
import Verif.History.Ideal

/-!
# A memory of contexts

What the history tree reports once bytes have left the window, without nodes, edges, positions or a ring buffer. A memory
keeps, for every string of bits, a record: the bits that have followed it, and its cost trackers. It is updated by three
rules:

* When a bit follows a context that has been followed by both bits within the window, the bit is added to the record of the
  context and the cost trackers are replaced by the supplied ones.
* When a bit follows a context that has only been followed by the other bit within the window, the record of the context
  starts again: `count` times the other bit, then the new bit.
* Otherwise the record stays as it is.

`count` is what is remembered of the context in progress, if its next bit has always been the same: at the start of a byte
the context of order 0 counts the record of the string with which all bytes in the window begin, the other contexts keep the
count of the shorter context from which they grow; and when the next bit of a context that has been followed by both bits is
read, the count is how often the bit is in the record. If all bytes in the window are the same, every context counts how often
it is in the window.
-/

namespace Verif.Tree

open Verif Verif.History

structure Memo where
  hist : List Bool
  record : List Bool → List Bool × Costs
  count : Nat → Nat

def Memo.new : Memo := ⟨[], fun _ => ([], costsDefault), fun _ => 0⟩

instance (hist : List Bool) (k : Nat) : Decidable (Branching hist k) := by unfold Branching; infer_instance

/-- the first place where two bytes of a sequence of complete bytes differ -/
def firstDiff (win : List Bool) : Option Nat :=
  (List.range 8).find? fun d => (List.range (win.length / 8)).any fun i => win.getD (8 * i + d) false != win.getD d false

/-- the start of a byte -/
def Memo.start (W : Nat) (m : Memo) : Memo :=
  let win := windowed W m.hist
  { m with
    count := match firstDiff win with
      | some d => fun k => match k with
        | 0 => (m.record (win.take d)).1.length
        | k + 1 => m.count k
      | none => fun k => (following win k).length }

/-- the bit `b` and the cost trackers for the contexts that have been followed by both bits -/
def Memo.read (W maxOrder : Nat) (m : Memo) (b : Bool) (costs : List Costs) : Memo :=
  let win := windowed W m.hist
  { hist := m.hist ++ [b]
    record := fun s =>
      let k := s.length / 8
      if k ≤ maxOrder ∧ occs win k ≠ [] ∧ s = context win k then
        if Branching win k then ((m.record s).1 ++ [b], costs.getD k costsDefault)
        else if b ∈ following win k then m.record s
        else (List.replicate (m.count k) (!b) ++ [b], costsDefault)
      else m.record s
    count := fun k => if Branching win k then (m.record (context win k)).1.count b else m.count k }

/-- the state of the context of order `k` -/
def Memo.state (table : List Nat) (W : Nat) (m : Memo) (k : Nat) : Option CtxState :=
  let win := windowed W m.hist
  if Branching win k then
    specState table (lastDist win k) (m.record (context win k)).1 (m.record (context win k)).2
  else some (.edge (lastDist win k) (min 1000 (m.count k)) ((following win k).headD false))

/-- the states of all contexts, up to order `maxOrder`, that have occurred in the window -/
def Memo.gather (table : List Nat) (W maxOrder : Nat) (m : Memo) : Option (List CtxState) :=
  (orders (windowed W m.hist) maxOrder).mapM (m.state table W)

/-- the memory as a source of histories -/
def memoSource (table : List Nat) (W maxOrder : Nat) : Source Memo :=
  ⟨fun m => some (m.start W), Memo.gather table W maxOrder, fun m b costs => some (m.read W maxOrder b costs)⟩

end Verif.Tree
