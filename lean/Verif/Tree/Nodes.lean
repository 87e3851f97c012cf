import Verif.History.Model

/-!
# Model of the node pool of the history tree

`src/history/tree/node_child.rs`, `src/history/tree/nodes.rs`, and the node type of
`src/history/tree/node.rs`. Directions (`src/history/tree/direction.rs`) are represented by the bits they
come from: left = zero = `false`, right = one = `true`.
-/

namespace Verif.Tree

open Verif Verif.History

/-! ## `NodeChild`: an `i32` -/

/-- `NodeChild::INVALID` (`node_child.rs:31`): `!0` -/
def childInvalid : Int := -1

/-- `NodeChild::is_valid` (`node_child.rs:33-35`); `!v` is `-v - 1` -/
def childIsValid (c : Int) : Bool := decide (c ≥ 0) || decide (i32AsUsize (-c - 1) ≥ 1)

/-- `NodeChild::is_window_index` (`node_child.rs:37-39`) -/
def childIsWindow (c : Int) : Bool := decide (c ≥ 0)

/-- `NodeChild::is_node_index` (`node_child.rs:41-43`) -/
def childIsNode (c : Int) : Bool := decide (c < 0)

/-- `NodeChild::to_window_index` (`node_child.rs:45-48`) -/
def childToWindow (c : Int) : Option Nat := do
  check (c ≥ 0)
  some (i32AsUsize c)

/-- `NodeChild::to_node_index` (`node_child.rs:50-53`) -/
def childToNode (c : Int) : Option Nat := do
  check (c < 0)
  some (i32AsUsize (-c - 1))

/-- `From<WindowIndex> for NodeChild` (`node_child.rs:56-61`) -/
def childOfWindow (i : Nat) : Option Int := do
  check (i ≤ 0x7fffffff)
  some (wrapI32 i)

/-- `From<NodeIndex> for NodeChild` (`node_child.rs:63-69`) -/
def childOfNode (i : Nat) : Option Int := do
  check (i ≥ 1 ∧ i ≤ 0x7fffffff)
  some (-(wrapI32 i) - 1)

/-! ## `Node` -/

/-- `Node` (`node.rs:64-75`); the array of children is a pair of fields -/
structure Node where
  left : Int
  right : Int
  textStart : Nat
  est : Nat
  costs : Costs
  runs : Nat
  recent : Nat
  depth : Nat
  leftCount : Nat
  rightCount : Nat
  deriving DecidableEq, Repr

/-- `Node::INVALID` (`node.rs:78-88`); the estimator and bit history constants are those of the estimators'
`INVALID`/`NEW` values, all zero -/
def nodeInvalid : Node :=
  { left := childInvalid, right := childInvalid, textStart := 0, est := 0, costs := costsDefault,
    runs := 0, recent := 0, depth := 0, leftCount := 0, rightCount := 0 }

/-- `Node::is_valid` (`node.rs:114-117`) -/
def nodeIsValid (n : Node) : Bool := decide (n.left ≠ childInvalid) && decide (n.right ≠ childInvalid)

/-! ## `Nodes` -/

/-- `Nodes` (`nodes.rs:49-53`). The capacity of the vector is a field; it is the requested one, the least
that `Vec::with_capacity` may provide. -/
structure Nodes where
  items : List Node
  lastDeleted : Option Nat
  removed : Nat
  cap : Nat

/-- `Nodes::new` (`nodes.rs:58-67`) -/
def nodesNew (limit : Nat) : Option Nodes := do
  check (limit ≥ 1)
  some ⟨[nodeInvalid], none, 0, limit⟩

/-- `Index for Nodes` (`nodes.rs:117-126`) -/
def nodesGet (s : Nodes) (i : Nat) : Option Node := do
  let node ← s.items[i]?
  check (i ≥ 1 ∨ nodeIsValid node)
  some node

/-- `Nodes::update_node` (`nodes.rs:95-97`) -/
def updateNode (s : Nodes) (i : Nat) (n : Node) : Option Nodes := do
  check (i < s.items.length)
  some { s with items := s.items.set i n }

/-- assignment through `IndexMut for Nodes` (`nodes.rs:128-135`): the replaced node is checked -/
def nodesSet (s : Nodes) (i : Nat) (n : Node) : Option Nodes := do
  let _ ← nodesGet s i
  some { s with items := s.items.set i n }

/-- the next element of the list of deleted nodes (`nodes.rs:76-83`) -/
def nextDeleted (next : Int) : Option (Option Nat) :=
  if childIsValid next then do
    check (childIsNode next)
    let i ← childToNode next
    some (some i)
  else some none

/-- `Nodes::add_node` (`nodes.rs:69-93`) -/
def addNode (s : Nodes) (n : Node) : Option (Nodes × Int) :=
  match s.lastDeleted with
  | some i => do
    check (s.removed > 0)
    let old ← nodesGet s i
    check (childIsValid old.left = false)
    let next ← nextDeleted old.right
    let s' ← updateNode { s with removed := s.removed - 1, lastDeleted := next } i n
    let c ← childOfNode i
    some (s', c)
  | none => do
    check (s.removed = 0)
    check (s.cap > s.items.length)
    let c ← childOfNode s.items.length
    some ({ s with items := s.items ++ [n] }, c)

/-- the link stored in a deleted node (`nodes.rs:102-103`) -/
def deletedLink (s : Nodes) : Option Int :=
  match s.lastDeleted with
  | some j => childOfNode j
  | none => some childInvalid

/-- `Nodes::delete_node` (`nodes.rs:99-107`) -/
def deleteNode (s : Nodes) (i : Nat) : Option Nodes := do
  let link ← deletedLink s
  let s ← nodesSet s i { nodeInvalid with left := childInvalid, right := link }
  let r ← usize (s.removed + 1)
  some { s with lastDeleted := some i, removed := r }

/-- `Nodes::live_nodes_count` (`nodes.rs:109-115`) -/
def liveCount (s : Nodes) : Option Nat := do
  let root ← s.items[0]?
  if nodeIsValid root then subU s.items.length s.removed else some 0

end Verif.Tree
