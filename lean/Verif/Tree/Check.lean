import Verif.Tree.Model

/-!
# Model of the integrity checks of the history tree

`TreeHistorySource::check_integrity_on_next_byte` and the two functions it calls. A check that fails is a
panic. Loops `while let Some(node_index) = stack.pop()` get fuel; running out of fuel is `none` as well, so a
result excludes it. Both traversals of the tree are written with the same loop, `traverse`.
-/

namespace Verif.Tree

open Verif Verif.History Verif.Window

/-- the children of a node, left first, that are handled and pushed on the stack when they are nodes
(`mod.rs:338-347`, `context.rs:158-172`) -/
def traverseChildren {α : Type} (f : α → Nat → Node → Bool → Option α) (v : Nat) (nd : Node) :
    List Bool → List Nat → α → Option (List Nat × α)
  | [], stack, acc => some (stack, acc)
  | b :: bs, stack, acc => do
    let c := nd.child b
    check (childIsValid c = true)
    let acc ← f acc v nd b
    if childIsNode c then do
      let w ← childToNode c
      traverseChildren f v nd bs (w :: stack) acc
    else traverseChildren f v nd bs stack acc

/-- the traversal of the tree (`mod.rs:333-349`, `context.rs:149-174`): the head of the list is the top of the stack;
`f` handles the child of a node in a direction -/
def traverse {α : Type} (t : Tree) (f : α → Nat → Node → Bool → Option α) :
    Nat → List Nat → α → Option α
  | _, [], acc => some acc
  | 0, _ :: _, _ => none
  | fuel + 1, v :: stack, acc => do
    let nd ← nodesGet t.nodes v
    let (stack, acc) ← traverseChildren f v nd [false, true] stack acc
    traverse t f fuel stack acc

/-- a leaf is counted, a node is not (`mod.rs:340-346`); the counters are `u8` -/
def countLeaf (t : Tree) (counters : List Nat) (_ : Nat) (nd : Node) (b : Bool) : Option (List Nat) :=
  let c := nd.child b
  if childIsNode c then some counters
  else do
    let leaf ← childToWindow c
    let offset ← indexDiff t.window leaf t.window.start
    let k ← counters[offset]?
    check (k + 1 < 256)
    some (counters.set offset (k + 1))

/-- one suffix followed down the tree (`mod.rs:287-329`) -/
def checkSuffix (t : Tree) (maxOrder suffix : Nat) : Nat → Nat → Option Unit
  | 0, _ => none
  | fuel + 1, v => do
    let nd ← nodesGet t.nodes v
    let m ← usize (maxOrder * 8)
    let m ← usize (m + 7)
    check (nd.depth ≤ m)
    let le ← indexIsSmallerOrEqual t.window suffix nd.textStart
    check (le = true)
    let dist ← indexDiff t.window t.window.cursor nd.textStart
    if nd.depth / 8 ≥ dist then do
      let equal ← comparePrefix t.window suffix nd.textStart 7 dist
      check (equal = true)
    else do
      let bytes := nd.depth / 8
      let bitIndex := 7 - nd.depth % 8
      let equal ← comparePrefix t.window suffix nd.textStart bitIndex bytes
      check (equal = true)
      let a ← indexAdd t.window suffix bytes
      let b ← indexAdd t.window nd.textStart bytes
      let differ ← bytesDifferOn t.window a b bitIndex
      if differ then some ()
      else do
        let bit ← winGetBit t.window a bitIndex
        let c := nd.child bit
        if childIsNode c then do
          let w ← childToNode c
          checkSuffix t maxOrder suffix fuel w
        else do
          let leaf ← childToWindow c
          let le ← indexIsSmallerOrEqual t.window suffix leaf
          check (le = true)
          let dist ← indexDiff t.window t.window.cursor leaf
          let equal ← comparePrefix t.window suffix leaf 7 (min maxOrder dist)
          check (equal = true)

/-- the closure of `for_each_suffix` for all suffixes (`mod.rs:281-330`); a walk that visits more nodes than there are
visits one of them twice, so it does not end -/
def checkSuffixes (t : Tree) (maxOrder : Nat) : List Nat → Option Unit
  | [] => some ()
  | s :: rest => do
    if t.proper then checkSuffix t maxOrder s t.nodes.items.length 0 else some ()
    checkSuffixes t maxOrder rest

/-- the size of the window (`mod.rs:277-279`) -/
def checkWindow (w : Win) : Option Unit :=
  if w.size = w.max then some ()
  else do
    let d ← indexDiff w w.cursor w.start
    let d ← usize (d + 1)
    check (d = w.size)

/-- all leaves are for different suffixes (`mod.rs:332-352`) -/
def checkLeaves (t : Tree) : Option Unit :=
  if t.proper then do
    let counters ← traverse t (countLeaf t) t.nodes.items.length [0] (List.replicate t.window.size 0)
    check (∀ k ∈ counters, k ≤ 1)
  else some ()

/-- `Tree::check_integrity_on_next_byte` (`mod.rs:276-353`) -/
def treeCheck (t : Tree) (maxOrder : Nat) : Option Unit := do
  checkWindow t.window
  let suffixes ← forEachSuffix t.window
  checkSuffixes t maxOrder suffixes
  checkLeaves t

/-- the map from nodes to suffixes of contexts (`context.rs:144-148`); of several contexts of a node the last one
stays -/
def contextSuffix (ctxs : List Ctx) (v : Nat) : Option Nat :=
  (ctxs.reverse.find? fun ctx => ctx.node = v).map Ctx.suffix

/-- the comparison of the text of a node with that of a child (`context.rs:151-171`) -/
def compareChild (t : Tree) (ctxs : List Ctx) (_ : Unit) (v : Nat) (nd : Node) (b : Bool) : Option Unit := do
  let text := (contextSuffix ctxs v).getD nd.textStart
  let bytes := nd.depth / 8
  let bitIndex := 7 - nd.depth % 8
  let c := nd.child b
  if childIsNode c then do
    let w ← childToNode c
    let child ← nodesGet t.nodes w
    let equal ← comparePrefix t.window text child.textStart bitIndex bytes
    check (equal = true)
  else do
    let leaf ← childToWindow c
    let equal ← comparePrefix t.window text leaf bitIndex bytes
    check (equal = true)

/-- `ActiveContexts::check_integrity_on_next_byte` (`context.rs:142-176`) -/
def ctxsCheck (t : Tree) (ctxs : List Ctx) : Option Unit :=
  if t.proper then traverse t (compareChild t ctxs) t.nodes.items.length [0] ()
  else some ()

/-- `TreeHistorySource::check_integrity_on_next_byte` (`mod.rs:58-63`) -/
def srcCheck (s : Src) : Option Unit := do
  check (s.bitIndex = 7)
  ctxsCheck s.tree s.ctxs
  treeCheck s.tree s.maxOrder

end Verif.Tree
