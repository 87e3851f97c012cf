import Verif.Tree.Nodes

/-!
# Model of the history tree

`src/history/tree/mod.rs`, `src/history/tree/context.rs`, and the methods of
`src/history/tree/node.rs`. The root has index 0 (`mod.rs:52`, `405-407`). Debug printing
(`PRINT_DEBUG`) and `print` are left out.
-/

namespace Verif.Tree

open Verif Verif.History Verif.Window

/-! ## `Node` -/

/-- `Node::child` (`node.rs:150-152`) -/
def Node.child (n : Node) (dir : Bool) : Int := if dir then n.right else n.left

/-- assignment to one child (`node_child.rs:102-109`) -/
def Node.setChild (n : Node) (dir : Bool) (c : Int) : Node :=
  if dir then { n with right := c } else { n with left := c }

/-- count of the edge in the given direction (`context.rs:52-57`) -/
def Node.count (n : Node) (dir : Bool) : Nat := if dir then n.rightCount else n.leftCount

/-- `Node::new` (`node.rs:90-111`) -/
def nodeNew (textStart est depth : Nat) (costs : Costs) (runs leftCount rightCount recent : Nat)
    (left right : Int) : Option Node := do
  check (textStart < 2 ^ 31)
  check (depth < 2 ^ 16)
  check (leftCount < 2 ^ 16)
  check (rightCount < 2 ^ 16)
  check (recent ≠ 0)
  some { left := left, right := right, textStart := wrapU32 textStart, est := est, costs := costs, runs := runs,
         recent := recent, depth := wrapU16 depth, leftCount := leftCount, rightCount := rightCount }

/-- the counters part of `Node::update_on_next_bit` (`node.rs:158-163`) -/
def countBit (n : Node) (b : Bool) : Option Node :=
  if b then do
    let c ← u16 (n.rightCount + 1)
    some { n with rightCount := min 1000 c }
  else do
    let c ← u16 (n.leftCount + 1)
    some { n with leftCount := min 1000 c }

/-- `Node::update_on_next_bit` (`node.rs:154-168`) -/
def updateOnNextBit (luts : Luts) (n : Node) (b : Bool) (costs : Costs) : Option Node := do
  let n ← countBit n b
  let u ← State.runsUpdated n.runs b
  let r ← State.recentUpdated n.recent b
  let e ← Est.decUpdate luts.rates n.est b
  some { n with runs := u, recent := r, est := e, costs := costs }

/-! ## `Tree` and `Context` -/

/-- `Tree` (`mod.rs:104-110`); `proper` is the `TreeState` -/
structure Tree where
  nodes : Nodes
  window : Win
  proper : Bool

/-- `Context` (`context.rs:32-39`) -/
structure Ctx where
  suffix : Nat
  node : Nat
  incoming : Int
  inLeaf : Bool
  dir : Option Bool
  deriving DecidableEq, Repr

/-- the node index of the child or its text start update (`context.rs:61-72`) -/
def descendChild (t : Tree) (ctx : Ctx) (order : Nat) (b : Bool) (child : Int) : Option (Tree × Ctx) :=
  if childIsWindow child then do
    let s ← childToWindow child
    let i ← indexSubtract t.window t.window.cursor order
    let c ← childOfWindow i
    let n ← nodesGet t.nodes ctx.node
    let ns ← nodesSet t.nodes ctx.node (n.setChild b c)
    some ({ t with nodes := ns }, { ctx with inLeaf := true, suffix := s })
  else do
    let v ← childToNode child
    let n ← nodesGet t.nodes v
    let i ← indexSubtract t.window t.window.cursor order
    let ns ← nodesSet t.nodes v { n with textStart := wrapU32 i }
    some ({ t with nodes := ns }, { ctx with node := v, suffix := n.textStart })

/-- `Context::descend` (`context.rs:42-76`) -/
def descend (luts : Luts) (t : Tree) (ctx : Ctx) (order bitIndex : Nat) (costs : Costs) :
    Option (Tree × Ctx) := do
  check (ctx.inLeaf = false)
  let b ← winGetBit t.window t.window.cursor bitIndex
  let n ← nodesGet t.nodes ctx.node
  let n' ← updateOnNextBit luts n b costs
  let ns ← nodesSet t.nodes ctx.node n'
  descendChild { t with nodes := ns } { ctx with dir := some b, incoming := (n.count b : Int) } order b (n'.child b)

/-- `ActiveContexts::shift` (`context.rs:103-124`); the capacity of the vector is `maxOrder + 1`
(`context.rs:98-102`, `126-128`) -/
def shift (maxOrder : Nat) (t : Tree) (ctxs : List Ctx) : Option (Tree × List Ctx) :=
  if t.proper then do
    let ctxs := if maxOrder + 1 = ctxs.length then ctxs.dropLast else ctxs
    let root ← nodesGet t.nodes 0
    let ns ← nodesSet t.nodes 0 { root with textStart := wrapU32 t.window.cursor }
    let sum ← u16 (root.leftCount + root.rightCount)
    let s ← indexDecrement t.window t.window.cursor
    some ({ t with nodes := ns },
      { suffix := s, node := 0, inLeaf := false, incoming := (min 1000 sum : Nat), dir := none } :: ctxs)
  else do
    check (ctxs.length = 0)
    some (t, ctxs)

/-- the depth compared with (`mod.rs:430`, `495`, `603`, `647`) -/
def depthOf (order bitIndex : Nat) : Option Nat := do
  let m ← usize (order * 8)
  let a ← usize (m + 7)
  subU a bitIndex

/-- `as u16` of an `i32` (`src/history/tree/mod.rs:448`, `588`) -/
def i32AsU16 (z : Int) : Nat := (z % 2 ^ 16).toNat

/-- `Tree::setup_split_edge` (`mod.rs:583-610`) -/
def setupSplitEdge (luts : Luts) (t : Tree) (ctx : Ctx) (order bitIndex textStart : Nat) : Option Node := do
  check (ctx.incoming ≠ -1)
  let count := i32AsU16 ctx.incoming
  let b ← winGetBit t.window t.window.cursor bitIndex
  let est ← Est.cacheForNewNode luts.cache b (min 1000 count)
  let cost ← Log2.costForNewNode luts.costs count
  let runs ← State.runsForNewNode b count
  let recent ← State.recentForNewNode b count
  let depth ← depthOf order bitIndex
  nodeNew textStart est depth (cost, cost) runs (if b then count else 1) (if b then 1 else count) recent
    childInvalid childInvalid

/-- `Tree::split_edge` (`mod.rs:541-581`) -/
def splitEdge (luts : Luts) (t : Tree) (ctx : Ctx) (order bitIndex : Nat) : Option Tree := do
  let b ← winGetBit t.window t.window.cursor bitIndex
  if ctx.inLeaf = false then do
    let new ← nodesGet t.nodes ctx.node
    let node ← setupSplitEdge luts t ctx order bitIndex new.textStart
    let i ← indexSubtract t.window t.window.cursor order
    let c ← childOfWindow i
    let (ns, c') ← addNode t.nodes { new with textStart := wrapU32 ctx.suffix }
    let ns ← updateNode ns ctx.node ((node.setChild b c).setChild (!b) c')
    some { t with nodes := ns }
  else do
    let node ← nodesGet t.nodes ctx.node
    let dir ← ctx.dir
    let ts ← childToWindow (node.child dir)
    let new ← setupSplitEdge luts t ctx order bitIndex ts
    let i ← indexSubtract t.window t.window.cursor order
    let c ← childOfWindow i
    let cs ← childOfWindow ctx.suffix
    let (ns, c') ← addNode t.nodes ((new.setChild b c).setChild (!b) cs)
    let ns ← updateNode ns ctx.node (node.setChild dir c')
    some { t with nodes := ns }

/-- the correction of a context whose leaf has been split (`mod.rs:481-492`) -/
def correctCtx (t : Tree) (ctx : Ctx) : Option Ctx :=
  if ctx.inLeaf then do
    let n ← nodesGet t.nodes ctx.node
    let dir ← ctx.dir
    if childIsWindow (n.child dir) then some ctx
    else do
      let v ← childToNode (n.child dir)
      some { ctx with inLeaf := false, node := v }
  else some ctx

/-- state of the loop of `extend`: tree, contexts, `count` (`src/history/tree/mod.rs:472-535`) -/
structure Loop where
  tree : Tree
  ctxs : List Ctx
  count : Nat

/-- one order of `extend`, once the context is corrected (`mod.rs:493-517`) -/
def extendCtx (luts : Luts) (costs : List Costs) (bitIndex order : Nat) (ctx : Ctx) (s : Loop) : Option Loop := do
  let n ← nodesGet s.tree.nodes ctx.node
  let depth ← depthOf order bitIndex
  if n.depth = depth then do
    check (ctx.inLeaf = false)
    let c ← costs[order]?
    let (t, ctx) ← descend luts s.tree ctx order bitIndex c
    some { s with tree := t, ctxs := s.ctxs.set order ctx }
  else do
    check (order ≥ costs.length)
    let i ← indexAdd s.tree.window ctx.suffix order
    let differ ← bytesDifferOn s.tree.window i s.tree.window.cursor bitIndex
    if differ then do
      let d ← usize (order * 8)
      check (ctx.inLeaf = true ∨ n.depth ≥ d)
      let t ← splitEdge luts s.tree ctx order bitIndex
      let c ← subU s.count 1
      check (c = order)
      some { tree := t, ctxs := s.ctxs.set order ctx, count := order }
    else some { s with ctxs := s.ctxs.set order ctx }

/-- one order of `extend` (`mod.rs:480-517`) -/
def extendOne (luts : Luts) (costs : List Costs) (bitIndex order : Nat) (s : Loop) : Option Loop := do
  let ctx ← s.ctxs[order]?
  let ctx ← correctCtx s.tree ctx
  extendCtx luts costs bitIndex order ctx s

/-- the loop of `extend` (`mod.rs:478-518`), from the highest order down -/
def extendOrders (luts : Luts) (costs : List Costs) (bitIndex : Nat) : Nat → Loop → Option Loop
  | 0, s => some s
  | order + 1, s => do
    let s ← extendOne luts costs bitIndex order s
    extendOrders luts costs bitIndex order s

/-- the node made for one order by `split_degenerate_root_edge` (`mod.rs:622-654`); the argument is the
child of the previous iteration -/
def degenerateNode (luts : Luts) (t : Tree) (b : Bool) (bitIndex order : Nat) (last : Option Int) :
    Option Node := do
  let start ← indexSubtract t.window t.window.cursor order
  let branching ← childOfWindow start
  let before ← indexDecrement t.window start
  let before ← childOfWindow before
  let chained := last.getD before
  let dist ← indexDiff t.window start t.window.start
  let count := min 1000 dist
  let est ← Est.cacheForNewNode luts.cache b count
  let recent ← State.recentForNewNode b count
  let runs ← State.runsForNewNode b count
  let cost ← Log2.costForNewNode luts.costs count
  let depth ← depthOf order bitIndex
  nodeNew start est depth (cost, cost) runs (if b then count else 1) (if b then 1 else count) recent
    (if b then chained else branching) (if b then branching else chained)

/-- the loop of `split_degenerate_root_edge` (`mod.rs:621-663`) from the highest order down -/
def degenerateOrders (luts : Luts) (t : Tree) (b : Bool) (bitIndex : Nat) :
    Nat → Option Int → Nodes → Option Nodes
  | 0, last, ns => do
    let node ← degenerateNode luts t b bitIndex 0 last
    updateNode ns 0 node
  | order + 1, last, ns => do
    let node ← degenerateNode luts t b bitIndex (order + 1) last
    let (ns, c) ← addNode ns node
    degenerateOrders luts t b bitIndex order (some c) ns

/-- `Tree::split_degenerate_root_edge` (`mod.rs:612-664`) -/
def splitDegenerate (luts : Luts) (t : Tree) (order bitIndex : Nat) : Option Tree := do
  let b ← winGetBit t.window t.window.cursor bitIndex
  let ns ← degenerateOrders luts t b bitIndex order none t.nodes
  some { t with nodes := ns }

/-- `Vec::split_off` as used by `keep_only` (`context.rs:134-136`) -/
def keepOnly (ctxs : List Ctx) (count : Nat) : Option (List Ctx) := do
  check (count ≤ ctxs.length)
  some (ctxs.take count)

/-- the test of the degenerate branch of `extend` (`mod.rs:523-526`), with its short circuit -/
def degenerateDiffers (w : Win) (bitIndex : Nat) : Option Bool :=
  if w.size ≥ 2 then do
    let i ← indexDecrement w w.cursor
    bytesDifferOn w i w.cursor bitIndex
  else some false

/-- `Tree::extend` (`mod.rs:472-535`) -/
def extend (luts : Luts) (t : Tree) (ctxs : List Ctx) (costs : List Costs) (b : Bool) (bitIndex maxOrder : Nat) :
    Option (Tree × List Ctx) := do
  let w ← setBitAtCursor t.window b bitIndex
  let t := { t with window := w }
  if t.proper then do
    let s ← extendOrders luts costs bitIndex ctxs.length ⟨t, ctxs, ctxs.length⟩
    let ctxs ← keepOnly s.ctxs s.count
    some (s.tree, ctxs)
  else do
    check (ctxs.length = 0)
    let differ ← degenerateDiffers w bitIndex
    if differ then do
      let t ← splitDegenerate luts t (min maxOrder (w.size - 2)) bitIndex
      some ({ t with proper := true }, ctxs)
    else some (t, ctxs)

/-- one context of `gather_states` (`mod.rs:422-451`) -/
def gatherOne (t : Tree) (bitIndex order : Nat) (ctx : Ctx) : Option (Option CtxState) := do
  let n ← nodesGet t.nodes ctx.node
  let current ← indexSubtract t.window t.window.cursor order
  let smaller ← indexIsSmaller t.window ctx.suffix current
  check (smaller = true)
  let dist ← indexDiff t.window current ctx.suffix
  let depth ← depthOf order bitIndex
  if n.depth = depth then some (some (.node dist n.est n.recent n.runs n.costs))
  else do
    check (ctx.incoming ≠ -1)
    if ctx.incoming > 0 then do
      let i ← indexAdd t.window ctx.suffix order
      let b ← winGetBit t.window i bitIndex
      some (some (.edge dist (i32AsU16 ctx.incoming) b))
    else some none

/-- the loop over the contexts (`mod.rs:420-452`), from the given order on -/
def gatherProper (t : Tree) (bitIndex : Nat) : Nat → List Ctx → Option (List CtxState)
  | _, [] => some []
  | order, ctx :: ctxs => do
    let s ← gatherOne t bitIndex order ctx
    let rest ← gatherProper t bitIndex (order + 1) ctxs
    some (s.toList ++ rest)

/-- one order of the degenerate branch of `gather_states` (`mod.rs:458-467`) -/
def gatherDegenerateOne (t : Tree) (bitIndex order : Nat) : Option CtxState := do
  let a ← subU t.window.size order
  let a ← subU a 1
  let b ← winGetBit t.window t.window.start bitIndex
  some (.edge 1 (min 1000 a) b)

/-- `Tree::gather_states` (`mod.rs:413-470`), started on an empty collection -/
def gatherStates (t : Tree) (ctxs : List Ctx) (bitIndex maxOrder : Nat) : Option (List CtxState) :=
  if t.proper then do
    check (t.window.cursor ≠ t.window.start)
    gatherProper t bitIndex 0 ctxs
  else do
    check (ctxs.length = 0)
    let a ← subU t.window.size 1
    (List.range (min (maxOrder + 1) a)).mapM (gatherDegenerateOne t bitIndex)

/-! ## Removal of the oldest suffix -/

/-- result of the walk from the root to the leaf of the oldest suffix (`src/history/tree/mod.rs:133-155`) -/
structure Found where
  parent : Option (Nat × Bool)
  node : Nat
  dir : Bool
  sibling : Int
  leaf : Nat

/-- the walk (`mod.rs:138-159`). Every step goes one level down the tree; the number of steps is bounded by
`fuel`, running out of which is a panic of the model only; depths are 16 bit numbers that grow along the
walk. -/
def walk (t : Tree) : Nat → Option (Nat × Bool) → Nat → Option Found
  | 0, _, _ => none
  | fuel + 1, parent, v => do
    let n ← nodesGet t.nodes v
    let i ← indexAdd t.window t.window.start (n.depth / 8)
    let b ← winGetBit t.window i (7 - n.depth % 8)
    let child := n.child b
    if childIsNode child then do
      let v' ← childToNode child
      walk t fuel (some (v, b)) v'
    else do
      let leaf ← childToWindow child
      some { parent := parent, node := v, dir := b, sibling := n.child (!b), leaf := leaf }

/-- the loop dropping the contexts last seen at the oldest suffix (`mod.rs:169-175`), from the highest order
down -/
def dropContexts (start : Nat) : List Ctx → Nat → Option Nat
  | [], count => some count
  | ctx :: ctxs, count =>
    if ctx.suffix = start then do
      let c ← subU count 1
      check (c = ctxs.length)
      dropContexts start ctxs c
    else dropContexts start ctxs count

/-- a context of a removed node with a leaf left (`mod.rs:225-233`) -/
def toLeaf (v p : Nat) (dir : Bool) (ctx : Ctx) : Ctx :=
  if ctx.node = v then { ctx with node := p, dir := some dir, inLeaf := true } else ctx

/-- a context of a removed node with a node left (`mod.rs:238-246`) -/
def toSibling (v w : Nat) (dir : Bool) (ctx : Ctx) : Ctx :=
  if ctx.node = v then { ctx with node := w, dir := some dir, inLeaf := false } else ctx

/-- removal of the leaf at the root (`mod.rs:177-207`) -/
def removeAtRoot (t : Tree) (ctxs : List Ctx) (f : Found) : Option (Tree × List Ctx) := do
  check (f.parent = none)
  if childIsNode f.sibling then do
    let w ← childToNode f.sibling
    let ctxs := ctxs.map fun ctx => if ctx.node = w then { ctx with node := 0 } else ctx
    let n ← nodesGet t.nodes w
    let root ← nodesGet t.nodes 0
    let ns ← updateNode t.nodes 0 { n with textStart := root.textStart }
    let ns ← deleteNode ns w
    some ({ t with nodes := ns }, ctxs)
  else do
    let ctxs ← keepOnly ctxs 0
    let ns ← updateNode t.nodes 0 nodeInvalid
    some ({ t with nodes := ns, proper := false }, ctxs)

/-- removal of a leaf of a node of some context (`mod.rs:208-257`) -/
def removeActive (t : Tree) (ctxs : List Ctx) (f : Found) : Option (Tree × List Ctx) := do
  check (f.node ≥ 1)
  check ((ctxs.any fun ctx => ctx.node = f.node && ctx.dir = some f.dir && ctx.inLeaf) = false)
  let (p, dir) ← f.parent
  if childIsWindow f.sibling then do
    let ctxs := ctxs.map (toLeaf f.node p dir)
    let n ← nodesGet t.nodes f.node
    let c ← childOfWindow n.textStart
    let pn ← nodesGet t.nodes p
    let ns ← nodesSet t.nodes p (pn.setChild dir c)
    let ns ← deleteNode ns f.node
    some ({ t with nodes := ns }, ctxs)
  else do
    let w ← childToNode f.sibling
    let ctxs := ctxs.map (toSibling f.node w dir)
    let wn ← nodesGet t.nodes w
    let n ← nodesGet t.nodes f.node
    let ns ← updateNode t.nodes w { wn with textStart := n.textStart }
    let pn ← nodesGet ns p
    let ns ← nodesSet ns p (pn.setChild dir f.sibling)
    let ns ← deleteNode ns f.node
    some ({ t with nodes := ns }, ctxs)

/-- removal of a leaf of a node without contexts (`mod.rs:258-272`) -/
def removeInactive (t : Tree) (ctxs : List Ctx) (f : Found) : Option (Tree × List Ctx) := do
  check (f.node ≥ 1)
  let (p, dir) ← f.parent
  let pn ← nodesGet t.nodes p
  let ns ← nodesSet t.nodes p (pn.setChild dir f.sibling)
  let ns ← deleteNode ns f.node
  some ({ t with nodes := ns }, ctxs)

/-- the choice between the cases of the removal (`mod.rs:160-272`) -/
def removeFound (t : Tree) (ctxs : List Ctx) (f : Found) : Option (Tree × List Ctx) :=
  if f.leaf ≠ t.window.start then do
    let count ← dropContexts t.window.start ctxs.reverse ctxs.length
    let ctxs ← keepOnly ctxs count
    some (t, ctxs)
  else if f.node < 1 then removeAtRoot t ctxs f
  else if ctxs.any fun ctx => ctx.node = f.node then removeActive t ctxs f
  else removeInactive t ctxs f

/-- `Tree::remove_leftmost_suffix` (`mod.rs:127-274`) -/
def removeLeftmost (t : Tree) (ctxs : List Ctx) : Option (Tree × List Ctx) :=
  if t.proper then do
    let f ← walk t 65536 none 0
    let (t, ctxs) ← removeFound t ctxs f
    let w ← advanceStart t.window
    some ({ t with window := w }, ctxs)
  else do
    let w ← advanceStart t.window
    some ({ t with window := w }, ctxs)

/-- the sliding part of `Tree::start_new_byte` (`mod.rs:118-122`) -/
def makeRoom (t : Tree) (ctxs : List Ctx) : Option (Tree × List Ctx) :=
  if t.window.size = t.window.max then do
    let (t, ctxs) ← removeLeftmost t ctxs
    let next ← indexIncrement t.window t.window.cursor
    let byte ← t.window.buffer[next]?
    check (byte = 0)
    some (t, ctxs)
  else some (t, ctxs)

/-- `Tree::start_new_byte` (`mod.rs:117-125`) -/
def treeStart (t : Tree) (ctxs : List Ctx) : Option (Tree × List Ctx) := do
  let (t, ctxs) ← makeRoom t ctxs
  check (t.window.size < t.window.max)
  let w ← advanceCursor t.window
  some ({ t with window := w }, ctxs)

/-! ## `TreeHistorySource` -/

/-- `TreeHistorySource` (`mod.rs:38-42`) -/
structure Src where
  tree : Tree
  ctxs : List Ctx
  bitIndex : Int
  maxOrder : Nat

/-- `TreeHistorySource::new_special` (`mod.rs:45-56`) -/
def srcNew (maxWindow maxOrder shift : Nat) : Option Src := do
  check (maxWindow > 0)
  check (shift < maxWindow)
  let ns ← nodesNew (max 1 (maxWindow - 1))
  let w ← winNew maxWindow shift
  some ⟨⟨ns, w, false⟩, [], -1, maxOrder⟩

/-- `TreeHistorySource::start_new_byte` (`mod.rs:72-77`) -/
def srcStart (s : Src) : Option Src := do
  check (s.bitIndex = -1)
  let (t, ctxs) ← treeStart s.tree s.ctxs
  let (t, ctxs) ← shift s.maxOrder t ctxs
  some { s with tree := t, ctxs := ctxs, bitIndex := 7 }

/-- `TreeHistorySource::gather_history_states` (`mod.rs:79-84`) -/
def srcGather (s : Src) : Option (List CtxState) := do
  check (s.bitIndex ≥ 0)
  gatherStates s.tree s.ctxs (i32AsUsize s.bitIndex) s.maxOrder

/-- `TreeHistorySource::process_input_bit` (`mod.rs:86-93`) -/
def srcProcess (luts : Luts) (s : Src) (b : Bool) (costs : List Costs) : Option Src := do
  check (s.bitIndex ≥ 0)
  let (t, ctxs) ← extend luts s.tree s.ctxs costs b (i32AsUsize s.bitIndex) s.maxOrder
  some { s with tree := t, ctxs := ctxs, bitIndex := s.bitIndex - 1 }

/-- the tree as a history source (`src/history/tree/mod.rs:66-100`) -/
def treeSource (luts : Luts) : Source Src := ⟨srcStart, srcGather, srcProcess luts⟩

end Verif.Tree
