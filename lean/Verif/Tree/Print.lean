import Verif.Text
import Verif.Tree.Model

/-!
# Model of the listing of a tree

`Tree::print` and the `fmt` implementations of nodes and contexts. The printed text is a list of lines, each a list of
characters; text that is printed before a panic is lost in the model. The recursion gets fuel; a recursion that is deeper
than the number of nodes visits a node inside itself, so it does not end.
-/

namespace Verif.Tree

open Verif Verif.Text

/-- the indentation (`mod.rs:377`, `382`, `389`) -/
def indent (depth : Nat) : List Char := (List.replicate depth [' ', ' ', ' ']).flatten

/-- `impl fmt::Display for Node` (`node.rs:171-178`) -/
def nodeText (nd : Node) : List Char :=
  dec nd.textStart ++ ['\''] ++ dec nd.depth ++ ['\''] ++ bin (State.recentLast7 nd.recent) ++ ['\'', 'l', '('] ++
    dec nd.leftCount ++ [')', 'r', '('] ++ dec nd.rightCount ++ [')']

/-- the line of a node (`mod.rs:377`); `NodeIndex` is displayed as its number (`nodes.rs:43-47`) -/
def nodeLine (nd : Node) (v depth : Nat) : List Char := indent depth ++ nodeText nd ++ [' ', '=', ' '] ++ dec v

/-- the line of a leaf (`mod.rs:382-383`); `WindowIndex` is displayed as its number (`window.rs:41-45`) -/
def leafLine (i depth : Nat) : List Char := indent depth ++ dec i

/-- the lines of one child (`mod.rs:378-384`, `385-391`); `print` prints a node -/
def printChild (print : Nat → Option (List (List Char))) (c : Int) (depth : Nat) : Option (List (List Char)) :=
  if childIsNode c then do
    let w ← childToNode c
    print w
  else do
    let i ← childToWindow c
    some [leafLine i depth]

/-- `Tree::print_node` (`mod.rs:374-392`); the second number is the node, the third the depth of the indentation -/
def printNode (t : Tree) : Nat → Nat → Nat → Option (List (List Char))
  | 0, _, _ => none
  | fuel + 1, v, depth => do
    let nd ← nodesGet t.nodes v
    check (nodeIsValid nd = true)
    let left ← printChild (fun w => printNode t fuel w (depth + 1)) nd.left (depth + 1)
    let right ← printChild (fun w => printNode t fuel w (depth + 1)) nd.right (depth + 1)
    some (nodeLine nd v depth :: (left ++ right))

/-- `Tree::print` (`mod.rs:365-372`) -/
def printTree (t : Tree) : Option (List (List Char)) :=
  if t.proper then printNode t t.nodes.items.length 0 0 else some [['E', 'm', 'p', 't', 'y', ' ', 't', 'r', 'e', 'e']]

/-- the name of a direction (`context.rs:86-87`) -/
def dirText : Option Bool → List Char
  | none => ['n', 'o', 'n', 'e']
  | some false => ['l', 'e', 'f', 't']
  | some true => ['r', 'i', 'g', 'h', 't']

/-- `{}` of a `bool` (`src/history/tree/context.rs:81`) -/
def boolText : Bool → List Char
  | false => ['f', 'a', 'l', 's', 'e']
  | true => ['t', 'r', 'u', 'e']

/-- `impl fmt::Display for Context` (`context.rs:79-89`) -/
def ctxText (c : Ctx) : List Char :=
  ['s', 'f', 'x', ':'] ++ dec c.suffix ++ [',', 'n', 'o', 'd', 'e', ':'] ++ dec c.node ++
    [',', 'i', 'n', 'c', 'n', 't', ':'] ++ decInt c.incoming ++ [',', 'i', 'n', 'l', 'e', 'a', 'f', ':'] ++
    boolText c.inLeaf ++ [',', 'd', 'i', 'r', ':'] ++ dirText c.dir

/-- `impl fmt::Display for ActiveContexts` (`context.rs:191-202`) -/
def ctxsText (ctxs : List Ctx) : List Char :=
  "active contexts: [".toList ++
    (match ctxs with
      | [] => []
      | c :: rest => ctxText c ++ (rest.map fun c => [' ', ' '] ++ ctxText c).flatten) ++ [']']

end Verif.Tree
