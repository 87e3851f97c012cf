import Verif.Tree.Nodes

/-!
# What the integrity check is about: finite trees in the node pool

A child is a window position `i` or the code `-v - 1` of node `v`. `Unfolds` does not mention stacks, traversals or
counters.
-/

namespace Verif.Tree

/-- Following the children from `c` gives a finite binary tree with the listed nodes and leaves. A node that is reached in
two ways is listed twice; the order of the nodes is immaterial. The root is never a child. -/
inductive Unfolds (items : List Node) : Int → List Nat → List Nat → Prop
  | leaf (i : Nat) : Unfolds items i [] [i]
  | node {v : Nat} {nd : Node} {nl ll nr lr : List Nat} : items[v]? = some nd → nd.left ≠ -1 → nd.right ≠ -1 →
      Unfolds items nd.left nl ll → Unfolds items nd.right nr lr →
      Unfolds items (-(v : Int) - 1) (v :: (nr ++ nl)) (ll ++ lr)

end Verif.Tree
