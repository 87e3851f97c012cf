import Verif.State.Model
import Verif.Tree.Model

/-!
# What the listing of a tree is

The lines of a subtree, written with Lean's strings: first that of its root, then those of the subtree for bit 0, then
those of the subtree for bit 1, three blanks further to the right.
-/

namespace Verif.Tree

/-- the line of a node: window position of its text, depth, recent bits in binary, counts of both bits, number -/
def wantedNode (nd : Node) (v : Nat) : String :=
  let recent := String.ofList (Nat.toDigits 2 (State.recentLast7 nd.recent))
  s!"{nd.textStart}'{nd.depth}'{recent}'l({nd.leftCount})r({nd.rightCount}) = {v}"

/-- the listing of the subtree of the child `c`, indented by `d` steps -/
inductive Draws (items : List Node) : Nat → Int → List (List Char) → Prop
  | leaf (d i : Nat) : Draws items d i [List.replicate (3 * d) ' ' ++ (toString i).toList]
  | node {d v : Nat} {nd : Node} {l r : List (List Char)} : items[v]? = some nd → nd.left ≠ -1 → nd.right ≠ -1 →
      Draws items (d + 1) nd.left l → Draws items (d + 1) nd.right r →
      Draws items d (-(v : Int) - 1) ((List.replicate (3 * d) ' ' ++ (wantedNode nd v).toList) :: (l ++ r))

/-- two nodes that look the same in a listing -/
structure LooksLike (a b : Node) : Prop where
  left : a.left = b.left
  right : a.right = b.right
  text : a.textStart = b.textStart
  depth : a.depth = b.depth
  recent : State.recentLast7 a.recent = State.recentLast7 b.recent
  leftCount : a.leftCount = b.leftCount
  rightCount : a.rightCount = b.rightCount

/-- the text of a context -/
def wantedCtx (c : Ctx) : String :=
  let dir := match c.dir with
    | none => "none"
    | some false => "left"
    | some true => "right"
  s!"sfx:{c.suffix},node:{c.node},incnt:{c.incoming},inleaf:{c.inLeaf},dir:{dir}"

/-- the text of a list of contexts -/
def wantedCtxs (l : List Ctx) : String := "active contexts: [" ++ "  ".intercalate (l.map wantedCtx) ++ "]"

end Verif.Tree
