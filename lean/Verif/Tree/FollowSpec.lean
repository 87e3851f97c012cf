import Verif.History.Bridge
import Verif.Tree.Nodes

/-!
# What the integrity check is about: the way of a suffix down the tree

Suffixes are given by their age, the text by its bits. `Follows` does not mention comparisons of the window, distances of
positions or fuel.
-/

namespace Verif.Tree

open Verif Verif.History Verif.Window

/-- the texts that start with the bytes of ages `a` and `b` agree on `n` bits -/
def Agree (w : Win) (a b n : Nat) : Prop :=
  ∀ k < n, bitAt (contents w) (8 * a + k) = bitAt (contents w) (8 * b + k)

/-- The suffix of age `s` can be followed down the tree from the child `c` of a node. At a leaf and at every node on the
way the text must not be older than the suffix, and it must agree with it: at a node on the depth of the node, at a
leaf on `maxOrder` bytes, in both cases on no more than the whole bytes before the last one of the window. The way
ends at a leaf, at a node whose text reaches the last byte, or where the bit after the depth differs. -/
inductive Follows (items : List Node) (w : Win) (maxOrder s : Nat) : Int → Prop
  | leaf {a : Nat} : a < w.size → s ≤ a → Agree w s a (8 * min maxOrder (w.size - 1 - a)) →
      Follows items w maxOrder s (posOf w a)
  | reaches {v : Nat} {nd : Node} {a : Nat} : items[v]? = some nd → nd.depth ≤ 8 * maxOrder + 7 →
      a < w.size → nd.textStart = posOf w a → s ≤ a → w.size - 1 ≤ a + nd.depth / 8 → Agree w s a (8 * (w.size - 1 - a)) →
      Follows items w maxOrder s (-(v : Int) - 1)
  | differs {v : Nat} {nd : Node} {a : Nat} : items[v]? = some nd → nd.depth ≤ 8 * maxOrder + 7 →
      a < w.size → nd.textStart = posOf w a → s ≤ a → a + nd.depth / 8 < w.size - 1 → Agree w s a nd.depth →
      bitAt (contents w) (8 * s + nd.depth) ≠ bitAt (contents w) (8 * a + nd.depth) →
      Follows items w maxOrder s (-(v : Int) - 1)
  | descends {v : Nat} {nd : Node} {a : Nat} : items[v]? = some nd → nd.depth ≤ 8 * maxOrder + 7 →
      a < w.size → nd.textStart = posOf w a → s ≤ a → a + nd.depth / 8 < w.size - 1 → Agree w s a (nd.depth + 1) →
      Follows items w maxOrder s (if bitAt (contents w) (8 * s + nd.depth) then nd.right else nd.left) →
      Follows items w maxOrder s (-(v : Int) - 1)

end Verif.Tree
