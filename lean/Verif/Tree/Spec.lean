import Verif.History.Props
import Verif.Tree.Model

/-!
# Specification of the context states reported by the history tree

The tree forgets the oldest byte when its window is full. What it reports is specified by the history
restricted to the window.
-/

namespace Verif.Tree

open Verif Verif.History

/-- the bits of the history that are in a window of `W` bytes, the last of which is the byte in progress -/
def windowed (W : Nat) (hist : List Bool) : List Bool := hist.drop (8 * (hist.length / 8 + 1 - W))

/-- the state of a context that has been followed, within the window, by the bits `bits`, last at
distance `d`. When both bits are among them the state has the statistics of a sequence of bits that ends
with `bits`; otherwise it has the repeated bit and a count not below the number of bits. If nothing has been
forgotten (`exact`) the sequence and the number are those within the window. -/
def WindowState (P : List Bool → Costs → Prop) (table : List Nat) (exact : Prop) (d : Nat) (bits : List Bool) (s : CtxState) :
    Prop :=
  (true ∈ bits ∧ false ∈ bits ∧
    ∃ q c, P q c ∧ bits <:+ q ∧ (exact → bits = q) ∧ specState table d q c = some s) ∨
  (∃ b C, bits ≠ [] ∧ (∀ x ∈ bits, x = b) ∧ bits.length ≤ C ∧ (exact → bits.length = C) ∧
    s = .edge d (min 1000 C) b)

/-- a state for every order whose context has occurred in the window -/
def WindowGather (P : List Bool → List Bool → Costs → Prop) (table : List Nat) (exact : Prop) (maxOrder : Nat) (hist : List Bool)
    (states : List CtxState) : Prop :=
  List.Forall₂ (fun k s => WindowState (P (context hist k)) table exact (lastDist hist k) (following hist k) s)
    (orders hist maxOrder) states

/-! ## The shape of the tree -/

/-- the bits `s` have been read from byte `i` of the history on -/
def ReadAt (hist : List Bool) (s : List Bool) (i : Nat) : Prop :=
  8 * i + s.length ≤ hist.length ∧ (hist.drop (8 * i)).take s.length = s

/-- the bits `s`, at most `D`, have been followed by both a 0 and a 1 -/
def Branches (hist : List Bool) (D : Nat) (s : List Bool) : Prop :=
  s.length ≤ D ∧ ∀ b, ∃ i, ReadAt hist (s ++ [b]) i

/-- `t` is the tree of all branching strings of the history `hist`, which starts at the start of the window.
Nodes are labelled by strings. A child is the last place where the label and the bit have been read if no
branching string starts with them, otherwise the node of the shortest branching string that does, whose text starts
at that place. -/
structure TreeShape (t : Tree) (hist : List Bool) (D : Nat) (live : Nat → Option Node) (label : Nat → List Bool) :
    Prop where
  node : ∀ v nd, live v = some nd → nodesGet t.nodes v = some nd
  root : ∃ nd, live 0 = some nd
  rootPrefix : ∀ s, Branches hist D s → label 0 <+: s
  sound : ∀ v nd, live v = some nd → Branches hist D (label v) ∧ nd.depth = (label v).length
  complete : ∀ s, Branches hist D s → ∃ v nd, live v = some nd ∧ label v = s
  injective : ∀ v w nv nw, live v = some nv → live w = some nw → label v = label w → v = w
  child : ∀ v nd b, live v = some nd → ∃ i, ReadAt hist (label v ++ [b]) i ∧
    (∀ i', ReadAt hist (label v ++ [b]) i' → i' ≤ i) ∧
    (((∀ s, Branches hist D s → ¬ label v ++ [b] <+: s) ∧
        nd.child b = (((t.window.start + i) % t.window.max : Nat) : Int)) ∨
      ∃ w nw, 1 ≤ w ∧ live w = some nw ∧ nd.child b = -(w : Int) - 1 ∧
        label v ++ [b] <+: label w ∧ (∀ s, Branches hist D s → label v ++ [b] <+: s → label w <+: s) ∧
        nw.textStart = (t.window.start + i) % t.window.max)

end Verif.Tree
