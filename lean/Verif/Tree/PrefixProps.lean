import Verif.Tree.Props

/-!
# C31 for the tree: deterministic contexts follow branching ones, for inputs of any length
-/

namespace Verif.Tree

open Verif Verif.History Verif.Window

/-- **C31 (tree).** In every chain gathered by the tree source, for inputs of any length and whatever has left the window, the
branching contexts form a prefix, as in C31_prefix for the reference. -/
theorem C31_tree (luts : Luts) (h : LutsOk luts) (W sh maxOrder : Nat) (hW : W ≤ 2 ^ 31) (hsh : sh < W)
    (hM : maxOrder ≤ 8191) (hist : List Bool) (upd : List CtxState → Bool → List Costs)
    (hu : ∀ l b, (upd l b).length = (l.filter CtxState.isNode).length) :
    ∃ states, observe (treeSource luts) upd (srcNew W maxOrder sh) hist = some states ∧
      states.length ≤ maxOrder + 1 ∧
      (∀ i s s', states[i]? = some s → states[i + 1]? = some s' → s'.isNode = true → s.isNode = true) ∧
      ∀ i s, states[i]? = some s → (s.isNode = true ↔ i < (states.filter CtxState.isNode).length) := by
  obtain ⟨states, h1, h2⟩ := C30_any_length luts h W sh maxOrder hW hsh hM hist upd hu
  refine ⟨states, h1, ?_, fun i s s' => h2.antitone, fun i s => prefix_count states (fun i s s' => h2.antitone) i s⟩
  by_contra hl
  have := ((h2.lt_length (maxOrder + 1)).mp (by omega)).1
  omega

/-- the hypotheses are met: 5 bytes in a window of 2 bytes -/
example : ∃ luts, LutsOk luts ∧ ∃ states, observe (treeSource luts)
    (fun l _ => List.replicate (l.filter CtxState.isNode).length costsDefault) (srcNew 2 3 1)
    (List.replicate 40 true) = some states ∧ states.length ≤ 4 := by
  obtain ⟨luts, h⟩ := luts_exist
  obtain ⟨states, h1, h2, -⟩ := C31_tree luts h 2 1 3 (by norm_num) (by norm_num) (by norm_num)
    (List.replicate 40 true) (fun l _ => List.replicate (l.filter CtxState.isNode).length costsDefault)
    (fun l b => by simp)
  exact ⟨luts, h, states, h1, h2⟩

end Verif.Tree
