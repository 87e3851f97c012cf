import Verif.Tree.CheckLemmas
import Verif.Tree.ShapeProps

/-!
# C60: the integrity check passes before every removal while the window is shrunk
-/

namespace Verif.Tree

open Verif Verif.History Verif.Window

variable {Pc : Str → List Bool → Costs → Prop} {Ic : Nat → Nat → Prop} {luts : Luts} {x : Nat → Bool}
  {sh W lo n maxOrder : Nat} {ex : Prop}

/-- shrinking the window of a source as `compare_for_input` does after the last bit (`tests/sliding_window_trees.rs:487-505`,
one of the two sources): before every removal the check is made. The bit index has been set to 7 before
(`tests/sliding_window_trees.rs:485-486`) -/
def shrinkChecked : Nat → Src → Option Src
  | 0, s => some s
  | k + 1, s => do
    srcCheck s
    let (t, ctxs) ← removeLeftmost s.tree s.ctxs
    shrinkChecked k { s with tree := t, ctxs := ctxs }

/-- the check passes after the last bit of a byte, with the bit index of the next byte -/
theorem srcCheck_end (hW : W ≤ 2 ^ 31) (hM : maxOrder ≤ 8191) {s : Src} (ho : s.maxOrder = maxOrder)
    (hb : s.bitIndex = 7) (hst : StateOk luts x Pc Ic sh W maxOrder ex lo n (8 * n + 8) s.tree s.ctxs) :
    srcCheck s = some () := by
  have hw := hst.win
  have hle := hst.le
  unfold srcCheck
  rw [check_pos (by omega), ob_some, ho]
  have hroot : s.tree.proper = true → ∃ nd, nodesGet s.tree.nodes 0 = some nd ∧ nd.textStart = s.tree.window.cursor := by
    intro hp
    rcases hst.cases with ⟨N, str, cnt, hT, hC⟩ | ⟨hf, -⟩
    · obtain ⟨n0, hn0, ht⟩ := hC.root
      exact ⟨n0, rep_get hT.rep hn0 (Or.inr (hT.inv.node 0 n0 hn0).valid), by rw [ht, hw.cursor hle]⟩
    · rw [hf] at hp; simp at hp
  have hctx : ctxsCheck s.tree s.ctxs = some () := by
    rcases hst.cases with ⟨N, str, cnt, hT, hC⟩ | ⟨hf, -⟩
    · have hd := root_depth hT.inv
      have hs := root_seg hT.inv (d := (str 0).length) (i := n) (le_refl _) (by omega) hle (le_refl _)
      rw [List.take_length] at hs
      exact ctxsCheck_ok (e := 1) hW hw hT hC (le_refl _) (Or.inr ⟨hle, le_refl _, hs, by omega⟩)
    · unfold ctxsCheck
      rw [if_neg (by rw [hf]; simp)]
  rw [hctx, ob_some]
  refine treeCheck_ok (luts := luts) (Pc := Pc) (Ic := Ic) (ex := ex) (ctxs := s.ctxs) hW hM hw hle (le_refl _) ?_ hroot
  rcases hst.cases with hp | ⟨hf, -⟩
  · exact Or.inl hp
  · exact Or.inr hf

/-- the checks pass and the removals are those made without them -/
theorem shrinkChecked_state (hW : W ≤ 2 ^ 31) (hM : maxOrder ≤ 8191) : ∀ (k : Nat) {ex : Prop} {lo : Nat} {s : Src},
    s.maxOrder = maxOrder → s.bitIndex = 7 → StateOk luts x Pc Ic sh W maxOrder ex lo n (8 * n + 8) s.tree s.ctxs →
    lo + k ≤ n + 1 → ∃ t ctxs, shrink k s.tree s.ctxs = some (t, ctxs) ∧
      shrinkChecked k s = some { s with tree := t, ctxs := ctxs } := by
  intro k
  induction k with
  | zero =>
    intro ex lo s _ _ _ _
    exact ⟨_, _, rfl, rfl⟩
  | succ k ih =>
    intro ex lo s ho hb h hk
    obtain ⟨t1, c1, e1, hw1, -, hc1⟩ := removeLeftmost_ok (ex' := False) hW hM id h
    rw [shrink, shrinkChecked, srcCheck_end hW hM ho hb h, ob_some, e1, ob_some, ob_some]
    dsimp only
    by_cases hlo : lo + 1 ≤ n
    · obtain ⟨t2, c2, e2, e3⟩ := ih (lo := lo + 1) (s := { s with tree := t1, ctxs := c1 }) ho hb ⟨hw1, hlo, hc1⟩ (by omega)
      exact ⟨t2, c2, e2, e3⟩
    · obtain rfl : k = 0 := by have := h.le; omega
      exact ⟨t1, c1, rfl, rfl⟩

/-- **C60 (integrity).** After any input of whole bytes the integrity check passes before every removal, down to the empty
window: checking and removing one suffix after the other never panics, and gives the tree that the removals alone give. -/
theorem C60_integrity (luts : Luts) (h : LutsOk luts) (W sh maxOrder : Nat) (hW : W ≤ 2 ^ 31) (hsh : sh < W)
    (hM : maxOrder ≤ 8191) (hist : List Bool) (bytes : Nat) (hpos : 1 ≤ bytes) (hlen : hist.length = 8 * bytes)
    (upd : List CtxState → Bool → List Costs) (hu : ∀ l b, (upd l b).length = (l.filter CtxState.isNode).length) :
    ∃ s0 s1, srcNew W maxOrder sh = some s0 ∧ feed (treeSource luts) upd 0 s0 hist = some s1 ∧ s1.bitIndex = -1 ∧
      ∀ left ≤ min bytes W, ∃ t ctxs, shrink (min bytes W - left) s1.tree s1.ctxs = some (t, ctxs) ∧
        shrinkChecked (min bytes W - left) { s1 with bitIndex := 7 } =
          some { s1 with bitIndex := 7, tree := t, ctxs := ctxs } ∧
        t.window.size = left ∧
        (1 ≤ left → srcCheck { s1 with bitIndex := 7, tree := t, ctxs := ctxs } = some ()) := by
  obtain ⟨s0, s1, e0, e1, h1⟩ := src_run (Pc := fun _ _ _ => True) h (fun _ _ _ => ⟨costsDefault, trivial⟩) hW hsh hM
    hu (fun _ _ _ _ _ => allowed_const (fun _ _ => trivial)) hist
  refine ⟨s0, s1, e0, e1, ?_⟩
  rcases h1 with ⟨hL, -⟩ | ⟨n, j, hL, hj1, hj2, ho, hb, hst⟩
  · omega
  · obtain rfl : j = 8 := by omega
    obtain rfl : bytes = n + 1 := by omega
    refine ⟨by omega, ?_⟩
    intro left hle
    obtain ⟨t, ctxs, e, hcase⟩ := shrink_state hW hM (min (n + 1) W - left) hst (by omega)
    obtain ⟨t', ctxs', e', e''⟩ := shrinkChecked_state (s := { s1 with bitIndex := 7 }) hW hM (min (n + 1) W - left) ho rfl
      hst (by omega)
    rw [show ({ s1 with bitIndex := 7 } : Src).tree = s1.tree from rfl,
      show ({ s1 with bitIndex := 7 } : Src).ctxs = s1.ctxs from rfl, e, Option.some.injEq, Prod.mk.injEq] at e'
    obtain ⟨rfl, rfl⟩ := e'
    refine ⟨t, ctxs, e, e'', ?_⟩
    have hlo : n + 1 - W + (min (n + 1) W - left) = n + 1 - left := by omega
    rw [hlo] at hcase
    rcases hcase with ⟨h2, ex', h2'⟩ | ⟨h2, hw, -⟩
    · exact ⟨by rw [h2'.win.size]; omega,
        fun _ => srcCheck_end (s := { s1 with bitIndex := 7, tree := t, ctxs := ctxs }) hW hM ho rfl h2'⟩
    · exact ⟨by rw [hw.size]; omega, fun _ => by omega⟩

/-- three bytes in a window of two, shrunk to nothing -/
example : ∃ luts, LutsOk luts ∧ ∃ s0 s1 s2, srcNew 2 3 1 = some s0 ∧
    feed (treeSource luts) (fun l _ => List.replicate (l.filter CtxState.isNode).length costsDefault) 0 s0
      (List.replicate 8 true ++ List.replicate 15 false ++ [true]) = some s1 ∧
    shrinkChecked 2 { s1 with bitIndex := 7 } = some s2 ∧ s2.tree.window.size = 0 := by
  obtain ⟨luts, h⟩ := luts_exist
  obtain ⟨s0, s1, e0, e1, -, h1⟩ := C60_integrity luts h 2 1 3 (by norm_num) (by norm_num) (by norm_num)
    (List.replicate 8 true ++ List.replicate 15 false ++ [true]) 3 (by norm_num) (by decide)
    (fun l _ => List.replicate (l.filter CtxState.isNode).length costsDefault) (fun l b => by simp)
  obtain ⟨t, ctxs, -, e2, h2, -⟩ := h1 0 (by norm_num)
  exact ⟨luts, h, s0, s1, _, e0, e1, e2, h2⟩

end Verif.Tree
