import Verif.Tree.Feed
import Verif.History.FatProps

/-!
# C29, C30, C51: the history tree
-/

namespace Verif.Tree

open Verif Verif.History Verif.Window

variable {luts : Luts} {Pc : Str → List Bool → Costs → Prop} {Ic : Nat → Nat → Prop} {x : Nat → Bool} {sh W lo n j maxOrder : Nat}

/-! ## C29 -/

theorem windowed_all {W : Nat} {hist : List Bool} (h : hist.length < 8 * W) : windowed W hist = hist := by
  unfold windowed
  rw [show hist.length / 8 + 1 - W = 0 by omega]
  rfl

/-- **C29.** For every window size, initial position of the window, maximal order, input that fits in the
window and every way of updating the cost trackers (one per branching context), at every bit the tree does
not panic and reports the same states as the reference, up to cost trackers. -/
theorem C29_tree (luts : Luts) (h : LutsOk luts) (W sh maxOrder : Nat) (hW : W ≤ 2 ^ 31) (hsh : sh < W)
    (hM : maxOrder ≤ 8191) (hist : List Bool) (hlen : hist.length < 8 * W) (upd : List CtxState → Bool → List Costs)
    (hu : ∀ l b, (upd l b).length = (l.filter CtxState.isNode).length) :
    ∃ tree naive, observe (treeSource luts) upd (srcNew W maxOrder sh) hist = some tree ∧
      observe (naiveSource luts) (fun _ _ => []) (naiveNew W maxOrder) hist = some naive ∧
      tree.map CtxState.neutralize = naive.map CtxState.neutralize := by
  obtain ⟨naive, n1, n2⟩ := C27_naive luts h W maxOrder (by omega) hist hlen (fun _ _ => []) (by simp)
  obtain ⟨tree, t1, t2⟩ := src_observe (Pc := fun _ _ _ => True) h (fun _ _ _ => ⟨costsDefault, trivial⟩) hW hsh hM (upd := upd)
    hu (fun _ _ _ _ _ => allowed_const (fun _ _ => trivial)) hist
  rw [windowed_all hlen] at t2
  exact ⟨tree, naive, t1, n1, neutral_map (t2.exact hlen (fun _ _ _ => ⟨costsDefault, trivial⟩)) (gatherOk_of_spec n2)⟩

/-- **C29 (exact).** With default cost trackers, as the reference requires, the states are equal. -/
theorem C29_tree_exact (luts : Luts) (h : LutsOk luts) (W sh maxOrder : Nat) (hW : W ≤ 2 ^ 31) (hsh : sh < W)
    (hM : maxOrder ≤ 8191) (hist : List Bool) (hlen : hist.length < 8 * W) (upd : List CtxState → Bool → List Costs)
    (hu : ∀ l b, (upd l b).length = (l.filter CtxState.isNode).length ∧ ∀ c ∈ upd l b, c = costsDefault) :
    ∃ states, observe (treeSource luts) upd (srcNew W maxOrder sh) hist = some states ∧
      observe (naiveSource luts) upd (naiveNew W maxOrder) hist = some states := by
  obtain ⟨naive, n1, n2⟩ := C27_naive luts h W maxOrder (by omega) hist hlen upd (fun l b => (hu l b).2)
  obtain ⟨tree, t1, t2⟩ := src_observe (Pc := fun _ _ c => c = costsDefault) h (fun _ _ _ => ⟨costsDefault, rfl⟩) hW hsh hM (upd := upd)
    (fun l b => (hu l b).1) (fun _ _ l b _ => allowed_const (hu l b).2) hist
  rw [windowed_all hlen] at t2
  have := spec_of_gatherOk (t2.exact hlen (fun _ _ _ => ⟨costsDefault, rfl⟩))
  rw [n2, Option.some.injEq] at this
  exact ⟨tree, t1, by rw [n1, this]⟩

/-- **C29 (hash map).** The tree and the hash map source agree as well, for every hash function. -/
theorem C29_tree_fat (luts : Luts) (h : LutsOk luts) (hash : HashFn) (W sh maxOrder : Nat) (hW : W ≤ 2 ^ 31)
    (hsh : sh < W) (hM : maxOrder ≤ 8191) (hist : List Bool) (hlen : hist.length < 8 * W)
    (upd : List CtxState → Bool → List Costs) (hu : ∀ l b, (upd l b).length = (l.filter CtxState.isNode).length) :
    ∃ tree fat, observe (treeSource luts) upd (srcNew W maxOrder sh) hist = some tree ∧
      observe (fatSource hash luts) upd (fatNew W maxOrder) hist = some fat ∧
      tree.map CtxState.neutralize = fat.map CtxState.neutralize := by
  obtain ⟨fat, naive, f1, f2, f3⟩ := C28_fat_map luts h hash W maxOrder (by omega) hist hlen upd hu
  obtain ⟨tree, naive', t1, t2, t3⟩ := C29_tree luts h W sh maxOrder hW hsh hM hist hlen upd hu
  rw [f2, Option.some.injEq] at t2
  subst t2
  exact ⟨tree, fat, t1, f1, by rw [t3, f3]⟩

/-- the hypotheses are met: 20 bits in a window of 3 bytes which starts at its last position -/
example : ∃ luts, LutsOk luts ∧ ∃ states, observe (treeSource luts)
    (fun l _ => List.replicate (l.filter CtxState.isNode).length costsDefault) (srcNew 3 2 2)
    ([true, false, true, true, false, true, false, false, true, false, false, true, true, true, false, false,
      true, false, true, true]) = some states := by
  obtain ⟨luts, h⟩ := luts_exist
  obtain ⟨states, -, h1, -⟩ := C29_tree luts h 3 2 2 (by norm_num) (by norm_num) (by norm_num)
    [true, false, true, true, false, true, false, false, true, false, false, true, true, true, false, false,
      true, false, true, true] (by decide) (fun l _ => List.replicate (l.filter CtxState.isNode).length costsDefault) (fun l b => by simp)
  exact ⟨luts, h, states, h1⟩

/-! ## C30 -/

/-- **C30.** For every input, however long, at every bit: nothing panics (so the pool of `max 1 (W - 1)` nodes
always suffices), and the states reported are, for exactly the orders whose context has occurred before in the
window, those of the history within the window as far as `WindowState` says. -/
theorem C30_any_length (luts : Luts) (h : LutsOk luts) (W sh maxOrder : Nat) (hW : W ≤ 2 ^ 31) (hsh : sh < W)
    (hM : maxOrder ≤ 8191) (hist : List Bool) (upd : List CtxState → Bool → List Costs)
    (hu : ∀ l b, (upd l b).length = (l.filter CtxState.isNode).length) :
    ∃ states, observe (treeSource luts) upd (srcNew W maxOrder sh) hist = some states ∧
      WindowGather (fun _ _ _ => True) luts.costs (hist.length < 8 * W) maxOrder (windowed W hist) states :=
  src_observe h (fun _ _ _ => ⟨costsDefault, trivial⟩) hW hsh hM hu
    (fun _ _ _ _ _ => allowed_const (fun _ _ => trivial)) hist

/-- **C30 (contexts).** In particular, in the order of `k` and without gaps: there is a state for order `k` exactly if
the last `k` bytes and the bits of the current byte occur earlier in the window; it has the distance of the last such
place; it is branching exactly if both bits have followed there; and if not, it has the only bit that has. -/
theorem C30_contexts (luts : Luts) (h : LutsOk luts) (W sh maxOrder : Nat) (hW : W ≤ 2 ^ 31) (hsh : sh < W)
    (hM : maxOrder ≤ 8191) (hist : List Bool) (upd : List CtxState → Bool → List Costs)
    (hu : ∀ l b, (upd l b).length = (l.filter CtxState.isNode).length) :
    ∃ states, observe (treeSource luts) upd (srcNew W maxOrder sh) hist = some states ∧
      (∀ k, k < states.length ↔ k ≤ maxOrder ∧ occs (windowed W hist) k ≠ []) ∧
      ∀ (k : Nat) s, states[k]? = some s → s.dist = lastDist (windowed W hist) k ∧
        (s.isNode = true ↔ true ∈ following (windowed W hist) k ∧ false ∈ following (windowed W hist) k) ∧
        (∀ d c b, s = .edge d c b → (∀ y ∈ following (windowed W hist) k, y = b) ∧
          min 1000 (following (windowed W hist) k).length ≤ c ∧ c ≤ 1000) := by
  obtain ⟨states, e, hg⟩ := C30_any_length luts h W sh maxOrder hW hsh hM hist upd hu
  refine ⟨states, e, hg.lt_length, ?_⟩
  intro k s hs
  obtain ⟨h1, h2, h3⟩ := hg.get hs
  refine ⟨?_, h3.isNode, ?_⟩
  · rcases h3 with ⟨-, -, q, c, -, -, -, hq⟩ | ⟨b, C, -, -, -, -, rfl⟩
    · have hne : q ≠ [] := specState_ne_nil hq
      unfold specState at hq
      rw [if_neg hne] at hq
      split at hq
      · rw [Option.some.injEq] at hq; rw [← hq]; rfl
      · obtain ⟨e1, he⟩ := replay_some (capRun q)
        rw [he, ob_some] at hq
        cases ht : Log2.costForNewNode luts.costs (min (leadRun q) 1000) with
        | none => rw [ht, ob_none] at hq; simp at hq
        | some t =>
          rw [ht, ob_some, Option.some.injEq] at hq; rw [← hq]; rfl
    · rfl
  · rintro d c b rfl
    rcases h3 with ⟨k1, k2, q, c, -, k3, -, hq⟩ | ⟨b', C, k1, k2, k3, -, k4⟩
    · have := (specState_isNode hq).mpr ⟨k3.subset k1, k3.subset k2⟩
      simp [CtxState.isNode] at this
    · rw [CtxState.edge.injEq] at k4
      obtain ⟨-, rfl, rfl⟩ := k4
      exact ⟨k2, by omega, by omega⟩

/-! ### The shape -/

theorem readAt_iff {hist s : List Bool} {i : Nat} (hle : lo ≤ n) (hj : j ≤ 8)
    (hh : hist = seg x lo (8 * n + j - 8 * lo)) (hs : s ≠ []) :
    ReadAt hist s i ↔ Known x lo n (8 * n + j) 0 s (lo + i) := by
  have hpos := List.length_pos_iff.mpr hs
  subst hh
  unfold ReadAt Known
  rw [seg_length]
  constructor
  · rintro ⟨h1, h2⟩
    rw [seg_slice h1] at h2
    exact ⟨by omega, by omega, h2, by omega⟩
  · rintro ⟨h1, h2, h3, h4⟩
    refine ⟨by omega, ?_⟩
    rw [seg_slice (by omega)]
    exact h3

theorem branches_iff {hist s : List Bool} {D : Nat} (hle : lo ≤ n) (hj : j ≤ 8)
    (hh : hist = seg x lo (8 * n + j - 8 * lo)) : Branches hist D s ↔ Br (Known x lo n (8 * n + j) 0) D s := by
  unfold Branches Br
  constructor
  · rintro ⟨h1, h2⟩
    refine ⟨h1, fun b => ?_⟩
    obtain ⟨i, hi⟩ := h2 b
    exact ⟨lo + i, (readAt_iff hle hj hh (by simp)).mp hi⟩
  · rintro ⟨h1, h2⟩
    refine ⟨h1, fun b => ?_⟩
    obtain ⟨i, hi⟩ := h2 b
    have := hi.1
    refine ⟨i - lo, (readAt_iff hle hj hh (by simp)).mpr ?_⟩
    rw [show lo + (i - lo) = i by omega]
    exact hi

/-- a tree in order has the shape that its window determines -/
theorem shape_of_tree (hj : j ≤ 8) {t : Tree} {ex : Prop} {hist : List Bool} {N : Live} {str : Nat → Str} {cnt : Nat}
    (hh : hist = seg x lo (8 * n + j - 8 * lo)) (hw : WinOk t.window x sh W lo (n + 1) (8 * n + j)) (hle : lo ≤ n)
    (hT : TreeOk t (Known x lo n (8 * n + j) 0) (8 * maxOrder + 7) ex Pc luts.costs (pos sh W) (max 1 (W - 1)) N str cnt) :
    TreeShape t hist (8 * maxOrder + 7) N str := by
  have hpos : ∀ i, (t.window.start + i) % t.window.max = pos sh W (lo + i) := by
    intro i
    rw [hw.start, hw.max]
    unfold pos
    rw [Nat.mod_add_mod]
    congr 1
    omega
  refine ⟨?_, hT.inv.root, ?_, ?_, ?_, hT.inv.inj, ?_⟩
  · intro v nd hv
    exact rep_get hT.rep hv (Or.inr (hT.inv.node v nd hv).valid)
  · intro s hs
    exact hT.inv.rootle s ((branches_iff hle hj hh).mp hs)
  · intro v nd hv
    exact ⟨(branches_iff hle hj hh).mpr (hT.inv.node v nd hv).br, (hT.inv.node v nd hv).depth⟩
  · intro s hs
    exact hT.inv.full s ((branches_iff hle hj hh).mp hs)
  · intro v nd b hv
    obtain ⟨i, hi, hcc⟩ := (hT.inv.node v nd hv).child b
    have hlo := hi.1.1
    refine ⟨i - lo, (readAt_iff hle hj hh (by simp)).mpr ?_, ?_, ?_⟩
    · rw [show lo + (i - lo) = i by omega]; exact hi.1
    · intro i' hi'
      have := hi.2 _ ((readAt_iff hle hj hh (by simp)).mp hi')
      omega
    · rw [hpos, show lo + (i - lo) = i by omega]
      rcases hcc with ⟨k1, k2⟩ | ⟨w, nw, k1, k2, k3, k4, k5⟩
      · exact Or.inl ⟨fun s hs => k1 s ((branches_iff hle hj hh).mp hs), k2⟩
      · exact Or.inr ⟨w, nw, k1, k2, k3, k4.2.1, fun s hs => k4.2.2 s ((branches_iff hle hj hh).mp hs), k5⟩

theorem shape_of_state (hj : j ≤ 8) {t : Tree} {ctxs : List Ctx} {ex : Prop} {hist : List Bool}
    (hh : hist = seg x lo (8 * n + j - 8 * lo)) (h : StateOk luts x Pc Ic sh W maxOrder ex lo n (8 * n + j) t ctxs) :
    (t.proper = true → ∃ live label, TreeShape t hist (8 * maxOrder + 7) live label) ∧
    (t.proper = false → ∀ s, ¬ Branches hist (8 * maxOrder + 7) s) := by
  obtain ⟨hw, hle, hc⟩ := h
  constructor
  · intro hp
    rcases hc with ⟨N, str, cnt, hT, -⟩ | ⟨hp', -⟩
    · exact ⟨N, str, shape_of_tree hj hh hw hle hT⟩
    · rw [hp] at hp'; simp at hp'
  · intro hp s hs
    rcases hc with ⟨N, str, cnt, hT, -⟩ | ⟨-, -, hf, -⟩
    · rw [hT.proper] at hp; simp at hp
    · rw [branches_iff hle hj hh] at hs
      obtain ⟨i1, hi1⟩ := hs.2 true
      obtain ⟨i0, hi0⟩ := hs.2 false
      have a1 := (seg_snoc_iff.mp hi1.2.2.1).2
      have a0 := (seg_snoc_iff.mp hi0.2.2.1).2
      have b1 := hi1.2.2.2
      have b0 := hi0.2.2.2
      rw [List.length_append, List.length_singleton] at b1 b0
      have c1 := hi1.1
      have c0 := hi0.1
      rw [hf.bit (by omega) c1 (by omega)] at a1
      rw [hf.bit (by omega) c0 (by omega)] at a0
      rw [a0] at a1
      simp at a1

/-- **C30 (structure).** For every input, however long, once the tree is ready for the next bit, its nodes are exactly the
strings of up to `8 * maxOrder + 7` bits that have been followed by both bits within the window; every node has the
depth of its string; every child pointer is the node of the shortest longer string of this kind or, if there is none, the
last place where the string and the bit have been read, which is also where the text of a child that is a node starts. If there is no tree there is no such string. -/
theorem C30_structure (luts : Luts) (h : LutsOk luts) (W sh maxOrder : Nat) (hW : W ≤ 2 ^ 31) (hsh : sh < W)
    (hM : maxOrder ≤ 8191) (hist : List Bool) (upd : List CtxState → Bool → List Costs)
    (hu : ∀ l b, (upd l b).length = (l.filter CtxState.isNode).length) :
    ∃ s0 s1 s, srcNew W maxOrder sh = some s0 ∧ feed (treeSource luts) upd 0 s0 hist = some s1 ∧
      ready (treeSource luts) hist.length s1 = some s ∧
      (s.tree.proper = true → ∃ live label, TreeShape s.tree (windowed W hist) (8 * maxOrder + 7) live label) ∧
      (s.tree.proper = false → ∀ str, ¬ Branches (windowed W hist) (8 * maxOrder + 7) str) := by
  obtain ⟨s0, s1, e0, e1, h1⟩ := src_run (Pc := fun _ _ _ => True) h (fun _ _ _ => ⟨costsDefault, trivial⟩) hW hsh hM
    hu (fun _ _ _ _ _ => allowed_const (fun _ _ => trivial)) hist
  obtain ⟨s, e2, h2⟩ := src_ready hW (by omega) hM h1
  refine ⟨s0, s1, s, e0, e1, e2, shape_of_state (j := hist.length % 8) (by omega) ?_ h2.state⟩
  have := windowed_seg (x := fun i => hist.getD i false) (W := W) (L := hist.length)
  rw [seg_getD_self] at this
  rw [this]
  congr 1
  omega

/-- every node of a tree has two children, so a tree with a node for each of two different labels is not empty: for
example, after the bytes 0 and 128 the empty string has been followed by both bits -/
example : Branches (List.replicate 8 false ++ true :: List.replicate 7 false) 7 [] := by
  refine ⟨by simp, fun b => ?_⟩
  cases b
  · exact ⟨0, by simp, by simp⟩
  · exact ⟨1, by simp, by simp⟩

/-! ## C51 -/

/-- what of a state depends on the window only -/
def outline : CtxState → Nat × Option Bool
  | .edge d _ b => (d, some b)
  | .node d _ _ _ _ => (d, none)

/-- **C51.** Two trees, started at different positions of the window and fed with different inputs, with different cost
trackers, report the same orders, distances, branching and repeated bits as soon as their windows have the same contents.
-/
theorem C51_window_only (luts luts' : Luts) (h : LutsOk luts) (h' : LutsOk luts') (W sh sh' maxOrder : Nat)
    (hW : W ≤ 2 ^ 31) (hsh : sh < W) (hsh' : sh' < W) (hM : maxOrder ≤ 8191) (hist hist' : List Bool)
    (hw : windowed W hist = windowed W hist')
    (upd upd' : List CtxState → Bool → List Costs)
    (hu : ∀ l b, (upd l b).length = (l.filter CtxState.isNode).length)
    (hu' : ∀ l b, (upd' l b).length = (l.filter CtxState.isNode).length) :
    ∃ states states', observe (treeSource luts) upd (srcNew W maxOrder sh) hist = some states ∧
      observe (treeSource luts') upd' (srcNew W maxOrder sh') hist' = some states' ∧
      states.map outline = states'.map outline := by
  obtain ⟨states, e, h1, h2⟩ := C30_contexts luts h W sh maxOrder hW hsh hM hist upd hu
  obtain ⟨states', e', h1', h2'⟩ := C30_contexts luts' h' W sh' maxOrder hW hsh' hM hist' upd' hu'
  refine ⟨states, states', e, e', ?_⟩
  rw [← hw] at h1' h2'
  have hlen : states.length = states'.length := by
    rcases Nat.lt_trichotomy states.length states'.length with hl | hl | hl
    · have := (h1 _).mpr ((h1' _).mp hl); omega
    · exact hl
    · have := (h1' _).mpr ((h1 _).mp hl); omega
  apply List.ext_getElem
  · simpa using hlen
  · intro k k1 k2
    rw [List.length_map] at k1 k2
    rw [List.getElem_map, List.getElem_map]
    obtain ⟨a1, a2, a3⟩ := h2 k _ (List.getElem?_eq_getElem k1)
    obtain ⟨b1, b2, b3⟩ := h2' k _ (List.getElem?_eq_getElem k2)
    have hocc := ((h1 k).mp k1).2
    have hne : following (windowed W hist) k ≠ [] := by
      unfold following
      intro hcon
      exact hocc (List.map_eq_nil_iff.mp hcon)
    rw [← a2] at b2
    rw [← a1] at b1
    generalize states[k] = s at *
    generalize states'[k] = s' at *
    cases s with
    | edge d c b =>
      cases s' with
      | edge d' c' b' =>
        obtain ⟨y, hy⟩ := List.exists_mem_of_ne_nil _ hne
        have r1 := (a3 d c b rfl).1 y hy
        have r2 := (b3 d' c' b' rfl).1 y hy
        simp only [CtxState.dist] at b1
        simp only [outline]
        rw [b1, ← r1, ← r2]
      | node d' _ _ _ _ => simp [CtxState.isNode] at b2
    | node d _ _ _ _ =>
      cases s' with
      | edge d' c' b' => simp [CtxState.isNode] at b2
      | node d' _ _ _ _ =>
        simp only [CtxState.dist] at b1
        simp only [outline]
        rw [b1]

/-- the window of 2 bytes has the same contents after the bytes 1, 2 and 5 bits of 3 as after 7, 2 and the same bits -/
example : windowed 2 ([false, false, false, false, false, false, false, true] ++
      [false, false, false, false, false, false, true, false] ++ [false, false, false, false, false]) =
    windowed 2 ([false, false, false, false, false, true, true, true] ++
      [false, false, false, false, false, false, true, false] ++ [false, false, false, false, false]) := by decide

/-- the hypotheses are met: 5 bytes in a window of 2 bytes -/
example : ∃ luts, LutsOk luts ∧ ∃ states, observe (treeSource luts)
    (fun l _ => List.replicate (l.filter CtxState.isNode).length costsDefault) (srcNew 2 3 1)
    (List.replicate 40 true) = some states := by
  obtain ⟨luts, h⟩ := luts_exist
  obtain ⟨states, h1, -⟩ := C30_any_length luts h 2 1 3 (by norm_num) (by norm_num) (by norm_num)
    (List.replicate 40 true) (fun l _ => List.replicate (l.filter CtxState.isNode).length costsDefault)
    (fun l b => by simp)
  exact ⟨luts, h, states, h1⟩

end Verif.Tree
