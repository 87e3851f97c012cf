import Verif.Tree.CheckProps

/-!
# C60, C61: shrinking the window, and trees with equal windows

`Shape` is a tree as a mathematical object: positions are counted from the start of the window and there are no node
numbers.
-/

namespace Verif.Tree

open Verif Verif.History Verif.Window

variable {luts : Luts} {Pc : Str → List Bool → Costs → Prop} {Ic : Nat → Nat → Prop} {x : Nat → Bool} {sh W lo n j maxOrder : Nat}

/-! ## Specification -/

/-- a tree without its representation: leaves have the age of a suffix, nodes have their depth and the age of their text -/
inductive Shape
  | leaf (age : Nat)
  | node (depth text : Nat) (left right : Shape)

/-- the child `c` of a node of `t` is the root of a tree of this shape -/
inductive HasShape (t : Tree) : Int → Shape → Prop
  | leaf {age : Nat} : age < t.window.size → HasShape t (posOf t.window age) (.leaf age)
  | node {v : Nat} {nd : Node} {text : Nat} {l r : Shape} : 1 ≤ v → nodesGet t.nodes v = some nd →
      text < t.window.size → nd.textStart = posOf t.window text → HasShape t nd.left l → HasShape t nd.right r →
      HasShape t (-(v : Int) - 1) (.node nd.depth text l r)

/-- the shape of a whole tree: the depth of the root, and its two children; `none` if there is no tree -/
def TreeIs (t : Tree) (S : Option (Nat × Shape × Shape)) : Prop :=
  match S with
  | none => t.proper = false
  | some (d, l, r) => t.proper = true ∧ ∃ nd, nodesGet t.nodes 0 = some nd ∧ nd.depth = d ∧ HasShape t nd.left l ∧
      HasShape t nd.right r

/-- repeated `Tree::remove_leftmost_suffix` (`mod.rs:127-274`), as at `tests/sliding_window_trees.rs:486-514` -/
def shrink : Nat → Tree → List Ctx → Option (Tree × List Ctx)
  | 0, t, ctxs => some (t, ctxs)
  | k + 1, t, ctxs => do
    let (t, ctxs) ← removeLeftmost t ctxs
    shrink k t ctxs

/-! ## Equal windows, equal shapes -/

/-- a node is determined by its label -/
theorem shape_node {t t' : Tree} {hist : List Bool} {D : Nat} {live live' : Nat → Option Node}
    {label label' : Nat → List Bool} (h : TreeShape t hist D live label) (h' : TreeShape t' hist D live' label')
    (hs : hist.length ≤ 8 * t.window.size) (hs' : hist.length ≤ 8 * t'.window.size) :
    ∀ (k : Nat) {v v' : Nat} {nd nd' : Node}, live v = some nd → live' v' = some nd' → label v = label' v' →
      D ≤ (label v).length + k → nd.depth = nd'.depth ∧
      ∃ l r, HasShape t nd.left l ∧ HasShape t' nd'.left l ∧ HasShape t nd.right r ∧ HasShape t' nd'.right r := by
  intro k
  induction k with
  | zero =>
    intro v v' nd nd' hv hv' he hk
    refine ⟨by rw [(h.sound v nd hv).2, (h'.sound v' nd' hv').2, he], ?_⟩
    have key : ∀ b, ∃ S, HasShape t (nd.child b) S ∧ HasShape t' (nd'.child b) S := by
      intro b
      obtain ⟨i, hi, hl, hc⟩ := h.child v nd b hv
      obtain ⟨i', hi', hl', hc'⟩ := h'.child v' nd' b hv'
      rw [← he] at hi' hl' hc'
      obtain rfl : i = i' := Nat.le_antisymm (hl' i hi) (hl i' hi')
      have hlen := hi.1
      rw [List.length_append, List.length_singleton] at hlen
      rcases hc with ⟨-, hc⟩ | ⟨w, nw, -, hw, -, hp, -⟩
      · rcases hc' with ⟨-, hc'⟩ | ⟨w, nw, -, hw, -, hp, -⟩
        · rw [hc, hc']
          exact ⟨.leaf i, .leaf (by omega), .leaf (by omega)⟩
        · have h1 := (h'.sound w nw hw).1.1
          have h2 := hp.length_le
          rw [List.length_append, List.length_singleton] at h2
          omega
      · have h1 := (h.sound w nw hw).1.1
        have h2 := hp.length_le
        rw [List.length_append, List.length_singleton] at h2
        omega
    obtain ⟨l, l1, l2⟩ := key false
    obtain ⟨r, r1, r2⟩ := key true
    exact ⟨l, r, l1, l2, r1, r2⟩
  | succ k ih =>
    intro v v' nd nd' hv hv' he hk
    refine ⟨by rw [(h.sound v nd hv).2, (h'.sound v' nd' hv').2, he], ?_⟩
    have key : ∀ b, ∃ S, HasShape t (nd.child b) S ∧ HasShape t' (nd'.child b) S := by
      intro b
      obtain ⟨i, hi, hl, hc⟩ := h.child v nd b hv
      obtain ⟨i', hi', hl', hc'⟩ := h'.child v' nd' b hv'
      rw [← he] at hi' hl' hc'
      obtain rfl : i = i' := Nat.le_antisymm (hl' i hi) (hl i' hi')
      have hlen := hi.1
      rw [List.length_append, List.length_singleton] at hlen
      rcases hc with ⟨hn, hc⟩ | ⟨w, nw, hw1, hw, hc, hp, hm, ht⟩
      · rcases hc' with ⟨-, hc'⟩ | ⟨w, nw, -, hw, -, hp, -⟩
        · rw [hc, hc']
          exact ⟨.leaf i, .leaf (by omega), .leaf (by omega)⟩
        · exact absurd hp (hn _ (h'.sound w nw hw).1)
      · rcases hc' with ⟨hn, -⟩ | ⟨w', nw', hw1', hw', hc', hp', hm', ht'⟩
        · exact absurd hp (hn _ (h.sound w nw hw).1)
        · have hlab : label w = label' w' := by
            have a1 := hm _ (h'.sound w' nw' hw').1 hp'
            have a2 := hm' _ (h.sound w nw hw).1 hp
            exact a1.eq_of_length (Nat.le_antisymm a1.length_le a2.length_le)
          have h2 := hp.length_le
          rw [List.length_append, List.length_singleton] at h2
          obtain ⟨hd, l, r, l1, l2, r1, r2⟩ := ih hw hw' hlab (by omega)
          refine ⟨.node nw.depth i l r, ?_, ?_⟩
          · rw [hc]
            exact .node hw1 (h.node w nw hw) (by omega) ht l1 r1
          · rw [hc', hd]
            exact .node hw1' (h'.node w' nw' hw') (by omega) ht' l2 r2
    obtain ⟨l, l1, l2⟩ := key false
    obtain ⟨r, r1, r2⟩ := key true
    exact ⟨l, r, l1, l2, r1, r2⟩

/-- two trees for the same history have the same shape -/
theorem shape_eq {t t' : Tree} {hist : List Bool} {D : Nat}
    (h : (t.proper = true → ∃ live label, TreeShape t hist D live label) ∧ (t.proper = false → ∀ s, ¬ Branches hist D s))
    (h' : (t'.proper = true → ∃ live label, TreeShape t' hist D live label) ∧
      (t'.proper = false → ∀ s, ¬ Branches hist D s))
    (hs : hist.length ≤ 8 * t.window.size) (hs' : hist.length ≤ 8 * t'.window.size) :
    ∃ S, TreeIs t S ∧ TreeIs t' S := by
  have hbr : ∀ {t : Tree}, (t.proper = true → ∃ live label, TreeShape t hist D live label) → t.proper = true →
      ∃ s, Branches hist D s := by
    intro t h hp
    obtain ⟨live, label, hS⟩ := h hp
    obtain ⟨nd, hnd⟩ := hS.root
    exact ⟨_, (hS.sound 0 nd hnd).1⟩
  cases hp : t.proper with
  | false =>
    cases hp' : t'.proper with
    | false => exact ⟨none, hp, hp'⟩
    | true =>
      obtain ⟨s, hb⟩ := hbr h'.1 hp'
      exact absurd hb (h.2 hp s)
  | true =>
    cases hp' : t'.proper with
    | false =>
      obtain ⟨s, hb⟩ := hbr h.1 hp
      exact absurd hb (h'.2 hp' s)
    | true =>
      obtain ⟨live, label, hS⟩ := h.1 hp
      obtain ⟨live', label', hS'⟩ := h'.1 hp'
      obtain ⟨nd, hnd⟩ := hS.root
      obtain ⟨nd', hnd'⟩ := hS'.root
      have hlab : label 0 = label' 0 := by
        have a1 := hS.rootPrefix _ (hS'.sound 0 nd' hnd').1
        have a2 := hS'.rootPrefix _ (hS.sound 0 nd hnd).1
        exact a1.eq_of_length (Nat.le_antisymm a1.length_le a2.length_le)
      obtain ⟨hd, l, r, l1, l2, r1, r2⟩ := shape_node hS hS' hs hs' D hnd hnd' hlab (by omega)
      exact ⟨some (nd.depth, l, r), ⟨hp, nd, hS.node 0 nd hnd, rfl, l1, r1⟩, hp', nd', hS'.node 0 nd' hnd', hd.symm, l2, r2⟩

/-- **C61.** Two trees whose windows hold the same bits have the same shape, whatever preceded, wherever the windows start
in their buffers, and however cost trackers were updated: nodes have the same depths, texts of the same age and children
of the same kind, leaves have the same age. -/
theorem C61_same_shape (luts luts' : Luts) (h : LutsOk luts) (h' : LutsOk luts') (W sh sh' maxOrder : Nat)
    (hW : W ≤ 2 ^ 31) (hsh : sh < W) (hsh' : sh' < W) (hM : maxOrder ≤ 8191) (hist hist' : List Bool)
    (hw : windowed W hist = windowed W hist')
    (upd upd' : List CtxState → Bool → List Costs)
    (hu : ∀ l b, (upd l b).length = (l.filter CtxState.isNode).length)
    (hu' : ∀ l b, (upd' l b).length = (l.filter CtxState.isNode).length) :
    ∃ a0 a1 a b0 b1 b S, srcNew W maxOrder sh = some a0 ∧ feed (treeSource luts) upd 0 a0 hist = some a1 ∧
      ready (treeSource luts) hist.length a1 = some a ∧
      srcNew W maxOrder sh' = some b0 ∧ feed (treeSource luts') upd' 0 b0 hist' = some b1 ∧
      ready (treeSource luts') hist'.length b1 = some b ∧
      TreeIs a.tree S ∧ TreeIs b.tree S ∧ liveCount a.tree.nodes = liveCount b.tree.nodes := by
  have key : ∀ {luts : Luts} (_ : LutsOk luts) {sh : Nat} (_ : sh < W) (hist : List Bool)
      (upd : List CtxState → Bool → List Costs) (_ : ∀ l b, (upd l b).length = (l.filter CtxState.isNode).length),
      ∃ a0 a1 a, ∃ l : List (List Bool), srcNew W maxOrder sh = some a0 ∧ feed (treeSource luts) upd 0 a0 hist = some a1 ∧
      ready (treeSource luts) hist.length a1 = some a ∧
      ((a.tree.proper = true → ∃ live label, TreeShape a.tree (windowed W hist) (8 * maxOrder + 7) live label) ∧
      (a.tree.proper = false → ∀ str, ¬ Branches (windowed W hist) (8 * maxOrder + 7) str)) ∧
      (windowed W hist).length ≤ 8 * a.tree.window.size ∧
      l.Nodup ∧ (∀ str, str ∈ l ↔ Branches (windowed W hist) (8 * maxOrder + 7) str) ∧
      liveCount a.tree.nodes = some l.length := by
    intro luts h sh hsh hist upd hu
    obtain ⟨s0, s1, e0, e1, h1⟩ := src_run (Pc := fun _ _ _ => True) h (fun _ _ _ => ⟨costsDefault, trivial⟩) hW hsh hM
      hu (fun _ _ _ _ _ => allowed_const (fun _ _ => trivial)) hist
    obtain ⟨s, e2, h2⟩ := src_ready hW (by omega) hM h1
    have hh : windowed W hist = seg (fun i => hist.getD i false) (hist.length / 8 + 1 - W)
        (8 * (hist.length / 8) + hist.length % 8 - 8 * (hist.length / 8 + 1 - W)) := by
      have := windowed_seg (x := fun i => hist.getD i false) (W := W) (L := hist.length)
      rw [seg_getD_self] at this
      rw [this]
      congr 1
      omega
    obtain ⟨l, l1, l2, l3, -⟩ := count_of_state (by omega) hW hh h2.state
    refine ⟨s0, s1, s, l, e0, e1, e2, shape_of_state (j := hist.length % 8) (by omega) hh h2.state, ?_, l1, l2, l3⟩
    rw [hh, seg_length, h2.state.win.size]
    have := h2.state.le
    omega
  obtain ⟨a0, a1, a, l, ea0, ea1, ea2, ha, hal, l1, l2, l3⟩ := key h hsh hist upd hu
  obtain ⟨b0, b1, b, l', eb0, eb1, eb2, hb, hbl, k1, k2, k3⟩ := key h' hsh' hist' upd' hu'
  rw [← hw] at hb hbl k2
  obtain ⟨S, hS, hS'⟩ := shape_eq ha hb hal hbl
  refine ⟨a0, a1, a, b0, b1, b, S, ea0, ea1, ea2, eb0, eb1, eb2, hS, hS', ?_⟩
  rw [l3, k3, (List.perm_ext_iff_of_nodup l1 k1 |>.mpr fun s => by rw [l2, k2]).length_eq]

/-! ## Shrinking -/

theorem drop_seg (lo L : Nat) : (seg x 0 L).drop (8 * lo) = seg x lo (L - 8 * lo) := by
  apply List.ext_getElem
  · simp [seg]
  · intro q h1 h2
    simp [seg]

/-- removing suffixes one by one -/
theorem shrink_state (hW : W ≤ 2 ^ 31) (hM : maxOrder ≤ 8191) : ∀ (k : Nat) {ex : Prop} {lo : Nat} {t : Tree} {ctxs : List Ctx},
    StateOk luts x Pc Ic sh W maxOrder ex lo n (8 * n + 8) t ctxs → lo + k ≤ n + 1 →
    ∃ t' ctxs', shrink k t ctxs = some (t', ctxs') ∧
      ((lo + k ≤ n ∧ ∃ ex', StateOk luts x Pc Ic sh W maxOrder ex' (lo + k) n (8 * n + 8) t' ctxs') ∨
        (lo + k = n + 1 ∧ WinOk t'.window x sh W (n + 1) (n + 1) (8 * n + 8) ∧
          FlatOk x W (n + 1) n (8 * n + 8) t' ctxs')) := by
  intro k
  induction k with
  | zero =>
    intro ex lo t ctxs h hk
    exact ⟨t, ctxs, rfl, Or.inl ⟨h.le, ex, h⟩⟩
  | succ k ih =>
    intro ex lo t ctxs h hk
    obtain ⟨t1, c1, e1, hw1, -, hc1⟩ := removeLeftmost_ok (ex' := False) hW hM id h
    rw [shrink, e1, ob_some]
    dsimp only
    by_cases hlo : lo + 1 ≤ n
    · obtain ⟨t2, c2, e2, h2⟩ := ih (lo := lo + 1) ⟨hw1, hlo, hc1⟩ (by omega)
      refine ⟨t2, c2, e2, ?_⟩
      rw [show lo + (k + 1) = lo + 1 + k by omega]
      exact h2
    · obtain rfl : k = 0 := by omega
      have hle := h.le
      obtain rfl : lo = n := by omega
      refine ⟨t1, c1, rfl, Or.inr ⟨rfl, hw1, ?_⟩⟩
      rcases hc1 with ⟨N, str, cnt, hT, -⟩ | hf
      · exfalso
        obtain ⟨nd, hnd⟩ := hT.inv.root
        obtain ⟨i, g1, g2, -⟩ := (hT.inv.node 0 nd hnd).br.2 true
        omega
      · exact hf

/-- **C60.** After any input of whole bytes, the oldest suffixes can be removed one by one until the window is empty.
After every removal the window has one byte less and the tree is that of the bytes left: its nodes are the strings that
have been followed by both bits within them, and it has no other nodes. When the window is empty there is no tree. -/
theorem C60_shrink (luts : Luts) (h : LutsOk luts) (W sh maxOrder : Nat) (hW : W ≤ 2 ^ 31) (hsh : sh < W)
    (hM : maxOrder ≤ 8191) (hist : List Bool) (bytes : Nat) (hlen : hist.length = 8 * bytes)
    (upd : List CtxState → Bool → List Costs) (hu : ∀ l b, (upd l b).length = (l.filter CtxState.isNode).length) :
    ∃ s0 s1, srcNew W maxOrder sh = some s0 ∧ feed (treeSource luts) upd 0 s0 hist = some s1 ∧
      s1.tree.window.size = min bytes W ∧
      ∀ left ≤ min bytes W, ∃ t ctxs, shrink (min bytes W - left) s1.tree s1.ctxs = some (t, ctxs) ∧
        t.window.size = left ∧
        (∀ k < 8 * left, bitAt (contents t.window) k = hist.getD (hist.length - 8 * left + k) false) ∧
        (t.proper = true → ∃ live label,
          TreeShape t (hist.drop (hist.length - 8 * left)) (8 * maxOrder + 7) live label) ∧
        (t.proper = false → ctxs = [] ∧
          ∀ str, ¬ Branches (hist.drop (hist.length - 8 * left)) (8 * maxOrder + 7) str) ∧
        (∃ l : List (List Bool), l.Nodup ∧
          (∀ str, str ∈ l ↔ Branches (hist.drop (hist.length - 8 * left)) (8 * maxOrder + 7) str) ∧
          liveCount t.nodes = some l.length) ∧
        (left = 0 → t.proper = false) := by
  obtain ⟨s0, s1, e0, e1, h1⟩ := src_run (Pc := fun _ _ _ => True) h (fun _ _ _ => ⟨costsDefault, trivial⟩) hW hsh hM
    hu (fun _ _ _ _ _ => allowed_const (fun _ _ => trivial)) hist
  have hnil : ∀ str, ¬ Branches (hist.drop hist.length) (8 * maxOrder + 7) str := by
    rintro str ⟨-, hb⟩
    obtain ⟨i, hi, -⟩ := hb true
    rw [List.drop_length, List.length_append] at hi
    simp at hi
  refine ⟨s0, s1, e0, e1, ?_⟩
  have flat0 : ∀ {t : Tree} {ctxs : List Ctx} {N : Live}, Rep (max 1 (W - 1)) t.nodes N 0 →
      (∃ nd, N 0 = some nd ∧ nodeIsValid nd = false) → liveCount t.nodes = some 0 := by
    rintro t ctxs N hR ⟨n0, hn0, hn1⟩
    rw [rep_count hR hn0, if_neg (by rw [hn1]; simp)]
  rcases h1 with ⟨hL, ho, hb, hc, hp, hw, N, hR, hN, -⟩ | ⟨n, j, hL, hj1, hj2, ho, hb, hst⟩
  · have hb0 : bytes = 0 := by omega
    subst hb0
    have hsz := hw.size
    refine ⟨by omega, ?_⟩
    intro left hle
    obtain rfl : left = 0 := by omega
    refine ⟨s1.tree, s1.ctxs, rfl, hsz, by intro k hk; omega, fun h => (by rw [hp] at h; simp at h), fun _ => ⟨hc, hnil⟩,
      ⟨[], by simp, ?_, flat0 (ctxs := []) hR hN⟩, fun _ => hp⟩
    intro str
    rw [Nat.mul_zero, Nat.sub_zero]
    exact iff_of_false List.not_mem_nil (hnil str)
  · obtain rfl : j = 8 := by omega
    have hbn : bytes = n + 1 := by omega
    subst hbn
    have hsz := hst.win.size
    refine ⟨by omega, ?_⟩
    intro left hle
    obtain ⟨t, ctxs, e, hcase⟩ := shrink_state hW hM (min (n + 1) W - left) hst (by omega)
    refine ⟨t, ctxs, e, ?_⟩
    have hlo : n + 1 - W + (min (n + 1) W - left) = n + 1 - left := by omega
    rw [hlo] at hcase
    rcases hcase with ⟨h2, ex', h2'⟩ | ⟨h2, hw, hf⟩
    · have hh : hist.drop (hist.length - 8 * left) = seg (fun i => hist.getD i false) (n + 1 - left)
          (8 * n + 8 - 8 * (n + 1 - left)) := by
        have := drop_seg (x := fun i => hist.getD i false) (n + 1 - left) hist.length
        rw [seg_getD_self] at this
        rw [show hist.length - 8 * left = 8 * (n + 1 - left) by omega, this]
        congr 1
        omega
      obtain ⟨c1, c2⟩ := shape_of_state (j := 8) (le_refl _) hh h2'
      obtain ⟨l, l1, l2, l3, -⟩ := count_of_state (j := 8) (le_refl _) hW hh h2'
      refine ⟨by rw [h2'.win.size]; omega, ?_, c1, ?_, ⟨l, l1, l2, l3⟩, by omega⟩
      · intro k hk
        have := h2'.win.bits (n + 1 - left + k / 8) (k % 8) (by omega) (by omega) (by omega) (by omega)
        rw [show 8 * (n + 1 - left + k / 8 - (n + 1 - left)) + k % 8 = k by omega] at this
        rw [this]
        congr 1; omega
      · intro hp
        refine ⟨?_, c2 hp⟩
        rcases h2'.cases with ⟨N, str, cnt, hT, -⟩ | ⟨-, hc, -⟩
        · rw [hT.proper] at hp; simp at hp
        · exact hc
    · obtain rfl : left = 0 := by omega
      obtain ⟨hp, hc, -, N, hR, hN, -⟩ := hf
      refine ⟨by rw [hw.size]; omega, by intro k hk; omega, fun h => (by rw [hp] at h; simp at h), fun _ => ⟨hc, hnil⟩,
        ⟨[], by simp, ?_, flat0 (ctxs := []) hR hN⟩, fun _ => hp⟩
      intro str
      rw [Nat.mul_zero, Nat.sub_zero]
      exact iff_of_false List.not_mem_nil (hnil str)

/-- **C60 (same shape).** Two sources whose inputs end with the same bytes, shrunk to these bytes, have trees of the
same shape and with equally many nodes. -/
theorem C60_same_shape (luts luts' : Luts) (h : LutsOk luts) (h' : LutsOk luts') (W sh sh' maxOrder : Nat)
    (hW : W ≤ 2 ^ 31) (hsh : sh < W) (hsh' : sh' < W) (hM : maxOrder ≤ 8191) (hist hist' : List Bool)
    (bytes bytes' left : Nat) (hlen : hist.length = 8 * bytes) (hlen' : hist'.length = 8 * bytes')
    (hl : left ≤ min bytes W) (hl' : left ≤ min bytes' W)
    (hw : hist.drop (hist.length - 8 * left) = hist'.drop (hist'.length - 8 * left))
    (upd upd' : List CtxState → Bool → List Costs)
    (hu : ∀ l b, (upd l b).length = (l.filter CtxState.isNode).length)
    (hu' : ∀ l b, (upd' l b).length = (l.filter CtxState.isNode).length) :
    ∃ a0 a1 a actx b0 b1 b bctx S, srcNew W maxOrder sh = some a0 ∧ feed (treeSource luts) upd 0 a0 hist = some a1 ∧
      shrink (min bytes W - left) a1.tree a1.ctxs = some (a, actx) ∧
      srcNew W maxOrder sh' = some b0 ∧ feed (treeSource luts') upd' 0 b0 hist' = some b1 ∧
      shrink (min bytes' W - left) b1.tree b1.ctxs = some (b, bctx) ∧
      TreeIs a S ∧ TreeIs b S ∧ liveCount a.nodes = liveCount b.nodes := by
  obtain ⟨a0, a1, ea0, ea1, -, ha⟩ := C60_shrink luts h W sh maxOrder hW hsh hM hist bytes hlen upd hu
  obtain ⟨b0, b1, eb0, eb1, -, hb⟩ := C60_shrink luts' h' W sh' maxOrder hW hsh' hM hist' bytes' hlen' upd' hu'
  obtain ⟨a, actx, ea, as, -, a2, a3, ⟨l, l1, l2, l3⟩, -⟩ := ha left hl
  obtain ⟨b, bctx, eb, bs, -, b2, b3, ⟨k, k1, k2, k3⟩, -⟩ := hb left hl'
  rw [← hw] at b2 b3 k2
  have hd : (hist.drop (hist.length - 8 * left)).length ≤ 8 * left := by
    rw [List.length_drop]
    omega
  obtain ⟨S, hS, hS'⟩ := shape_eq ⟨a2, fun hp => (a3 hp).2⟩ ⟨b2, fun hp => (b3 hp).2⟩ (as.symm ▸ hd) (bs.symm ▸ hd)
  refine ⟨a0, a1, a, actx, b0, b1, b, bctx, S, ea0, ea1, ea, eb0, eb1, eb, hS, hS', ?_⟩
  rw [l3, k3, (List.perm_ext_iff_of_nodup l1 k1 |>.mpr fun s => by rw [l2, k2]).length_eq]

/-! ## A tree has one shape only -/

theorem posOf_inj {w : Win} (h : w.size ≤ w.max) {a b : Nat} (ha : a < w.size) (hb : b < w.size)
    (he : posOf w a = posOf w b) : a = b := by
  unfold posOf at he
  exact Nat.ModEq.eq_of_lt_of_lt (Nat.ModEq.add_left_cancel' w.start he) (by omega) (by omega)

theorem HasShape.inv {t : Tree} {c : Int} {S : Shape} (h : HasShape t c S) :
    (∃ a, a < t.window.size ∧ c = posOf t.window a ∧ S = .leaf a) ∨
    ∃ (v : Nat) (nd : Node) (a : Nat) (l r : Shape), c = -(v : Int) - 1 ∧ nodesGet t.nodes v = some nd ∧ a < t.window.size ∧
      nd.textStart = posOf t.window a ∧ HasShape t nd.left l ∧ HasShape t nd.right r ∧ S = .node nd.depth a l r := by
  cases h with
  | leaf h => exact Or.inl ⟨_, h, rfl, rfl⟩
  | node h1 h2 h3 h4 h5 h6 => exact Or.inr ⟨_, _, _, _, _, rfl, h2, h3, h4, h5, h6, rfl⟩

theorem HasShape.det {t : Tree} (h : t.window.size ≤ t.window.max) {c : Int} {S : Shape} (h1 : HasShape t c S) :
    ∀ {S' : Shape}, HasShape t c S' → S = S' := by
  induction h1 with
  | leaf ha =>
    intro S' h2
    rcases h2.inv with ⟨b, hb, hc, rfl⟩ | ⟨v, nd, a, l, r, hc, -⟩
    · rw [posOf_inj h ha hb (by exact_mod_cast hc)]
    · omega
  | node hv hn ha ht _ _ ihl ihr =>
    intro S' h2
    rcases h2.inv with ⟨b, hb, hc, rfl⟩ | ⟨v', nd', a', l', r', hc, hn', ha', ht', hl', hr', rfl⟩
    · omega
    · rename_i v nd a l r _ _
      obtain rfl : v = v' := by omega
      obtain rfl := Option.some.inj (hn.symm.trans hn')
      rw [posOf_inj h ha ha' (ht.symm.trans ht'), ihl hl', ihr hr']

/-- the shape says which tree it is: no tree has two -/
theorem TreeIs.det {t : Tree} (h : t.window.size ≤ t.window.max) {S S' : Option (Nat × Shape × Shape)} (h1 : TreeIs t S)
    (h2 : TreeIs t S') : S = S' := by
  match S, S', h1, h2 with
  | none, none, _, _ => rfl
  | none, some _, h1, ⟨h2, _⟩ => rw [show t.proper = false from h1] at h2; simp at h2
  | some _, none, ⟨h1, _⟩, h2 => rw [show t.proper = false from h2] at h1; simp at h1
  | some (d, l, r), some (d', l', r'), ⟨_, nd, g1, g2, g3, g4⟩, ⟨_, nd', k1, k2, k3, k4⟩ =>
    obtain rfl := Option.some.inj (g1.symm.trans k1)
    rw [← g2, ← k2, g3.det h k3, g4.det h k4]

/-! ## The hypotheses are met -/

/-- the window of two bytes forgets the byte in which these inputs differ, and starts at different places -/
example : ∃ luts, LutsOk luts ∧ ∃ a0 a1 a b0 b1 b S, srcNew 2 3 1 = some a0 ∧
    feed (treeSource luts) (fun l _ => List.replicate (l.filter CtxState.isNode).length costsDefault) 0 a0
      (List.replicate 8 true ++ List.replicate 8 false ++ [true, false, true]) = some a1 ∧
    ready (treeSource luts) 19 a1 = some a ∧ srcNew 2 3 0 = some b0 ∧
    feed (treeSource luts) (fun l _ => List.replicate (l.filter CtxState.isNode).length costsDefault) 0 b0
      (List.replicate 4 true ++ List.replicate 12 false ++ [true, false, true]) = some b1 ∧
    ready (treeSource luts) 19 b1 = some b ∧ TreeIs a.tree S ∧ TreeIs b.tree S ∧
    liveCount a.tree.nodes = liveCount b.tree.nodes := by
  obtain ⟨luts, h⟩ := luts_exist
  exact ⟨luts, h, C61_same_shape luts luts h h 2 1 0 3 (by norm_num) (by norm_num) (by norm_num) (by norm_num)
    (List.replicate 8 true ++ List.replicate 8 false ++ [true, false, true])
    (List.replicate 4 true ++ List.replicate 12 false ++ [true, false, true]) (by decide) _ _ (fun l b => by simp)
    (fun l b => by simp)⟩

/-- two inputs that end with the same byte, shrunk to this byte -/
example : ∃ luts, LutsOk luts ∧ ∃ a0 a1 a actx, srcNew 2 3 1 = some a0 ∧
    feed (treeSource luts) (fun l _ => List.replicate (l.filter CtxState.isNode).length costsDefault) 0 a0
      (List.replicate 8 true ++ List.replicate 16 false) = some a1 ∧
    shrink 1 a1.tree a1.ctxs = some (a, actx) ∧ a.window.size = 1 := by
  obtain ⟨luts, h⟩ := luts_exist
  obtain ⟨a0, a1, e0, e1, -, h1⟩ := C60_shrink luts h 2 1 3 (by norm_num) (by norm_num) (by norm_num)
    (List.replicate 8 true ++ List.replicate 16 false) 3 (by decide)
    (fun l _ => List.replicate (l.filter CtxState.isNode).length costsDefault) (fun l b => by simp)
  obtain ⟨a, actx, e2, h2, -⟩ := h1 1 (by norm_num)
  exact ⟨luts, h, a0, a1, a, actx, e0, e1, e2, h2⟩

/-- a tree and its shape: the bytes 5 and 96 differ in their second bit -/
example : TreeIs ⟨⟨[{ nodeInvalid with left := 0, right := 1, depth := 1 }], none, 0, 1⟩, ⟨[5, 96, 7], 0, 2, 3, 3⟩, true⟩
    (some (1, .leaf 0, .leaf 1)) :=
  ⟨rfl, _, rfl, rfl, .leaf (age := 0) (by decide), .leaf (age := 1) (by decide)⟩

end Verif.Tree
