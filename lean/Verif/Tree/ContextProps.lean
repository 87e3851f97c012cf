import Verif.Tree.ShapeProps

/-!
# C30, C61: the active contexts

Where the contexts of the tree are, in terms of the bytes in the window, and that equal windows have equal contexts.
-/

namespace Verif.Tree

open Verif Verif.History Verif.Window

variable {luts : Luts} {Pc : Str → List Bool → Costs → Prop} {Ic : Nat → Nat → Prop} {x : Nat → Bool} {sh W lo n j maxOrder : Nat}

/-! ## Specification -/

/-- the context of order `m` is in its place: its suffix is the last place in the window where its bits have been read
and followed by another bit; it is at the node of the shortest branching string that starts with its bits or, if no
branching string does, on the way from a node to a leaf, in the direction it holds -/
structure ContextAt (t : Tree) (hist : List Bool) (D : Nat) (live : Nat → Option Node) (label : Nat → List Bool) (m : Nat)
    (ctx : Ctx) : Prop where
  suffix : ∃ i ∈ occs hist m, (∀ i' ∈ occs hist m, i' ≤ i) ∧ ctx.suffix = (t.window.start + i) % t.window.max
  place : ∃ nd, live ctx.node = some nd ∧
    ((ctx.inLeaf = false ∧ context hist m <+: label ctx.node ∧
        ∀ s, Branches hist D s → context hist m <+: s → label ctx.node <+: s) ∨
      (ctx.inLeaf = true ∧ ∃ c, ctx.dir = some c ∧ label ctx.node ++ [c] <+: context hist m ∧
        ∀ s, Branches hist D s → ¬ label ctx.node ++ [c] <+: s))

/-- the contexts of a tree: one for each order whose context has occurred in the window, each in its place -/
def ContextsAre (t : Tree) (ctxs : List Ctx) (hist : List Bool) (D maxOrder : Nat) (live : Nat → Option Node)
    (label : Nat → List Bool) : Prop :=
  (∀ m, m < ctxs.length ↔ m ≤ maxOrder ∧ occs hist m ≠ []) ∧
  ∀ (m : Nat) ctx, ctxs[m]? = some ctx → ContextAt t hist D live label m ctx

/-! ## Proof -/

theorem contexts_of_state (hj : j < 8) {t : Tree} {ctxs : List Ctx} {ex : Prop} {hist : List Bool}
    (hh : hist = seg x lo (8 * n + j - 8 * lo)) (h : StateOk luts x Pc Ic sh W maxOrder ex lo n (8 * n + j) t ctxs) :
    (t.proper = true → ∃ live label, TreeShape t hist (8 * maxOrder + 7) live label ∧
      ContextsAre t ctxs hist (8 * maxOrder + 7) maxOrder live label) ∧
    (t.proper = false → ctxs = [] ∧ ∀ s, ¬ Branches hist (8 * maxOrder + 7) s) := by
  obtain ⟨-, hflat⟩ := shape_of_state (le_of_lt hj) hh h
  have hst := h
  obtain ⟨hw, hle, hc⟩ := h
  refine ⟨fun hp => ?_, fun hp => ⟨?_, hflat hp⟩⟩
  · rcases hc with ⟨N, str, cnt, hT, hC⟩ | ⟨hp', -⟩
    · refine ⟨N, str, shape_of_tree (le_of_lt hj) hh hw hle hT, ?_, ?_⟩
      · intro m
        constructor
        · intro hm
          have h1 := hC.len
          have h2 := hC.size
          refine ⟨by omega, ?_⟩
          obtain ⟨⟨i, hi, -⟩, -⟩ := hC.info m _ (List.getElem?_eq_getElem hm)
          have hlo := (known_occ.mp hi.1).1
          have := (win_occs (k := m) hle hj (by omega) (i - lo)).mpr (by rw [show lo + (i - lo) = i by omega]; exact hi.1)
          rw [← hh] at this
          exact List.ne_nil_of_mem this
        · rintro ⟨h1, h2⟩
          by_contra hm
          obtain ⟨i, hi⟩ := List.exists_mem_of_ne_nil _ h2
          rw [hh] at hi h2
          have hk : lo + m ≤ n := by
            by_contra hk
            exact h2 (win_none hle hj hk)
          exact hC.none m (by omega) h1 hk _ ((win_occs hle hj hk i).mp hi)
      · intro m ctx hm
        have hlt := (List.getElem?_eq_some_iff.mp hm).1
        have hsz := hC.size
        have hcs : context hist m = cs x n (8 * n + j) m := by
          rw [hh]; exact win_context hle hj (by omega)
        have hbr : ∀ {s}, Branches hist (8 * maxOrder + 7) s ↔ Br (Known x lo n (8 * n + j) 0) (8 * maxOrder + 7) s :=
          branches_iff hle (le_of_lt hj) hh
        obtain ⟨⟨i, hi, hsuf⟩, -⟩ := hC.info m ctx hm
        have hlo := (known_occ.mp hi.1).1
        refine ⟨⟨i - lo, ?_, ?_, ?_⟩, ?_⟩
        · rw [hh, win_occs hle hj (by omega), show lo + (i - lo) = i by omega]
          exact hi.1
        · intro i' hi'
          rw [hh, win_occs hle hj (by omega)] at hi'
          have := hi.2 _ hi'
          omega
        · rw [hsuf, hw.start, hw.max]
          unfold pos
          rw [Nat.mod_add_mod]
          congr 1
          omega
        · obtain ⟨nd, g1, g2⟩ := hC.loc m ctx hm
          refine ⟨nd, g1, ?_⟩
          rw [hcs]
          rcases g2 with ⟨g2, g3⟩ | ⟨g2, c, g3, g4, -⟩
          · exact Or.inl ⟨g2, g3.2.1, fun s hs => g3.2.2 s (hbr.mp hs)⟩
          · exact Or.inr ⟨g2, c, g3, g4, fun s hs => hC.set m ctx hm g2 c g3 s (hbr.mp hs)⟩
    · rw [hp] at hp'; simp at hp'
  · rcases hc with ⟨N, str, cnt, hT, -⟩ | ⟨-, hc, -⟩
    · rw [hT.proper] at hp; simp at hp
    · exact hc

/-- **C30 (places of the contexts).** For every input, however long, once the tree is ready for the next bit, there is one context for
each order whose bits have occurred within the window; each remembers the last place where they have, and is at the node of
the shortest branching string that starts with them or, if there is none, on the way to a leaf. If there is no tree there are no contexts. -/
theorem C30_places (luts : Luts) (h : LutsOk luts) (W sh maxOrder : Nat) (hW : W ≤ 2 ^ 31) (hsh : sh < W)
    (hM : maxOrder ≤ 8191) (hist : List Bool) (upd : List CtxState → Bool → List Costs)
    (hu : ∀ l b, (upd l b).length = (l.filter CtxState.isNode).length) :
    ∃ s0 s1 s, srcNew W maxOrder sh = some s0 ∧ feed (treeSource luts) upd 0 s0 hist = some s1 ∧
      ready (treeSource luts) hist.length s1 = some s ∧ (windowed W hist).length ≤ 8 * s.tree.window.size ∧
      (s.tree.proper = true → ∃ live label, TreeShape s.tree (windowed W hist) (8 * maxOrder + 7) live label ∧
        ContextsAre s.tree s.ctxs (windowed W hist) (8 * maxOrder + 7) maxOrder live label) ∧
      (s.tree.proper = false → s.ctxs = [] ∧ ∀ str, ¬ Branches (windowed W hist) (8 * maxOrder + 7) str) := by
  obtain ⟨s0, s1, e0, e1, h1⟩ := src_run (Pc := fun _ _ _ => True) h (fun _ _ _ => ⟨costsDefault, trivial⟩) hW hsh hM
    hu (fun _ _ _ _ _ => allowed_const (fun _ _ => trivial)) hist
  obtain ⟨s, e2, h2⟩ := src_ready hW (by omega) hM h1
  have hh : windowed W hist = seg (fun i => hist.getD i false) (hist.length / 8 + 1 - W)
      (8 * (hist.length / 8) + hist.length % 8 - 8 * (hist.length / 8 + 1 - W)) := by
    have := windowed_seg (x := fun i => hist.getD i false) (W := W) (L := hist.length)
    rw [seg_getD_self] at this
    rw [this]
    congr 1
    omega
  refine ⟨s0, s1, s, e0, e1, e2, ?_, contexts_of_state (j := hist.length % 8) (by omega) hh h2.state⟩
  rw [hh, seg_length, h2.state.win.size]
  have := h2.state.le
  omega

/-- two contexts in the same place: at nodes of the same depth whose children have the same shapes, both or none on the
way to a leaf, and then in the same direction, with suffixes of the same age -/
def SamePlace (t t' : Tree) (c c' : Ctx) : Prop :=
  (∃ nd nd' l r, nodesGet t.nodes c.node = some nd ∧ nodesGet t'.nodes c'.node = some nd' ∧ nd.depth = nd'.depth ∧
    HasShape t nd.left l ∧ HasShape t' nd'.left l ∧ HasShape t nd.right r ∧ HasShape t' nd'.right r) ∧
  c.inLeaf = c'.inLeaf ∧ (c.inLeaf = true → c.dir = c'.dir) ∧
  ∃ age, age < t.window.size ∧ age < t'.window.size ∧ c.suffix = posOf t.window age ∧ c'.suffix = posOf t'.window age

theorem same_place {t t' : Tree} {hist : List Bool} {D m : Nat} {live live' : Nat → Option Node}
    {label label' : Nat → List Bool} (h : TreeShape t hist D live label) (h' : TreeShape t' hist D live' label')
    (hs : hist.length ≤ 8 * t.window.size) (hs' : hist.length ≤ 8 * t'.window.size) {c c' : Ctx}
    (hc : ContextAt t hist D live label m c) (hc' : ContextAt t' hist D live' label' m c') : SamePlace t t' c c' := by
  obtain ⟨⟨i, i1, i2, i3⟩, nd, n1, n2⟩ := hc
  obtain ⟨⟨i', i1', i2', i3'⟩, nd', n1', n2'⟩ := hc'
  obtain rfl : i = i' := Nat.le_antisymm (i2' i i1) (i2 i' i1')
  have hi : i < hist.length / 8 := by
    unfold occs at i1
    rw [List.mem_filter, List.mem_range] at i1
    omega
  have hage : ∃ age, age < t.window.size ∧ age < t'.window.size ∧ c.suffix = posOf t.window age ∧
      c'.suffix = posOf t'.window age := ⟨i, by omega, by omega, i3, i3'⟩
  have key : label c.node = label' c'.node ∧ c.inLeaf = c'.inLeaf ∧ (c.inLeaf = true → c.dir = c'.dir) := by
    rcases n2 with ⟨a1, a2, a3⟩ | ⟨a1, d, a2, a3, a4⟩
    · rcases n2' with ⟨b1, b2, b3⟩ | ⟨b1, d', b2, b3, b4⟩
      · refine ⟨?_, by rw [a1, b1], by rw [a1]; simp⟩
        have p1 := a3 _ (h'.sound _ _ n1').1 b2
        have p2 := b3 _ (h.sound _ _ n1).1 a2
        exact p1.eq_of_length (Nat.le_antisymm p1.length_le p2.length_le)
      · exact absurd (b3.trans a2) (b4 _ (h.sound _ _ n1).1)
    · rcases n2' with ⟨b1, b2, b3⟩ | ⟨b1, d', b2, b3, b4⟩
      · exact absurd (a3.trans b2) (a4 _ (h'.sound _ _ n1').1)
      · have hlen : (label c.node).length = (label' c'.node).length := by
          rcases Nat.lt_trichotomy (label c.node).length (label' c'.node).length with hl | hl | hl
          · exact absurd (List.prefix_of_prefix_length_le a3 ((List.prefix_append _ _).trans b3) (by simp; omega))
              (a4 _ (h'.sound _ _ n1').1)
          · exact hl
          · exact absurd (List.prefix_of_prefix_length_le b3 ((List.prefix_append _ _).trans a3) (by simp; omega))
              (b4 _ (h.sound _ _ n1).1)
        have he : label c.node ++ [d] = label' c'.node ++ [d'] :=
          (List.prefix_of_prefix_length_le a3 b3 (by simp [hlen])).eq_of_length (by simp [hlen])
        obtain ⟨e1, e2⟩ := List.append_inj he hlen
        refine ⟨e1, by rw [a1, b1], fun _ => ?_⟩
        rw [a2, b2]
        simpa using e2
  obtain ⟨k1, k2, k3⟩ := key
  obtain ⟨hd, l, r, l1, l2, r1, r2⟩ := shape_node h h' hs hs' D n1 n1' k1 (by omega)
  exact ⟨⟨nd, nd', l, r, h.node _ _ n1, h'.node _ _ n1', hd, l1, l2, r1, r2⟩, k2, k3, hage⟩

/-- **C61 (contexts).** Two sources whose windows hold the same bits have equally many contexts, and those of the same
order are in the same place, whatever preceded, wherever the windows start in their buffers, and however cost trackers were
updated. -/
theorem C61_contexts (luts luts' : Luts) (h : LutsOk luts) (h' : LutsOk luts') (W sh sh' maxOrder : Nat)
    (hW : W ≤ 2 ^ 31) (hsh : sh < W) (hsh' : sh' < W) (hM : maxOrder ≤ 8191) (hist hist' : List Bool)
    (hw : windowed W hist = windowed W hist')
    (upd upd' : List CtxState → Bool → List Costs)
    (hu : ∀ l b, (upd l b).length = (l.filter CtxState.isNode).length)
    (hu' : ∀ l b, (upd' l b).length = (l.filter CtxState.isNode).length) :
    ∃ a0 a1 a b0 b1 b, srcNew W maxOrder sh = some a0 ∧ feed (treeSource luts) upd 0 a0 hist = some a1 ∧
      ready (treeSource luts) hist.length a1 = some a ∧
      srcNew W maxOrder sh' = some b0 ∧ feed (treeSource luts') upd' 0 b0 hist' = some b1 ∧
      ready (treeSource luts') hist'.length b1 = some b ∧
      List.Forall₂ (SamePlace a.tree b.tree) a.ctxs b.ctxs := by
  obtain ⟨a0, a1, a, ea0, ea1, ea2, hal, ha1, ha2⟩ := C30_places luts h W sh maxOrder hW hsh hM hist upd hu
  obtain ⟨b0, b1, b, eb0, eb1, eb2, hbl, hb1, hb2⟩ := C30_places luts' h' W sh' maxOrder hW hsh' hM hist' upd' hu'
  rw [← hw] at hb1 hb2 hbl
  refine ⟨a0, a1, a, b0, b1, b, ea0, ea1, ea2, eb0, eb1, eb2, ?_⟩
  cases hp : a.tree.proper with
  | false =>
    cases hp' : b.tree.proper with
    | false => rw [(ha2 hp).1, (hb2 hp').1]; exact .nil
    | true =>
      obtain ⟨live, label, hS, -⟩ := hb1 hp'
      obtain ⟨nd, hnd⟩ := hS.root
      exact absurd (hS.sound 0 nd hnd).1 ((ha2 hp).2 _)
  | true =>
    cases hp' : b.tree.proper with
    | false =>
      obtain ⟨live, label, hS, -⟩ := ha1 hp
      obtain ⟨nd, hnd⟩ := hS.root
      exact absurd (hS.sound 0 nd hnd).1 ((hb2 hp').2 _)
    | true =>
      obtain ⟨live, label, hS, hC1, hC2⟩ := ha1 hp
      obtain ⟨live', label', hS', hC1', hC2'⟩ := hb1 hp'
      have hlen : a.ctxs.length = b.ctxs.length := by
        rcases Nat.lt_trichotomy a.ctxs.length b.ctxs.length with hl | hl | hl
        · have := (hC1 _).mpr ((hC1' _).mp hl); omega
        · exact hl
        · have := (hC1' _).mpr ((hC1 _).mp hl); omega
      exact forall2_of_get hlen fun m c c' hc hc' => same_place hS hS' hal hbl (hC2 m c hc) (hC2' m c' hc')

/-! ## What is not the same -/

/-- the bits of bytes, most significant bit first -/
def bitsOf (bytes : List Nat) : List Bool := bytes.flatMap fun y => (List.range 8).map fun i => y.testBit (7 - i)

/-- the first entries of the tables -/
def shortLuts : Luts :=
  ⟨[1073741824, 715827882, 536870912, 429496729, 357913941, 306783378, 268435456, 238609294, 214748364, 195225786,
    178956970, 165191049, 153391689, 143165576, 134217728, 126322567],
   [1073741825, 2147483650, 2684354563, 3006477316, 3221225477, 3374617606, 3489660935, 3579139080, 3650721801,
    3709290506, 3758096395, 3799394316, 3834791949, 3865469966, 3892313103, 3915998224],
   [32768, 34816, 34892, 34396, 33661, 32814, 31919, 31011, 30113, 29234, 28385, 27568, 26786, 26041, 25334, 24663]⟩

/-- `in_leaf` and `direction_from_parent` of the contexts, once a byte has been started after `bytes` -/
def directions (W maxOrder : Nat) (bytes : List Nat) : Option (List (Bool × Option Bool)) := do
  let s0 ← srcNew W maxOrder 0
  let s1 ← feed (treeSource shortLuts) (fun l _ => List.replicate (l.filter CtxState.isNode).length costsDefault) 0 s0
    (bitsOf bytes)
  let s ← ready (treeSource shortLuts) (bitsOf bytes).length s1
  some (s.ctxs.map fun ctx => (ctx.inLeaf, ctx.dir))

/-- The direction held by a context that is not on the way to a leaf may be out of date: after one and the same 14 bytes,
the whole window of 14 bytes, it depends on whether the byte 96 preceded them. So the comparison of the contexts at
`tests/sliding_window_trees.rs:449-456`, which includes the directions of all contexts, would fail for the prefixes
`[96]` and `[]`, window size 14, maximal order 3 and these bytes followed by any other. The code uses the direction of a context on the way to a leaf
only, where `C61_contexts` holds. (Computed with the first entries of the tables, which is all that is read here.) -/
example : directions 14 3 [96, 97, 98, 120, 97, 98, 121, 97, 98, 120, 97, 98, 121, 97, 98] =
      some [(false, none), (false, some true), (false, some true), (true, some true)] ∧
    directions 14 3 [97, 98, 120, 97, 98, 121, 97, 98, 120, 97, 98, 121, 97, 98] =
      some [(false, none), (false, some true), (false, some false), (true, some true)] := by decide +kernel

/-- the hypotheses of `C61_contexts` are met by inputs that differ -/
example : windowed 14 (bitsOf [96, 97, 98, 120, 97, 98, 121, 97, 98, 120, 97, 98, 121, 97, 98]) =
    windowed 14 (bitsOf [97, 98, 120, 97, 98, 121, 97, 98, 120, 97, 98, 121, 97, 98]) := by decide +kernel

end Verif.Tree
