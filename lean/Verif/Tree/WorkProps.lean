import Verif.Tree.ShapeProps
import Verif.Tree.ContextProps

/-!
# C81: the work of the history tree per bit and its memory

The rounds of the loops are counted. Everything outside of loops takes a fixed number of steps.
-/

namespace Verif.Tree

open Verif Verif.History Verif.Window

/-! ## Counting rounds -/

/-- rounds of the walk to the leaf of the oldest suffix (`mod.rs:138-159`): the least number with which the model of the
walk gets to its end -/
def walkRounds (t : Tree) : Option Nat := (List.range 65537).find? fun rounds => (walk t rounds none 0).isSome

/-- rounds of `remove_leftmost_suffix` (`mod.rs:127-274`): the walk, and at most three loops over the contexts
(`mod.rs:163-164`, `169-175`, `183-187`, `210-213`, `225-233`, `238-246`) -/
def removeRounds (s : Src) : Option Nat :=
  if s.tree.proper then do
    let r ← walkRounds s.tree
    some (r + 3 * s.ctxs.length)
  else some 0

/-- rounds of the removal, when the window is full (`mod.rs:118-122`) -/
def roomRounds (s : Src) : Option Nat := if s.tree.window.size = s.tree.window.max then removeRounds s else some 0

/-- rounds of `start_new_byte` (`mod.rs:72-77`, `117-125`): the removal, when the window is full, and the insertion at the
front of the contexts (`context.rs:117-123`) -/
def startRounds (s : Src) : Option Nat := do
  let r ← roomRounds s
  some (r + s.ctxs.length)

/-- rounds of `gather_history_states` (`mod.rs:422-452`, `458-467`) -/
def gatherRounds (s : Src) : Nat :=
  if s.tree.proper then s.ctxs.length else min (s.maxOrder + 1) (s.tree.window.size - 1)

/-- rounds of `process_input_bit` (`mod.rs:479-518`, `621-663`), at most -/
def processRounds (s : Src) : Nat :=
  if s.tree.proper then s.ctxs.length else min s.maxOrder (s.tree.window.size - 2) + 1

/-- rounds before a bit: a byte is started before its first bit -/
def readyRounds (n : Nat) (s : Src) : Option Nat := if n % 8 = 0 then startRounds s else some 0

/-- rounds for feeding bits, as `feed` does -/
def feedRounds (luts : Luts) (upd : List CtxState → Bool → List Costs) : Nat → Src → List Bool → Option Nat
  | _, _, [] => some 0
  | n, s, b :: bits => do
    let r0 ← readyRounds n s
    let s ← ready (treeSource luts) n s
    let states ← srcGather s
    let s' ← srcProcess luts s b (upd states b)
    let r ← feedRounds luts upd (n + 1) s' bits
    some (r0 + gatherRounds s + processRounds s + r)

/-! ## Proof -/

variable {luts : Luts} {x : Nat → Bool} {Pc : Str → List Bool → Costs → Prop} {Ic : Nat → Nat → Prop}
  {sh W maxOrder n j lo : Nat}

theorem find_range {p : Nat → Bool} {n k : Nat} (hk : k < n) (h : p k = true) :
    ∃ r ≤ k, (List.range n).find? p = some r := by
  cases e : (List.range n).find? p with
  | none => exact absurd h (List.find?_eq_none.mp e k (List.mem_range.mpr hk))
  | some r =>
    refine ⟨r, ?_, rfl⟩
    by_contra hr
    obtain ⟨-, as, bs, h1, h2⟩ := List.find?_eq_some_iff_append.mp e
    have hlt : r < n := List.mem_range.mp (by rw [h1]; simp)
    have hlen : as.length = r := by
      have h3 : (List.range n)[as.length]? = some r := by rw [h1]; simp
      rw [List.getElem?_range (by
        have := congrArg List.length h1
        simp at this
        omega)] at h3
      simpa using h3
    have hmem : k ∈ as := by
      have h3 : (List.range n)[k]? = some k := by rw [List.getElem?_range hk]
      rw [h1, List.getElem?_append_left (by omega)] at h3
      exact List.mem_of_getElem? h3
    have := h2 k hmem
    rw [h] at this
    simp at this

theorem ctxs_len {t : Tree} {ctxs : List Ctx} {ex : Prop} {L : Nat}
    (h : StateOk luts x Pc Ic sh W maxOrder ex lo n L t ctxs) : ctxs.length ≤ maxOrder + 1 := by
  rcases h.cases with ⟨N, str, cnt, -, hC⟩ | ⟨-, rfl, -⟩
  · exact hC.len
  · simp

theorem walk_rounds (hW : W ≤ 2 ^ 31) (hM : maxOrder ≤ 8191) {t : Tree} {ctxs : List Ctx} {ex : Prop}
    (h : StateOk luts x Pc Ic sh W maxOrder ex lo n (8 * n + 8) t ctxs) (hp : t.proper = true) :
    ∃ r ≤ 8 * maxOrder + 8, walkRounds t = some r := by
  rcases h.cases with ⟨N, str, cnt, hT, -⟩ | ⟨hf, -⟩
  · obtain ⟨nd, hnd⟩ := hT.inv.root
    have hd := root_depth hT.inv
    have hle := h.le
    obtain ⟨f, hf, -⟩ := walk_ok hW h.win hT (8 * maxOrder + 8) none 0 nd hnd (by omega) (by
      rw [known_occ]
      refine ⟨le_refl _, hle, ?_, by omega⟩
      rw [root_seg hT.inv (le_refl _) (by omega) (le_refl _) hle, List.take_length]) (Or.inl ⟨rfl, rfl⟩)
    exact find_range (by omega) (by rw [hf]; rfl)
  · rw [hf] at hp; simp at hp

theorem start_rounds (hW : W ≤ 2 ^ 31) (hM : maxOrder ≤ 8191) {L : Nat} {s : Src} (hL : L % 8 = 0)
    (h : SrcAt luts x Pc sh W maxOrder L s) : ∃ r ≤ 12 * (maxOrder + 1), startRounds s = some r := by
  have key : ∃ r ≤ 11 * (maxOrder + 1), removeRounds s = some r ∧ s.ctxs.length ≤ maxOrder + 1 := by
    rcases h with ⟨-, h⟩ | ⟨n, j, rfl, h1, h2, h⟩
    · refine ⟨0, by omega, ?_, by rw [h.ctxs]; simp⟩
      rw [removeRounds, if_neg (by rw [h.proper]; simp)]
    · obtain rfl : j = 8 := by omega
      have hl := ctxs_len h.state
      by_cases hp : s.tree.proper = true
      · obtain ⟨r, hr, e⟩ := walk_rounds hW hM h.state hp
        refine ⟨r + 3 * s.ctxs.length, by omega, ?_, hl⟩
        rw [removeRounds, if_pos hp, e, ob_some]
      · exact ⟨0, by omega, by rw [removeRounds, if_neg hp], hl⟩
  obtain ⟨r, hr, e, hl⟩ := key
  by_cases hs : s.tree.window.size = s.tree.window.max
  · exact ⟨r + s.ctxs.length, by omega, by rw [startRounds, roomRounds, if_pos hs, e, ob_some]⟩
  · exact ⟨0 + s.ctxs.length, by omega, by rw [startRounds, roomRounds, if_neg hs, ob_some]⟩

theorem bit_rounds {s : Src} (h : SrcOk luts x Pc sh W maxOrder n j s) :
    gatherRounds s ≤ maxOrder + 1 ∧ processRounds s ≤ maxOrder + 1 := by
  have hl := ctxs_len h.state
  have ho := h.order
  unfold gatherRounds processRounds
  split <;> constructor <;> omega

theorem feed_rounds (hL : LutsOk luts) (hPc : Fresh Pc) (hW : W ≤ 2 ^ 31) (hW0 : 0 < W) (hM : maxOrder ≤ 8191)
    {upd : List CtxState → Bool → List Costs}
    (hu : ∀ l b, (upd l b).length = (l.filter CtxState.isNode).length)
    (hS : ∀ ex hist l b d, Allowed Pc ex hist d (upd l b)) (bits : List Bool) :
    ∀ (s : Src) (L : Nat), SrcAt luts x Pc sh W maxOrder L s → (∀ r, r < bits.length → bits.getD r false = x (L + r)) →
    ∃ r, feedRounds luts upd L s bits = some r ∧
      r ≤ (maxOrder + 1) * (2 * bits.length + 12 * ((L + bits.length + 7) / 8 - (L + 7) / 8)) := by
  induction bits with
  | nil => intro s L h _; exact ⟨0, rfl, by omega⟩
  | cons b bits ih =>
    intro s L h hx
    obtain ⟨s1, states, e1, h1, e2, h2, -, h3⟩ := src_step hL hPc hW hW0 hM h
    have hb := hx 0 (by simp)
    rw [Nat.add_zero] at hb
    obtain ⟨s2, e3, h4⟩ := h3 (upd states b) (hu states b) (hS _ _ _ _ _)
    obtain ⟨r, e4, h5⟩ := ih s2 (L + 1) h4 (by
      intro r hr
      have := hx (r + 1) (by rw [List.length_cons]; omega)
      rw [show L + 1 + r = L + (r + 1) by omega, ← this]
      simp)
    obtain ⟨g1, g2⟩ := bit_rounds h1
    have h0 : ∃ r0, readyRounds L s = some r0 ∧
        r0 ≤ (maxOrder + 1) * (12 * ((L + 1 + 7) / 8 - (L + 7) / 8)) := by
      by_cases hl : L % 8 = 0
      · obtain ⟨r0, hr0, e⟩ := start_rounds hW hM hl h
        refine ⟨r0, by rw [readyRounds, if_pos hl, e], ?_⟩
        rw [show (L + 1 + 7) / 8 - (L + 7) / 8 = 1 by omega]
        omega
      · exact ⟨0, by rw [readyRounds, if_neg hl], by omega⟩
    obtain ⟨r0, e0, hr0⟩ := h0
    refine ⟨r0 + gatherRounds s1 + processRounds s1 + r, ?_, ?_⟩
    · rw [feedRounds, e0, ob_some, e1, ob_some, e2, ob_some]
      rw [← hb] at e3
      rw [show ((b :: bits).getD 0 false) = b from rfl] at e3
      rw [e3, ob_some, e4, ob_some]
    · rw [List.length_cons]
      have hd : (L + (bits.length + 1) + 7) / 8 - (L + 7) / 8 =
          ((L + 1 + bits.length + 7) / 8 - (L + 1 + 7) / 8) + ((L + 1 + 7) / 8 - (L + 7) / 8) := by omega
      rw [hd]
      generalize ((L + 1 + bits.length + 7) / 8 - (L + 1 + 7) / 8) = A at *
      generalize ((L + 1 + 7) / 8 - (L + 7) / 8) = B at *
      nlinarith

/-- **C81 (time).** For every input, the number of rounds of all loops of the history tree is at most
`(maxOrder + 1) * (2 * bits + 12 * bytes)`, whatever the size of the window: the work is linear in the size of the input. -/
theorem C81_time (luts : Luts) (h : LutsOk luts) (W sh maxOrder : Nat) (hW : W ≤ 2 ^ 31) (hsh : sh < W)
    (hM : maxOrder ≤ 8191) (hist : List Bool) (upd : List CtxState → Bool → List Costs)
    (hu : ∀ l b, (upd l b).length = (l.filter CtxState.isNode).length) :
    ∃ s0 r, srcNew W maxOrder sh = some s0 ∧ feedRounds luts upd 0 s0 hist = some r ∧
      r ≤ (maxOrder + 1) * (2 * hist.length + 12 * ((hist.length + 7) / 8)) := by
  obtain ⟨s0, e0, h0⟩ := srcNew_ok (x := fun i => hist.getD i false) (maxOrder := maxOrder) hW hsh
  obtain ⟨r, e1, h1⟩ := feed_rounds (Pc := fun _ _ _ => True) h (fun _ _ _ => ⟨costsDefault, trivial⟩) hW (by omega) hM hu
    (fun _ _ _ _ _ => allowed_const (fun _ _ => trivial)) hist s0 0 (Or.inl ⟨rfl, h0⟩) (by
      intro r _; rw [Nat.zero_add])
  refine ⟨s0, r, e0, e1, ?_⟩
  simpa using h1

/-- nodes, each but the first a child of the one before -/
def Down (t : Tree) (vs : List Nat) : Prop :=
  vs.head? = some 0 ∧ vs.IsChain fun v w => ∃ nd b, nodesGet t.nodes v = some nd ∧ nd.child b = -(w : Int) - 1

theorem chain_len {t : Tree} {hist : List Bool} {D : Nat} {live : Nat → Option Node} {label : Nat → List Bool}
    (h : TreeShape t hist D live label) : ∀ (vs : List Nat) (v : Nat) (nd : Node), live v = some nd →
      (v :: vs).IsChain (fun v w => ∃ nd b, nodesGet t.nodes v = some nd ∧ nd.child b = -(w : Int) - 1) →
      (label v).length + vs.length ≤ D := by
  intro vs
  induction vs with
  | nil => intro v nd hv _; simpa using (h.sound v nd hv).1.1
  | cons w vs ih =>
    intro v nd hv hc
    rw [List.isChain_cons_cons] at hc
    obtain ⟨⟨nd', b, e1, e2⟩, hc⟩ := hc
    rw [h.node v nd hv] at e1
    obtain rfl : nd = nd' := by simpa using e1
    obtain ⟨i, -, -, ⟨-, hw⟩ | ⟨w', nw, -, hlw, hw, hp, -⟩⟩ := h.child v nd b hv
    · rw [hw] at e2; omega
    · obtain rfl : w' = w := by rw [hw] at e2; omega
      have := ih w' nw hlw hc
      have := hp.length_le
      rw [List.length_append, List.length_singleton] at this
      rw [List.length_cons]
      omega

/-- **C81 (height and memory).** For every input, however long, once the tree is ready for the next bit: no way down the
tree visits more than `8 * maxOrder + 8` nodes, there are at most `maxOrder + 1` contexts, the pool has at most
`max 1 (W - 1)` nodes and the window at most `W` bytes. -/
theorem C81_memory (luts : Luts) (h : LutsOk luts) (W sh maxOrder : Nat) (hW : W ≤ 2 ^ 31) (hsh : sh < W)
    (hM : maxOrder ≤ 8191) (hist : List Bool) (upd : List CtxState → Bool → List Costs)
    (hu : ∀ l b, (upd l b).length = (l.filter CtxState.isNode).length) :
    ∃ s0 s1 s, srcNew W maxOrder sh = some s0 ∧ feed (treeSource luts) upd 0 s0 hist = some s1 ∧
      ready (treeSource luts) hist.length s1 = some s ∧
      (s.tree.proper = true → ∀ vs, Down s.tree vs → vs.length ≤ 8 * maxOrder + 8) ∧
      s.ctxs.length ≤ maxOrder + 1 ∧ s.tree.nodes.items.length ≤ max 1 (W - 1) ∧ s.tree.window.buffer.length ≤ W := by
  obtain ⟨s0, s1, e0, e1, h1⟩ := src_run (Pc := fun _ _ _ => True) h (fun _ _ _ => ⟨costsDefault, trivial⟩) hW hsh hM
    hu (fun _ _ _ _ _ => allowed_const (fun _ _ => trivial)) hist
  obtain ⟨s, e2, h2⟩ := src_ready hW (by omega) hM h1
  refine ⟨s0, s1, s, e0, e1, e2, ?_, ctxs_len h2.state, ?_, ?_⟩
  · intro hp vs hv
    obtain ⟨live, label, hs⟩ := (shape_of_state (by omega) rfl h2.state).1 hp
    obtain ⟨hh, hc⟩ := hv
    obtain ⟨vs, rfl⟩ : ∃ vs', vs = 0 :: vs' := by
      cases vs with
      | nil => simp at hh
      | cons v vs => exact ⟨vs, by simpa using hh⟩
    obtain ⟨nd, hnd⟩ := hs.root
    have := chain_len hs vs 0 nd hnd hc
    rw [List.length_cons]
    omega
  · rcases h2.state.cases with ⟨N, str, cnt, hT, -⟩ | ⟨-, -, -, N, hR, -⟩
    · obtain ⟨live, free, hI, -⟩ := hT.rep
      exact hI.len.2
    · obtain ⟨live, free, hI, -⟩ := hR
      exact hI.len.2
  · have := h2.state.win.inv.len_le
    rw [h2.state.win.max] at this
    exact this

/-- what branches because of the last bit ends where the history ended -/
theorem new_branch {hist : List Bool} {b : Bool} {D : Nat} {s : List Bool} (h : Branches (hist ++ [b]) D s)
    (hn : ¬ Branches hist D s) : ∃ i, 8 * i + s.length = hist.length ∧ s = hist.drop (8 * i) := by
  by_contra hc
  apply hn
  refine ⟨h.1, fun c => ?_⟩
  obtain ⟨i, h1, h2⟩ := h.2 c
  rw [List.length_append, List.length_append, List.length_singleton, List.length_singleton] at h1
  by_cases he : 8 * i + s.length = hist.length
  · refine absurd ⟨i, he, ?_⟩ hc
    have h3 := congrArg (List.take s.length) h2
    rw [List.take_take, List.take_left', List.length_append, List.length_singleton, Nat.min_eq_left (by omega),
      List.drop_append_of_le_length (by omega), List.take_append_of_le_length (by rw [List.length_drop]; omega),
      List.take_of_length_le (by rw [List.length_drop]; omega)] at h3
    · exact h3.symm
    · rfl
  · refine ⟨i, by rw [List.length_append, List.length_singleton]; omega, ?_⟩
    rw [List.length_append, List.length_singleton, List.drop_append_of_le_length (by omega),
      List.take_append_of_le_length (by rw [List.length_drop]; omega)] at h2
    rw [List.length_append, List.length_singleton]
    exact h2

/-- a bit makes at most `maxOrder + 1` strings branch -/
theorem branch_count {hist : List Bool} {b : Bool} {M : Nat} {l l' : List (List Bool)} (hl' : l'.Nodup)
    (h : ∀ s, s ∈ l ↔ Branches hist (8 * M + 7) s) (h' : ∀ s, s ∈ l' ↔ Branches (hist ++ [b]) (8 * M + 7) s) :
    l'.length ≤ l.length + (M + 1) := by
  have hsub : l' ⊆ l ++ (List.range (M + 1)).map fun k => hist.drop (hist.length - (8 * k + hist.length % 8)) := by
    intro s hs
    rw [List.mem_append]
    by_cases hm : s ∈ l
    · exact Or.inl hm
    · right
      obtain ⟨i, h1, h2⟩ := new_branch ((h' s).mp hs) (fun hb => hm ((h s).mpr hb))
      have h3 := ((h' s).mp hs).1
      rw [List.mem_map]
      refine ⟨s.length / 8, List.mem_range.mpr (by omega), ?_⟩
      rw [h2]
      congr 1
      rw [← h2]
      omega
  have := (hl'.subperm hsub).length_le
  rw [List.length_append, List.length_map, List.length_range] at this
  exact this

/-- **C81 (growth).** Reading a bit adds at most `maxOrder + 1` nodes. -/
theorem C81_growth (luts : Luts) (h : LutsOk luts) (W sh maxOrder : Nat) (hW : W ≤ 2 ^ 31) (hsh : sh < W)
    (hM : maxOrder ≤ 8191) (hist : List Bool) (bit : Bool) (upd : List CtxState → Bool → List Costs)
    (hu : ∀ l b, (upd l b).length = (l.filter CtxState.isNode).length) :
    ∃ s0 s1 s s' before after, srcNew W maxOrder sh = some s0 ∧ feed (treeSource luts) upd 0 s0 hist = some s1 ∧
      ready (treeSource luts) hist.length s1 = some s ∧ feed (treeSource luts) upd 0 s0 (hist ++ [bit]) = some s' ∧
      liveCount s.tree.nodes = some before ∧ liveCount s'.tree.nodes = some after ∧ after ≤ before + (maxOrder + 1) := by
  obtain ⟨s0, s1, e0, e1, h1⟩ := src_run (Pc := fun _ _ _ => True) h (fun _ _ _ => ⟨costsDefault, trivial⟩) hW hsh hM
    hu (fun _ _ _ _ _ => allowed_const (fun _ _ => trivial)) hist
  obtain ⟨s0', s', e0', e1', h1'⟩ := src_run (Pc := fun _ _ _ => True) h (fun _ _ _ => ⟨costsDefault, trivial⟩) hW hsh hM
    hu (fun _ _ _ _ _ => allowed_const (fun _ _ => trivial)) (hist ++ [bit])
  obtain rfl : s0 = s0' := by rw [e0] at e0'; simpa using e0'
  obtain ⟨s, e2, h2⟩ := src_ready hW (by omega) hM h1
  rw [List.length_append, List.length_singleton] at h1'
  rcases h1' with ⟨hc, -⟩ | ⟨n, j, hn, hj1, hj2, h3⟩
  · omega
  have hn1 : hist.length / 8 = n := by omega
  have hn2 : hist.length % 8 = j - 1 := by omega
  rw [hn1, hn2] at h2
  obtain ⟨l, l1, l2, l3, -⟩ := count_of_state (by omega) hW rfl h2.state
  obtain ⟨l', l1', l2', l3', -⟩ := count_of_state (by omega) hW rfl h3.state
  refine ⟨s0, s1, s, s', l.length, l'.length, e0, e1, e2, e1', l3, l3', ?_⟩
  have hle := h2.state.le
  refine branch_count (b := bit) l1' l2 (fun str => ?_)
  rw [l2']
  have hseg : seg (fun i => (hist ++ [bit]).getD i false) (n + 1 - W) (8 * n + j - 8 * (n + 1 - W)) =
      seg (fun i => hist.getD i false) (n + 1 - W) (8 * n + (j - 1) - 8 * (n + 1 - W)) ++ [bit] := by
    apply List.ext_getElem
    · simp; omega
    · intro k k1 k2
      simp only [seg, List.length_map, List.length_range] at k1
      by_cases hk : k < 8 * n + (j - 1) - 8 * (n + 1 - W)
      · rw [List.getElem_append_left (by simpa using hk)]
        simp only [seg, List.getElem_map, List.getElem_range]
        rw [List.getD_append _ _ _ _ (by omega)]
      · rw [List.getElem_append_right (by simp; omega)]
        simp only [seg, List.getElem_map, List.getElem_range, List.getElem_singleton]
        rw [show 8 * (n + 1 - W) + k = hist.length by omega, List.getD_append_right _ _ _ _ (le_refl _)]
        simp
  rw [hseg]

/-- a megabyte in a window of ten million bytes, contexts of up to 20 bytes: at most 588 million rounds -/
example (luts : Luts) (h : LutsOk luts) (hist : List Bool) (hl : hist.length = 8 * 1000000) :
    ∃ s0 r, srcNew 10000000 20 0 = some s0 ∧
      feedRounds luts (fun l _ => List.replicate (l.filter CtxState.isNode).length costsDefault) 0 s0 hist = some r ∧
      r ≤ 588000000 := by
  obtain ⟨s0, r, e0, e1, h1⟩ := C81_time luts h 10000000 0 20 (by norm_num) (by norm_num) (by norm_num) hist
    (fun l _ => List.replicate (l.filter CtxState.isNode).length costsDefault) (by simp)
  rw [hl] at h1
  exact ⟨s0, r, e0, e1, by omega⟩

/-- five bytes in a window of two: removals are counted as well -/
example : ((srcNew 2 1 0).bind fun s => feedRounds shortLuts
    (fun l _ => List.replicate (l.filter CtxState.isNode).length costsDefault) 0 s
    ((List.replicate 8 true ++ List.replicate 8 false ++ List.replicate 16 true) ++ List.replicate 8 false)) = some 32 := by
  decide +kernel

end Verif.Tree
