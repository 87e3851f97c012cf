import Verif.Tree.Visits

/-!
# C59: what a passed integrity check means

For an arbitrary node pool, not only for one built by the program.
-/

namespace Verif.Tree

open Verif Verif.History Verif.Window

variable {t : Tree} {m : Nat}

/-! ## Leaves -/

/-- the counter of a leaf is incremented (`mod.rs:344-346`) -/
def bump (t : Tree) (counters : List Nat) (leaf : Nat) : Option (List Nat) := do
  let offset ← indexDiff t.window leaf t.window.start
  let k ← counters[offset]?
  check (k + 1 < 256)
  some (counters.set offset (k + 1))

/-- the leaf of a child, if it is one -/
def own (c : Int) : List Nat := if c < 0 then [] else [c.toNat]

theorem own_leaf (i : Nat) : own (i : Int) = [i] := by unfold own; rw [if_neg (by omega)]; rfl

theorem own_node (v : Nat) : own (-(v : Int) - 1) = [] := by unfold own; rw [if_pos (by omega)]

theorem countLeaf_eq {acc : List Nat} {v : Nat} {nd : Node} {b : Bool} (hr : nd.child b < 2 ^ 31) :
    countLeaf t acc v nd b = (own (nd.child b)).foldlM (bump t) acc := by
  unfold countLeaf
  dsimp only
  rcases child_cases (nd.child b) with ⟨i, hi⟩ | ⟨w, hi⟩
  · rw [hi, own_leaf, if_neg (by unfold childIsNode; simp), childToWindow_eq _ (by omega), ob_some, List.foldlM_cons]
    simp only [List.foldlM_nil]
    unfold bump
    exact (bind_pure _).symm
  · rw [hi, own_node, if_pos (by unfold childIsNode; simp; omega)]
    rfl

theorem visit_eq {α : Type} {f : α → Nat → Node → Bool → Option α} (hfit : Fits t.nodes.items m) {v : Nat} {nd : Node}
    (hv : t.nodes.items[v]? = some nd) (h1 : nd.left ≠ -1) (h2 : nd.right ≠ -1) (acc : α) :
    visit t f acc v = (f acc v nd false).bind fun a => f a v nd true := by
  have hl : childIsValid nd.left = true := (childIsValid_iff (hfit nd (List.mem_of_getElem? hv) false).1).mpr h1
  have hr : childIsValid nd.right = true := (childIsValid_iff (hfit nd (List.mem_of_getElem? hv) true).1).mpr h2
  have hval : nodeIsValid nd = true := by
    unfold nodeIsValid childInvalid
    simp [h1, h2]
  unfold visit nodesGet
  rw [hv, ob_some, check_pos (Or.inr hval), ob_some, ob_some, check_pos hl, ob_some]
  simp only [check_pos hr, ob_some]
  rfl

/-- the leaves are counted in some order -/
theorem count_unfolds (hfit : Fits t.nodes.items m) (hm : m ≤ 2 ^ 31) {c : Int} {ns ls : List Nat}
    (h : Unfolds t.nodes.items c ns ls) :
    ∃ l, (own c ++ l).Perm ls ∧ ∀ acc, ns.foldlM (visit t (countLeaf t)) acc = l.foldlM (bump t) acc := by
  induction h with
  | leaf i => exact ⟨[], by rw [own_leaf]; rfl, fun acc => rfl⟩
  | @node v nd nl ll nr lr h1 h2 h3 h4 h5 ih1 ih2 =>
    obtain ⟨l1, p1, e1⟩ := ih1
    obtain ⟨l2, p2, e2⟩ := ih2
    have hb := fun b => (hfit nd (List.mem_of_getElem? h1) b).2
    refine ⟨own nd.left ++ own nd.right ++ (l2 ++ l1), ?_, ?_⟩
    · rw [own_node, List.nil_append]
      refine List.Perm.trans ?_ (List.Perm.append p1 p2)
      rw [List.append_assoc, List.append_assoc]
      refine List.Perm.append_left _ ?_
      rw [← List.append_assoc]
      exact List.perm_append_comm
    · intro acc
      rw [List.foldlM_cons, visit_eq hfit h1 h2 h3, List.foldlM_append, List.foldlM_append]
      have hl : ∀ a, countLeaf t a v nd false = (own nd.left).foldlM (bump t) a := fun a =>
        countLeaf_eq (b := false) (by have := hb false; omega)
      have hr : ∀ a, countLeaf t a v nd true = (own nd.right).foldlM (bump t) a := fun a =>
        countLeaf_eq (b := true) (by have := hb true; omega)
      simp only [hl, hr, List.foldlM_append, e1, e2]
      rfl

/-- leaves that are counted are in the window, and are counted once each time -/
theorem bump_some : ∀ (l : List Nat) (acc acc' : List Nat), l.foldlM (bump t) acc = some acc' →
    acc'.length = acc.length ∧
    (∀ i ∈ l, ∃ o, indexDiff t.window i t.window.start = some o ∧ o < acc.length) ∧
    ∀ o, acc'.getD o 0 = acc.getD o 0 + l.countP fun i => indexDiff t.window i t.window.start = some o := by
  intro l
  induction l with
  | nil =>
    intro acc acc' h
    obtain rfl := Option.some.inj h
    exact ⟨rfl, by simp, by simp⟩
  | cons i l ih =>
    intro acc acc' h
    rw [List.foldlM_cons] at h
    obtain ⟨a, e, h⟩ := bind_inv h
    unfold bump at e
    obtain ⟨o, e1, e⟩ := bind_inv e
    obtain ⟨k, e2, e⟩ := bind_inv e
    obtain ⟨_, -, e⟩ := bind_inv e
    obtain rfl := Option.some.inj e
    obtain ⟨h1, h2, h3⟩ := ih _ _ h
    obtain ⟨ho, hk⟩ := List.getElem?_eq_some_iff.mp e2
    rw [List.length_set] at h1 h2
    refine ⟨h1, ?_, ?_⟩
    · intro j hj
      rcases List.mem_cons.mp hj with rfl | hj
      · exact ⟨o, e1, ho⟩
      · exact h2 j hj
    · intro o'
      rw [h3, List.countP_cons, e1]
      by_cases he : o = o'
      · subst he
        rw [List.getD_eq_getElem?_getD, List.getElem?_set_self ho, List.getD_eq_getElem?_getD, e2]
        simp; omega
      · rw [List.getD_eq_getElem?_getD, List.getElem?_set_ne he, ← List.getD_eq_getElem?_getD]
        simp [he]

/-- different leaves can be counted -/
theorem bump_ok : ∀ (l : List Nat) (acc : List Nat), (∀ k ∈ acc, k ≤ 1) →
    (∀ i ∈ l, ∃ o, indexDiff t.window i t.window.start = some o ∧ acc[o]? = some 0) →
    l.Pairwise (fun i j => indexDiff t.window i t.window.start ≠ indexDiff t.window j t.window.start) →
    ∃ acc', l.foldlM (bump t) acc = some acc' ∧ ∀ k ∈ acc', k ≤ 1 := by
  intro l
  induction l with
  | nil => intro acc h _ _; exact ⟨acc, rfl, h⟩
  | cons i l ih =>
    intro acc h1 h2 h3
    rw [List.pairwise_cons] at h3
    obtain ⟨o, e, ho⟩ := h2 i (by simp)
    have hb : bump t acc i = some (acc.set o 1) := by
      unfold bump
      rw [e, ob_some, ho, ob_some, check_pos (by omega), ob_some]
    rw [List.foldlM_cons, hb, ob_some]
    apply ih
    · intro k hk
      rcases List.mem_or_eq_of_mem_set hk with hk | rfl
      · exact h1 k hk
      · exact le_rfl
    · intro j hj
      obtain ⟨o', e', ho'⟩ := h2 j (by simp [hj])
      refine ⟨o', e', ?_⟩
      rw [List.getElem?_set_ne, ho']
      rintro rfl
      exact h3.1 j hj (by rw [e, e'])
    · exact h3.2

/-- the offset of a position -/
theorem diff_iff {w : Win} (h : Inv w) {i o : Nat} (hi : i < w.max) (ho : o < w.size) :
    indexDiff w i w.start = some o ↔ i = posOf w o := by
  have h0 : posOf w 0 = w.start := by
    unfold posOf
    rw [Nat.add_zero, Nat.mod_eq_of_lt h.start_lt]
  have key : ∀ o < w.size, indexDiff w (posOf w o) w.start = some o := by
    intro o ho
    have := (C26_add_sub h (a := 0) (n := o) (by omega)).2.2
    rw [h0, Nat.zero_add] at this
    exact this
  constructor
  · intro e
    have h1 := h.start_lt; have h2 := h.size_le; have h7 := h.max_lt
    unfold indexDiff indexSubtract at e
    rw [posOf_eq h (by omega)]
    by_cases hc : i ≥ w.start
    · rw [if_pos hc, Option.some.injEq] at e
      rw [if_pos (by omega)]; omega
    · rw [if_neg hc] at e
      obtain ⟨_, -, e⟩ := bind_inv e
      obtain ⟨r, e1, e⟩ := bind_inv e
      rw [usize_eq (by omega), Option.some.injEq] at e1
      subst e1
      unfold subU at e
      split at e
      · have := Option.some.inj e
        rw [if_neg (by omega)]; omega
      · simp at e
  · rintro rfl
    exact key o ho

/-- **C59 (leaves).** For every node pool and window: the check of the leaves passes exactly if following the children from
the root gives a finite binary tree whose leaves are different suffixes inside the window. -/
theorem C59_leaves (hw : Inv t.window) (hmax : t.window.max ≤ 2 ^ 31) (hfit : Fits t.nodes.items t.window.max)
    (hp : t.proper = true) :
    checkLeaves t = some () ↔ ∃ nodes leaves, Unfolds t.nodes.items (-1) nodes leaves ∧ leaves.Nodup ∧
      ∀ i ∈ leaves, ∃ a < t.window.size, i = posOf t.window a := by
  have hlt : ∀ {c : Int} {ns ls : List Nat}, Unfolds t.nodes.items c ns ls → c < t.window.max →
      ∀ i ∈ ls, i < t.window.max := by
    intro c ns ls h
    induction h with
    | leaf i =>
      intro hc j hj
      rw [List.mem_singleton] at hj
      omega
    | node h1 _ _ _ _ ih1 ih2 =>
      intro _ j hj
      rw [List.mem_append] at hj
      rcases hj with hj | hj
      · exact ih1 (hfit _ (List.mem_of_getElem? h1) false).2 j hj
      · exact ih2 (hfit _ (List.mem_of_getElem? h1) true).2 j hj
  have hpos := hw.max_pos
  unfold checkLeaves
  rw [if_pos hp]
  constructor
  · intro h
    obtain ⟨cs, e, h⟩ := bind_inv h
    have hcs := check_eq_some.mp h
    obtain ⟨ns, ls, hu, hl, e⟩ := (traverse_iff hfit _ _ _).mp e
    obtain ⟨l, hperm, e'⟩ := count_unfolds hfit hmax hu
    rw [e'] at e
    obtain ⟨k1, k2, k3⟩ := bump_some _ _ _ e
    rw [show own (-1) = [] from rfl, List.nil_append] at hperm
    rw [List.length_replicate] at k1 k2
    have hin : ∀ i ∈ ls, ∃ a < t.window.size, i = posOf t.window a := by
      intro i hi
      obtain ⟨o, e1, ho⟩ := k2 i (hperm.mem_iff.mpr hi)
      exact ⟨o, ho, (diff_iff hw (hlt hu (by omega) i hi) ho).mp e1⟩
    refine ⟨ns, ls, hu, ?_, hin⟩
    rw [← hperm.nodup_iff, List.nodup_iff_count_le_one]
    intro i
    by_cases hi : i ∈ l
    · obtain ⟨o, e1, ho⟩ := k2 i hi
      have h3 := k3 o
      have hle : cs.getD o 0 ≤ 1 := by
        rw [List.getD_eq_getElem?_getD, List.getElem?_eq_getElem (by omega)]
        exact hcs _ (List.getElem_mem _)
      have : l.count i ≤ l.countP fun i => indexDiff t.window i t.window.start = some o := by
        unfold List.count
        apply List.countP_mono_left
        intro j _ hj
        have : j = i := by simpa using hj
        subst this
        simpa using e1
      omega
    · rw [List.count_eq_zero_of_not_mem hi]; omega
  · rintro ⟨ns, ls, hu, hd, hin⟩
    obtain ⟨l, hperm, e'⟩ := count_unfolds hfit hmax hu
    rw [show own (-1) = [] from rfl, List.nil_append] at hperm
    have hoff : ∀ i ∈ l, ∃ o, indexDiff t.window i t.window.start = some o ∧ o < t.window.size ∧ i = posOf t.window o := by
      intro i hi
      have hi' := hperm.mem_iff.mp hi
      obtain ⟨o, ho, he⟩ := hin i hi'
      exact ⟨o, (diff_iff hw (hlt hu (by omega) i hi') ho).mpr he, ho, he⟩
    obtain ⟨cs, e, hcs⟩ := bump_ok (t := t) l (List.replicate t.window.size 0)
      (fun k hk => by rw [List.eq_of_mem_replicate hk]; omega)
      (fun i hi => by
        obtain ⟨o, e, ho, -⟩ := hoff i hi
        refine ⟨o, e, ?_⟩
        rw [List.getElem?_replicate, if_pos ho])
      (by
        refine List.Pairwise.imp_of_mem ?_ (hperm.nodup_iff.mpr hd)
        intro i j hi hj hne he
        obtain ⟨o, e, -, rfl⟩ := hoff i hi
        obtain ⟨o', e', -, rfl⟩ := hoff j hj
        rw [e, e', Option.some.injEq] at he
        exact hne (by rw [he]))
    have htr := (traverse_iff (f := countLeaf t) hfit t.nodes.items.length (List.replicate t.window.size 0) cs).mpr
      ⟨ns, ls, hu, hu.length_le (hu.nodup hd), by rw [e', e]⟩
    rw [htr, ob_some]
    exact check_pos hcs

/-- **C59 (tree).** A node pool that passes the check of the leaves has no node that is reached in two ways: the nodes of
the unfolding are different. -/
theorem C59_tree (hw : Inv t.window) (hmax : t.window.max ≤ 2 ^ 31) (hfit : Fits t.nodes.items t.window.max)
    (hp : t.proper = true) (h : checkLeaves t = some ()) :
    ∃ nodes leaves, Unfolds t.nodes.items (-1) nodes leaves ∧ nodes.Nodup ∧ leaves.Nodup ∧
      leaves.length = nodes.length + 1 := by
  obtain ⟨ns, ls, hu, hd, -⟩ := (C59_leaves hw hmax hfit hp).mp h
  refine ⟨ns, ls, hu, hu.nodup hd, hd, ?_⟩
  have key : ∀ {c : Int} {ns ls : List Nat}, Unfolds t.nodes.items c ns ls → ls.length = ns.length + 1 := by
    intro c ns ls hu
    induction hu with
    | leaf => simp
    | node _ _ _ _ _ ih1 ih2 => simp [ih1, ih2]; omega
  exact key hu

/-! ## Texts -/

/-- the window position that stands for the text of a node: that of the context of highest order in the node, else the one
stored (`context.rs:144-153`) -/
def textOf (ctxs : List Ctx) (v : Nat) (nd : Node) : Nat := (contextSuffix ctxs v).getD nd.textStart

/-- the window position that stands for the text of a child -/
def childText (items : List Node) (c : Int) : Option Nat :=
  if c < 0 then (items[(-c - 1).toNat]?).map Node.textStart else some c.toNat

theorem compareChild_iff (hm : m ≤ 2 ^ 31) (hfit : Fits t.nodes.items m) {ctxs : List Ctx} {v : Nat} {nd : Node} {b : Bool}
    (hr : nd.child b < 2 ^ 31) (hr' : -2 ^ 31 ≤ nd.child b)
    {ns ls : List Nat} (hu : Unfolds t.nodes.items (nd.child b) ns ls) :
    compareChild t ctxs () v nd b = some () ↔ ∃ a, childText t.nodes.items (nd.child b) = some a ∧
      comparePrefix t.window (textOf ctxs v nd) a (7 - nd.depth % 8) (nd.depth / 8) = some true := by
  have fin : ∀ a, (do
      let equal ← comparePrefix t.window (textOf ctxs v nd) a (7 - nd.depth % 8) (nd.depth / 8)
      check (equal = true)) = some () ↔
      comparePrefix t.window (textOf ctxs v nd) a (7 - nd.depth % 8) (nd.depth / 8) = some true := by
    intro a
    cases comparePrefix t.window (textOf ctxs v nd) a (7 - nd.depth % 8) (nd.depth / 8) with
    | none => simp
    | some r =>
      rw [ob_some, Option.some.injEq]
      exact check_eq_some
  unfold compareChild childText
  dsimp only
  rcases child_cases (nd.child b) with ⟨i, hi⟩ | ⟨w, hi⟩
  · rw [hi, if_neg (by unfold childIsNode; simp), childToWindow_eq _ (by omega), ob_some, if_neg (by omega)]
    refine (fin i).trans ?_
    simp
  · rw [hi] at hu
    obtain ⟨nw, nl, ll, nr, lr, e, h1, h2, -⟩ := hu.inv_node
    have hval : nodeIsValid nw = true := by
      unfold nodeIsValid childInvalid
      simp [h1, h2]
    have hg : nodesGet t.nodes w = some nw := by
      unfold nodesGet
      rw [e, ob_some, check_pos (Or.inr hval), ob_some]
    rw [hi, if_pos (by unfold childIsNode; simp; omega), childToNode_code (by omega), ob_some, hg, ob_some,
      if_pos (by omega), show (-(-(w : Int) - 1) - 1).toNat = w by omega, e]
    refine (fin nw.textStart).trans ?_
    simp

theorem compare_unfolds (hm : m ≤ 2 ^ 31) (hfit : Fits t.nodes.items m) (ctxs : List Ctx) {c : Int} {ns ls : List Nat}
    (h : Unfolds t.nodes.items c ns ls) :
    ns.foldlM (visit t (compareChild t ctxs)) () = some () ↔ ∀ v ∈ ns, ∀ nd, t.nodes.items[v]? = some nd → ∀ b,
      ∃ a, childText t.nodes.items (nd.child b) = some a ∧
        comparePrefix t.window (textOf ctxs v nd) a (7 - nd.depth % 8) (nd.depth / 8) = some true := by
  induction h with
  | leaf i => simp
  | @node v nd nl ll nr lr h1 h2 h3 h4 h5 ih1 ih2 =>
    have hb := fun b => hfit nd (List.mem_of_getElem? h1) b
    have hl := compareChild_iff hm hfit (ctxs := ctxs) (v := v) (b := false) (by have := (hb false).2; omega)
      (hb false).1 h4
    have hr := compareChild_iff hm hfit (ctxs := ctxs) (v := v) (b := true) (by have := (hb true).2; omega)
      (hb true).1 h5
    have hseq : ∀ (x : Option Unit) (y : Unit → Option Unit), x.bind y = some () ↔ x = some () ∧ y () = some () := by
      intro x y
      cases x <;> simp
    rw [List.foldlM_cons, visit_eq hfit h1 h2 h3, Option.bind_eq_bind, hseq, hseq, List.foldlM_append,
      Option.bind_eq_bind, hseq, hl, hr, ih1, ih2]
    simp only [List.mem_cons, List.mem_append]
    constructor
    · rintro ⟨⟨k1, k2⟩, k3, k4⟩ u (rfl | hu | hu) nd' hnd' b
      · obtain rfl : nd = nd' := by rw [h1] at hnd'; exact Option.some.inj hnd'
        cases b
        · exact k1
        · exact k2
      · exact k3 u hu nd' hnd' b
      · exact k4 u hu nd' hnd' b
    · intro k
      exact ⟨⟨k v (Or.inl rfl) nd h1 false, k v (Or.inl rfl) nd h1 true⟩, fun u hu => k u (Or.inr (Or.inl hu)),
        fun u hu => k u (Or.inr (Or.inr hu))⟩

/-- **C59 (texts).** If the check of the leaves passes, the check of the texts passes exactly if for every node reached
from the root the text of the node and that of each child, both read from the window, agree on as many bits as the
depth of the node. The texts are assumed to have enough bytes in the window. -/
theorem C59_texts (hw : Inv t.window) (hmax : t.window.max ≤ 2 ^ 31) (hfit : Fits t.nodes.items t.window.max)
    (hp : t.proper = true) (ctxs : List Ctx) {nodes leaves : List Nat}
    (hu : Unfolds t.nodes.items (-1) nodes leaves) (hd : leaves.Nodup)
    (here there : Nat → Bool → Nat)
    (hown : ∀ v ∈ nodes, ∀ nd, t.nodes.items[v]? = some nd → ∀ b, textOf ctxs v nd = posOf t.window (here v b) ∧
      here v b + nd.depth / 8 < t.window.size)
    (hchild : ∀ v ∈ nodes, ∀ nd, t.nodes.items[v]? = some nd → ∀ b,
      childText t.nodes.items (nd.child b) = some (posOf t.window (there v b)) ∧
      there v b + nd.depth / 8 < t.window.size) :
    ctxsCheck t ctxs = some () ↔ ∀ v ∈ nodes, ∀ nd, t.nodes.items[v]? = some nd → ∀ b,
      PrefixEq (contents t.window) (here v b) (there v b) (7 - nd.depth % 8) (nd.depth / 8) := by
  unfold ctxsCheck
  rw [if_pos hp, traverse_iff hfit]
  have e1 : (∃ ns ls, Unfolds t.nodes.items (-1) ns ls ∧ ns.length ≤ t.nodes.items.length ∧
      ns.foldlM (visit t (compareChild t ctxs)) () = some ()) ↔
      nodes.foldlM (visit t (compareChild t ctxs)) () = some () := by
    constructor
    · rintro ⟨ns, ls, hu', -, h⟩
      obtain ⟨rfl, rfl⟩ := hu.det hu'
      exact h
    · intro h
      exact ⟨nodes, leaves, hu, hu.length_le (hu.nodup hd), h⟩
  rw [e1, compare_unfolds hmax hfit ctxs hu]
  refine forall_congr' fun v => forall_congr' fun hv => forall_congr' fun nd => forall_congr' fun hnd =>
    forall_congr' fun b => ?_
  obtain ⟨o1, o2⟩ := hown v hv nd hnd b
  obtain ⟨c1, c2⟩ := hchild v hv nd hnd b
  obtain ⟨r, er, hr⟩ := C25_compare hw (bi := 7 - nd.depth % 8) o2 c2 (by omega)
  rw [o1, c1, ← hr]
  constructor
  · rintro ⟨a, e, h⟩
    rw [← Option.some.inj e, er] at h
    exact Option.some.inj h
  · intro h
    exact ⟨_, rfl, by rw [er, h]⟩

/-- the hypotheses are met: two nodes and three leaves in a window that wraps around -/
example : ∃ t : Tree, Inv t.window ∧ t.window.max ≤ 2 ^ 31 ∧ Fits t.nodes.items t.window.max ∧ t.proper = true ∧
    checkLeaves t = some () ∧ Unfolds t.nodes.items (-1) [0, 1] [2, 3, 0] := by
  refine ⟨⟨⟨[{ nodeInvalid with left := 2, right := -2 }, { nodeInvalid with left := 3, right := 0, depth := 1 }], none, 0, 2⟩,
    ⟨[1, 2, 3, 4], 2, 0, 3, 4⟩, true⟩, ⟨by decide, by decide, by decide, by decide, by decide, by decide,
    by decide, by decide, by decide⟩, by decide, ?_, rfl, by decide +kernel, ?_⟩
  · intro nd hnd b
    simp only [List.mem_cons, List.not_mem_nil, or_false] at hnd
    rcases hnd with rfl | rfl <;> cases b <;> decide
  · exact Unfolds.node (v := 0) (nl := []) (ll := [2]) (nr := [1]) (lr := [3, 0]) rfl (by decide) (by decide)
      (Unfolds.leaf 2) (Unfolds.node (v := 1) (nl := []) (ll := [3]) (nr := []) (lr := [0]) rfl (by decide) (by decide)
        (Unfolds.leaf 3) (Unfolds.leaf 0))

/-- and those of the statement about texts -/
example : ctxsCheck ⟨⟨[{ nodeInvalid with left := 2, right := -2 }, { nodeInvalid with left := 3, right := 0, depth := 1 }],
    none, 0, 2⟩, ⟨[1, 2, 3, 4], 2, 0, 3, 4⟩, true⟩ [] = some () := by
  have hu : Unfolds [{ nodeInvalid with left := 2, right := -2 }, { nodeInvalid with left := 3, right := 0, depth := 1 }]
      (-1) [0, 1] [2, 3, 0] :=
    Unfolds.node (v := 0) (nl := []) (ll := [2]) (nr := [1]) (lr := [3, 0]) rfl (by decide) (by decide)
      (Unfolds.leaf 2) (Unfolds.node (v := 1) (nl := []) (ll := [3]) (nr := []) (lr := [0]) rfl (by decide) (by decide)
        (Unfolds.leaf 3) (Unfolds.leaf 0))
  refine (C59_texts (t := ⟨⟨_, none, 0, 2⟩, ⟨[1, 2, 3, 4], 2, 0, 3, 4⟩, true⟩) ⟨by decide, by decide, by decide, by decide,
    by decide, by decide, by decide, by decide, by decide⟩ (by decide) ?_ rfl [] hu (by decide) (fun _ _ => 2)
    (fun v b => if v = 0 then (if b then 2 else 0) else (if b then 2 else 1)) ?_ ?_).mpr ?_
  · intro nd hnd b
    simp only [List.mem_cons, List.not_mem_nil, or_false] at hnd
    rcases hnd with rfl | rfl <;> cases b <;> decide
  · intro v hv nd hnd b
    simp only [List.mem_cons, List.not_mem_nil, or_false] at hv
    rcases hv with rfl | rfl <;> obtain rfl := Option.some.inj hnd <;> decide
  · intro v hv nd hnd b
    simp only [List.mem_cons, List.not_mem_nil, or_false] at hv
    rcases hv with rfl | rfl <;> obtain rfl := Option.some.inj hnd <;> cases b <;> decide
  · intro v hv nd hnd b
    simp only [List.mem_cons, List.not_mem_nil, or_false] at hv
    rcases hv with rfl | rfl <;> obtain rfl := Option.some.inj hnd <;> refine ⟨?_, ?_⟩
    · intro k hk; exact absurd hk (by simp [nodeInvalid])
    · intro i h1 h2; exact absurd h1 (by simp [nodeInvalid]; omega)
    · intro k hk; exact absurd hk (by simp [nodeInvalid])
    · intro i h1 h2
      obtain rfl : i = 7 := by simp at h1; omega
      cases b <;> decide

/-- a node that is its own ancestor, and a node with two parents, do not pass -/
example : checkLeaves ⟨⟨[{ nodeInvalid with left := 2, right := -2 }, { nodeInvalid with left := 3, right := -2 }], none, 0, 2⟩,
      ⟨[1, 2, 3, 4], 2, 0, 3, 4⟩, true⟩ = none ∧
    checkLeaves ⟨⟨[{ nodeInvalid with left := -2, right := -2 }, { nodeInvalid with left := 3, right := 0 }], none, 0, 2⟩,
      ⟨[1, 2, 3, 4], 2, 0, 3, 4⟩, true⟩ = none := by decide +kernel

end Verif.Tree
