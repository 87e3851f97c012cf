import Verif.Tree.FollowSpec
import Verif.Tree.SoundProps

/-!
# C59: what a passed check of the window and of the suffixes means
-/

namespace Verif.Tree

open Verif Verif.History Verif.Window

variable {t : Tree} {m : Nat}

/-! ## The window -/

/-- **C59 (window).** For every window whose positions lie in its buffer: the check of the size of the window passes exactly
if the window is full or holds as many bytes as there are from its start to its cursor, counting around the end of the
buffer. Counting around the end needs a buffer that is filled. -/
theorem C59_window {w : Win} (hs : w.start < w.max) (hc : w.cursor < w.max) (hm : w.max < 2 ^ 63) :
    checkWindow w = some () ↔ w.size = w.max ∨ (w.start ≤ w.cursor ∧ w.start + w.size = w.cursor + 1) ∨
      (w.cursor < w.start ∧ w.buffer.length = w.max ∧ w.start + w.size = w.cursor + 1 + w.max) := by
  unfold checkWindow indexDiff indexSubtract
  by_cases hf : w.size = w.max
  · rw [if_pos hf]; simp [hf]
  rw [if_neg hf]
  by_cases hle : w.cursor ≥ w.start
  · rw [if_pos hle, ob_some, usize_eq (by omega), ob_some, check_eq_some]
    omega
  · rw [if_neg hle]
    by_cases hb : w.buffer.length = w.max
    · rw [check_pos hb, ob_some, usize_eq (by omega), ob_some]
      unfold subU
      rw [if_pos (by omega), ob_some, usize_eq (by omega), ob_some, check_eq_some]
      omega
    · rw [check_neg hb]
      simp only [ob_none, reduceCtorEq, false_iff]
      omega

/-! ## The suffixes -/

theorem agree_iff {w : Win} (h : Inv w) {a b n bi : Nat} (ha : a + n < w.size) (hb : b + n < w.size) (hbi : bi ≤ 7) :
    (do let equal ← comparePrefix w (posOf w a) (posOf w b) bi n
        check (equal = true)) = some () ↔ Agree w a b (8 * n + (7 - bi)) := by
  obtain ⟨r, e, hr⟩ := C25_compare h ha hb hbi
  rw [e, ob_some, check_eq_some, hr, prefixEq_bits h ha hb hbi]
  rfl

theorem agree_succ {w : Win} {a b n : Nat} : Agree w a b (n + 1) ↔
    Agree w a b n ∧ bitAt (contents w) (8 * a + n) = bitAt (contents w) (8 * b + n) := by
  constructor
  · intro h
    exact ⟨fun k hk => h k (by omega), h n (by omega)⟩
  · rintro ⟨h1, h2⟩ k hk
    by_cases he : k = n
    · rw [he]; exact h2
    · exact h1 k (by omega)

theorem seq_iff {α : Type} {x : Option Unit} {y : Option α} {r : α} : (x >>= fun _ => y) = some r ↔ x = some () ∧ y = some r := by
  cases x <;> simp

/-- the walk of one suffix -/
theorem checkSuffix_iff (hw : Inv t.window) (hmax : t.window.max ≤ 2 ^ 31) (hfit : Fits t.nodes.items t.window.max)
    {maxOrder s : Nat} (hM : maxOrder < 2 ^ 32) (hs : s < t.window.size) {c : Int} {ns ls : List Nat}
    (hu : Unfolds t.nodes.items c ns ls)
    (htext : ∀ v ∈ ns, ∀ nd, t.nodes.items[v]? = some nd → ∃ a < t.window.size, nd.textStart = posOf t.window a)
    (hleaf : ∀ i ∈ ls, ∃ a < t.window.size, i = posOf t.window a) :
    ∀ v : Nat, c = -(v : Int) - 1 → ∀ fuel, ns.length ≤ fuel →
      (checkSuffix t maxOrder (posOf t.window s) fuel v = some () ↔
        Follows t.nodes.items t.window maxOrder s (-(v : Int) - 1)) := by
  induction hu with
  | leaf i => intro v hv; omega
  | @node u nd nl ll nr lr h1 h2 h3 h4 h5 ih1 ih2 =>
    intro v hv fuel hf
    obtain rfl : u = v := by omega
    obtain ⟨f, rfl⟩ : ∃ f, fuel = f + 1 := ⟨fuel - 1, by simp only [List.length_cons] at hf; omega⟩
    simp only [List.length_cons, List.length_append] at hf
    obtain ⟨a, ha, hta⟩ := htext u (by simp) nd h1
    have hnode : nodesGet t.nodes u = some nd := by
      unfold nodesGet nodeIsValid childInvalid
      rw [h1, ob_some, check_pos (Or.inr (by simp [h2, h3])), ob_some]
    have hcur := cursor_eq hw (by omega)
    -- what `Follows` says about this node
    have hfol : Follows t.nodes.items t.window maxOrder s (-(u : Int) - 1) ↔
        nd.depth ≤ 8 * maxOrder + 7 ∧ s ≤ a ∧
        ((t.window.size - 1 ≤ a + nd.depth / 8 ∧ Agree t.window s a (8 * (t.window.size - 1 - a))) ∨
         (a + nd.depth / 8 < t.window.size - 1 ∧ Agree t.window s a nd.depth ∧
          (bitAt (contents t.window) (8 * s + nd.depth) = bitAt (contents t.window) (8 * a + nd.depth) →
            Follows t.nodes.items t.window maxOrder s
              (if bitAt (contents t.window) (8 * s + nd.depth) then nd.right else nd.left)))) := by
      have inj : ∀ b < t.window.size, posOf t.window a = posOf t.window b → a = b := by
        intro b hb he
        by_contra hne
        exact posOf_inj hw (by omega) (by omega) hne (by have := hw.size_le; omega) (by have := hw.size_le; omega) he
      constructor
      · intro hF
        generalize hc : -(u : Int) - 1 = c at hF
        cases hF with
        | leaf => omega
        | @reaches v' nd' a' k1 k2 k3 k4 k5 k6 k7 =>
          obtain rfl : u = v' := by omega
          obtain rfl : nd = nd' := by rw [h1] at k1; exact Option.some.inj k1
          obtain rfl := inj a' k3 (by rw [← hta, k4])
          exact ⟨k2, k5, Or.inl ⟨k6, k7⟩⟩
        | @differs v' nd' a' k1 k2 k3 k4 k5 k6 k7 k8 =>
          obtain rfl : u = v' := by omega
          obtain rfl : nd = nd' := by rw [h1] at k1; exact Option.some.inj k1
          obtain rfl := inj a' k3 (by rw [← hta, k4])
          exact ⟨k2, k5, Or.inr ⟨k6, k7, fun h => absurd h k8⟩⟩
        | @descends v' nd' a' k1 k2 k3 k4 k5 k6 k7 k8 =>
          obtain rfl : u = v' := by omega
          obtain rfl : nd = nd' := by rw [h1] at k1; exact Option.some.inj k1
          obtain rfl := inj a' k3 (by rw [← hta, k4])
          exact ⟨k2, k5, Or.inr ⟨k6, (agree_succ.mp k7).1, fun _ => k8⟩⟩
      · rintro ⟨k2, k5, ⟨k6, k7⟩ | ⟨k6, k7, k8⟩⟩
        · exact .reaches h1 k2 ha hta k5 k6 k7
        · by_cases he : bitAt (contents t.window) (8 * s + nd.depth) = bitAt (contents t.window) (8 * a + nd.depth)
          · exact .descends h1 k2 ha hta k5 k6 (agree_succ.mpr ⟨k7, he⟩) (k8 he)
          · exact .differs h1 k2 ha hta k5 k6 k7 he
    have hdiff : ∀ b < t.window.size, indexDiff t.window t.window.cursor (posOf t.window b) =
        some (t.window.size - 1 - b) := by
      intro b hb
      rw [hcur]
      have := (C26_add_sub hw (a := b) (n := t.window.size - 1 - b) (by omega)).2.2
      rwa [show b + (t.window.size - 1 - b) = t.window.size - 1 by omega] at this
    rw [hfol]
    unfold checkSuffix
    rw [hnode, ob_some, usize_eq (by omega), ob_some, usize_eq (by omega), ob_some, seq_iff, check_eq_some, hta,
      (C26_order hw hs ha).2, ob_some, seq_iff, check_eq_some, decide_eq_true_eq, hdiff a ha, ob_some,
      show maxOrder * 8 + 7 = 8 * maxOrder + 7 by omega]
    refine and_congr_right fun _ => and_congr_right fun hsa => ?_
    by_cases hend : nd.depth / 8 ≥ t.window.size - 1 - a
    · rw [if_pos hend, agree_iff hw (by omega) (by omega) (le_refl 7)]
      have : ¬ a + nd.depth / 8 < t.window.size - 1 := by omega
      have : t.window.size - 1 ≤ a + nd.depth / 8 := by omega
      simp [*]
    · rw [if_neg hend]
      have n1 : a + nd.depth / 8 < t.window.size - 1 := by omega
      have n2 : ¬ t.window.size - 1 ≤ a + nd.depth / 8 := by omega
      have hdep : 8 * (nd.depth / 8) + (7 - (7 - nd.depth % 8)) = nd.depth := by omega
      have key := agree_iff hw (a := s) (b := a) (n := nd.depth / 8) (bi := 7 - nd.depth % 8) (by omega) (by omega)
        (by omega)
      rw [hdep] at key
      have hassoc : ∀ {β : Type} (x : Option Bool) (y : Option β),
          (do let equal ← x
              check (equal = true)
              y) = ((do let equal ← x
                        check (equal = true)) >>= fun _ => y) := by
        intro β x y
        cases x <;> rfl
      have hbit := getBit_ok hw (a := s + nd.depth / 8) (bi := 7 - nd.depth % 8) (by omega) (by omega)
      have hdif := bytesDiffer_bits hw (a := s + nd.depth / 8) (b := a + nd.depth / 8) (bi := 7 - nd.depth % 8)
        (by omega) (by omega) (by omega)
      rw [show 8 * (s + nd.depth / 8) + (7 - (7 - nd.depth % 8)) = 8 * s + nd.depth by omega] at hbit hdif
      rw [show 8 * (a + nd.depth / 8) + (7 - (7 - nd.depth % 8)) = 8 * a + nd.depth by omega] at hdif
      rw [hassoc, seq_iff, key, (C26_add_sub hw (a := s) (n := nd.depth / 8) (by omega)).1, ob_some,
        (C26_add_sub hw (a := a) (n := nd.depth / 8) (by omega)).1, ob_some, hdif, ob_some]
      simp only [n1, n2, true_and, false_and, false_or]
      refine and_congr_right fun _ => ?_
      by_cases he : bitAt (contents t.window) (8 * s + nd.depth) = bitAt (contents t.window) (8 * a + nd.depth)
      · rw [if_neg (by simp [he]), hbit, ob_some]
        simp only [he, forall_const]
        rw [← he]
        generalize bitAt (contents t.window) (8 * s + nd.depth) = b
        have hsub : ∃ ns' ls', Unfolds t.nodes.items (nd.child b) ns' ls' ∧ ns'.length ≤ f ∧
            (∀ v ∈ ns', v ∈ u :: (nr ++ nl)) ∧ (∀ i ∈ ls', i ∈ ll ++ lr) ∧
            (∀ v : Nat, nd.child b = -(v : Int) - 1 →
              (checkSuffix t maxOrder (posOf t.window s) f v = some () ↔
                Follows t.nodes.items t.window maxOrder s (-(v : Int) - 1))) := by
          cases b
          · exact ⟨nl, ll, h4, by omega, fun v hv => by simp [hv], fun i hi => by simp [hi], fun v hv =>
              ih1 (fun v hv => htext v (by simp [hv])) (fun i hi => hleaf i (by simp [hi])) v hv f (by omega)⟩
          · exact ⟨nr, lr, h5, by omega, fun v hv => by simp [hv], fun i hi => by simp [hi], fun v hv =>
              ih2 (fun v hv => htext v (by simp [hv])) (fun i hi => hleaf i (by simp [hi])) v hv f (by omega)⟩
        obtain ⟨ns', ls', hu', -, -, hl', hrec⟩ := hsub
        have hchild : (if b = true then nd.right else nd.left) = nd.child b := by cases b <;> rfl
        have hb := hfit nd (List.mem_of_getElem? h1) b
        rw [hchild]
        rcases child_cases (nd.child b) with ⟨i, hi⟩ | ⟨w, hi⟩
        · rw [hi] at hu' hb ⊢
          obtain ⟨-, rfl⟩ := hu'.inv_leaf
          obtain ⟨a', ha', rfl⟩ := hleaf i (hl' i (by simp))
          rw [if_neg (by unfold childIsNode; simp), childToWindow_eq _ (by omega), ob_some, (C26_order hw hs ha').2,
            ob_some, seq_iff, check_eq_some, decide_eq_true_eq, hdiff a' ha', ob_some]
          have hF : Follows t.nodes.items t.window maxOrder s (posOf t.window a' : Int) ↔
              s ≤ a' ∧ Agree t.window s a' (8 * min maxOrder (t.window.size - 1 - a')) := by
            constructor
            · intro hF
              generalize hc : (posOf t.window a' : Int) = c at hF
              cases hF with
              | @leaf b k1 k2 k3 =>
                have : posOf t.window a' = posOf t.window b := by exact_mod_cast hc
                obtain rfl : a' = b := by
                  by_contra hne
                  exact posOf_inj hw (by omega) (by omega) hne (by have := hw.size_le; omega)
                    (by have := hw.size_le; omega) this
                exact ⟨k2, k3⟩
              | reaches => omega
              | differs => omega
              | descends => omega
            · rintro ⟨k2, k3⟩
              exact .leaf ha' k2 k3
          rw [hF]
          refine and_congr_right fun hsa' => ?_
          rw [agree_iff hw (by omega) (by omega) (le_refl 7)]
          rfl
        · rw [hi] at hb ⊢
          rw [if_pos (by unfold childIsNode; simp; omega), childToNode_code (by omega), ob_some]
          exact hrec w hi
      · rw [if_pos (by simpa using he)]
        simp [he]

/-- **C59 (one suffix).** For every node pool that unfolds to a finite binary tree with texts and different leaves in the
window, and every suffix of the window: the walk of the check passes exactly if the suffix can be followed from the
root. -/
theorem C59_suffix (hw : Inv t.window) (hmax : t.window.max ≤ 2 ^ 31)
    (hfit : Fits t.nodes.items t.window.max) {maxOrder : Nat} (hM : maxOrder < 2 ^ 32)
    {nodes leaves : List Nat} (hu : Unfolds t.nodes.items (-1) nodes leaves) (hd : leaves.Nodup)
    (htext : ∀ v ∈ nodes, ∀ nd, t.nodes.items[v]? = some nd → ∃ a < t.window.size, nd.textStart = posOf t.window a)
    (hleaf : ∀ i ∈ leaves, ∃ a < t.window.size, i = posOf t.window a) {s : Nat} (hs : s < t.window.size) :
    checkSuffix t maxOrder (posOf t.window s) t.nodes.items.length 0 = some () ↔
      Follows t.nodes.items t.window maxOrder s (-1) :=
  checkSuffix_iff hw hmax hfit hM hs hu htext hleaf 0 (by rfl) _ (hu.length_le (hu.nodup hd))

/-- the walk of a suffix that is not younger than the text of the root, if this is the last byte -/
theorem checkSuffix_last (hw : Inv t.window) {maxOrder : Nat} (hM : maxOrder < 2 ^ 32) {nd : Node}
    (hroot : nodesGet t.nodes 0 = some nd) (hdepth : nd.depth ≤ 8 * maxOrder + 7) (htext : nd.textStart = t.window.cursor)
    {s fuel : Nat} (hs : s < t.window.size) : checkSuffix t maxOrder (posOf t.window s) (fuel + 1) 0 = some () := by
  have hcur := cursor_eq hw (by omega)
  have h0 := (C26_add_sub hw (a := t.window.size - 1) (n := 0) (by omega)).2.2
  rw [Nat.add_zero] at h0
  unfold checkSuffix
  rw [hroot, ob_some, usize_eq (by omega), ob_some, usize_eq (by omega), ob_some, check_pos (by omega), ob_some, htext,
    hcur, (C26_order hw hs (by omega)).2, ob_some, check_pos (decide_eq_true (by omega)), ob_some, h0, ob_some,
    if_pos (by omega), agree_iff hw (by omega) (by omega) (le_refl 7)]
  intro k hk
  omega

/-- **C59 (suffixes).** For every node pool with a root whose text lies in the window, and every window that is not empty:
the part of the check that looks for all suffixes passes exactly if the depth of the root is within the limit and the
text of the root is the last byte. So it says nothing about any other node: every walk that passes ends at the root. -/
theorem C59_suffixes (hw : Inv t.window) (h0 : 0 < t.window.size) (hp : t.proper = true) {maxOrder : Nat}
    (hM : maxOrder < 2 ^ 32) {nd : Node} (hroot : t.nodes.items[0]? = some nd) (hl : nd.left ≠ -1) (hr : nd.right ≠ -1)
    (htext : ∃ a < t.window.size, nd.textStart = posOf t.window a) :
    (forEachSuffix t.window).bind (checkSuffixes t maxOrder) = some () ↔
      nd.depth ≤ 8 * maxOrder + 7 ∧ nd.textStart = t.window.cursor := by
  have hget : nodesGet t.nodes 0 = some nd := by rw [C34_root _ _ hroot, if_pos ⟨hl, hr⟩]
  obtain ⟨f, hf⟩ : ∃ f, t.nodes.items.length = f + 1 := by
    cases hc : t.nodes.items with
    | nil => rw [hc] at hroot; simp at hroot
    | cons a l => exact ⟨l.length, rfl⟩
  rw [C26_suffixes hw h0]
  change checkSuffixes t maxOrder _ = some () ↔ _
  have key : ∀ l : List Nat, checkSuffixes t maxOrder (l.map (posOf t.window)) = some () ↔
        ∀ s ∈ l, checkSuffix t maxOrder (posOf t.window s) (f + 1) 0 = some () := by
    intro l
    induction l with
    | nil => simp [checkSuffixes]
    | cons s l ih =>
      rw [List.map_cons, checkSuffixes, if_pos hp, seq_iff, ih, hf]
      simp
  rw [key]
  constructor
  · intro h
    have := h (t.window.size - 1) (by rw [List.mem_range]; omega)
    obtain ⟨a, ha, hta⟩ := htext
    unfold checkSuffix at this
    rw [hget, ob_some, usize_eq (by omega), ob_some, usize_eq (by omega), ob_some, seq_iff, check_eq_some, hta,
      (C26_order hw (by omega) ha).2, ob_some, seq_iff, check_eq_some, decide_eq_true_eq] at this
    refine ⟨by omega, ?_⟩
    rw [hta, cursor_eq hw h0, show a = t.window.size - 1 by omega]
  · rintro ⟨h1, h2⟩ s hs
    exact checkSuffix_last hw hM hget h1 h2 (List.mem_range.mp hs)

/-- **C59 (check).** The whole check of a tree passes exactly if following the children from the root gives a finite
binary tree whose leaves are different suffixes in the window, the depth of the root is within the limit, and the text
of the root is the last byte. -/
theorem C59_check (hw : Inv t.window) (h0 : 0 < t.window.size) (hmax : t.window.max ≤ 2 ^ 31)
    (hfit : Fits t.nodes.items t.window.max) (hp : t.proper = true) {maxOrder : Nat} (hM : maxOrder < 2 ^ 32)
    {nd : Node} (hroot : t.nodes.items[0]? = some nd) (hl : nd.left ≠ -1) (hr : nd.right ≠ -1)
    (htext : ∃ a < t.window.size, nd.textStart = posOf t.window a) :
    treeCheck t maxOrder = some () ↔
      (∃ nodes leaves, Unfolds t.nodes.items (-1) nodes leaves ∧ leaves.Nodup ∧
        ∀ i ∈ leaves, ∃ a < t.window.size, i = posOf t.window a) ∧
      nd.depth ≤ 8 * maxOrder + 7 ∧ nd.textStart = t.window.cursor := by
  have hwin : checkWindow t.window = some () := by
    rw [C59_window hw.start_lt hw.cursor_lt hw.max_lt]
    have := hw.rel; have := hw.cursor_lt; have := hw.start_lt; have := hw.size_le; have := hw.part; have := hw.len_le
    omega
  have hsuf := C26_suffixes hw h0
  have := C59_suffixes hw h0 hp hM hroot hl hr htext
  rw [hsuf] at this
  unfold treeCheck
  rw [hwin, ob_some, hsuf, ob_some, seq_iff, C59_leaves hw hmax hfit hp, and_comm]
  exact and_congr_right fun _ => this

/-- **C59 (no tree).** Without a tree the check passes whenever the window is not empty. -/
theorem C59_degenerate (hw : Inv t.window) (h0 : 0 < t.window.size) (hp : t.proper = false) (maxOrder : Nat) :
    treeCheck t maxOrder = some () := by
  have hwin : checkWindow t.window = some () := by
    rw [C59_window hw.start_lt hw.cursor_lt hw.max_lt]
    have := hw.rel; have := hw.cursor_lt; have := hw.start_lt; have := hw.size_le; have := hw.part; have := hw.len_le
    omega
  have key : ∀ l : List Nat, checkSuffixes t maxOrder l = some () := by
    intro l
    induction l with
    | nil => rfl
    | cons s l ih => rw [checkSuffixes, if_neg (by simp [hp]), ob_some, ih]
  unfold treeCheck checkLeaves
  rw [hwin, ob_some, C26_suffixes hw h0, ob_some, key, ob_some, if_neg (by simp [hp])]

/-! ## Cases -/

/-- a tree over the bytes 5, 96 and 7 in a window that wraps around; the text of the root is the last byte, the oldest
suffix is a leaf below node 1 -/
def exampleTree : Tree :=
  ⟨⟨[{ nodeInvalid with left := -2, right := 3, depth := 1 }, { nodeInvalid with left := 2, right := 0, depth := 6 }],
    none, 0, 2⟩, ⟨[7, 1, 5, 96], 2, 0, 3, 4⟩, true⟩

theorem exampleTree_inv : Inv exampleTree.window :=
  ⟨by decide, by decide, by decide, by decide, by decide, by decide, by decide, by decide, by decide⟩

theorem exampleTree_fits : Fits exampleTree.nodes.items exampleTree.window.max := by
  intro nd hnd b
  simp only [exampleTree, List.mem_cons, List.not_mem_nil, or_false] at hnd
  rcases hnd with rfl | rfl <;> cases b <;> decide

theorem exampleTree_unfolds : Unfolds exampleTree.nodes.items (-1) [0, 1] [2, 0, 3] :=
  Unfolds.node (v := 0) (nl := [1]) (ll := [2, 0]) (nr := []) (lr := [3]) rfl (by decide) (by decide)
    (Unfolds.node (v := 1) (nl := []) (ll := [2]) (nr := []) (lr := [0]) rfl (by decide) (by decide)
      (Unfolds.leaf 2) (Unfolds.leaf 0)) (Unfolds.leaf 3)

/-- the hypotheses are met, and the check passes -/
example : treeCheck exampleTree 1 = some () := by
  refine (C59_check (nd := { nodeInvalid with left := -2, right := 3, depth := 1 }) exampleTree_inv (by decide) (by decide)
    exampleTree_fits rfl (by decide) rfl (by decide) (by decide) ⟨2, by decide, by decide⟩).mpr
    ⟨⟨_, _, exampleTree_unfolds, by decide, ?_⟩, by decide, by decide⟩
  intro i hi
  simp only [List.mem_cons, List.not_mem_nil, or_false] at hi
  rcases hi with rfl | rfl | rfl
  · exact ⟨0, by decide, by decide⟩
  · exact ⟨2, by decide, by decide⟩
  · exact ⟨1, by decide, by decide⟩

/-- the depth of node 1, which is wrong, is not noticed; the text of the root is -/
example : treeCheck { exampleTree with nodes := ⟨[{ nodeInvalid with left := -2, right := 3, depth := 1 },
      { nodeInvalid with left := 2, right := 0, depth := 77, textStart := 3 }], none, 0, 2⟩ } 1 = some () ∧
    treeCheck { exampleTree with nodes := ⟨[{ nodeInvalid with left := -2, right := 3, depth := 1, textStart := 2 },
      { nodeInvalid with left := 2, right := 0, depth := 6 }], none, 0, 2⟩ } 1 = none := by decide +kernel

/-- a suffix that is followed down to a leaf: the text of the root is the oldest byte, which the check refuses for the
younger suffixes -/
example : checkSuffix { exampleTree with nodes := ⟨[{ nodeInvalid with left := -2, right := 3, depth := 1, textStart := 2 },
      { nodeInvalid with left := 2, right := 0, depth := 6, textStart := 2 }], none, 0, 2⟩ } 1 2 2 0 = some () ∧
    checkSuffix { exampleTree with nodes := ⟨[{ nodeInvalid with left := -2, right := 3, depth := 1, textStart := 2 },
      { nodeInvalid with left := 2, right := 0, depth := 6, textStart := 3 }], none, 0, 2⟩ } 1 2 2 0 = none := by
  decide +kernel

end Verif.Tree
