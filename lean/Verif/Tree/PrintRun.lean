import Verif.Tree.CheckProps
import Verif.Tree.PrintProps

/-!
# C79: the listing of the tree of an input
-/

namespace Verif.Tree

open Verif Verif.History Verif.Window Verif.Text

/-! ## Specification -/

/-- the lines of leaves: those without an apostrophe, without their indentation -/
def leafLines (lines : List (List Char)) : List (List Char) :=
  (lines.filter fun l => !l.contains '\'').map fun l => l.dropWhile (· == ' ')

/-- the text from byte `a` on is before the one from byte `b` on: there is a string after which the first continues with 0
and the second with 1 -/
def Before (hist : List Bool) (a b : Nat) : Prop := ∃ s, ReadAt hist (s ++ [false]) a ∧ ReadAt hist (s ++ [true]) b

/-! ## Lines of leaves -/

theorem contains_quote_node (nd : Node) (v d : Nat) :
    (List.replicate (3 * d) ' ' ++ (wantedNode nd v).toList).contains '\'' = true := by
  rw [List.contains_iff_mem]
  exact List.mem_append_right _ (quote_mem nd v)

theorem contains_quote_leaf (i d : Nat) : (List.replicate (3 * d) ' ' ++ (toString i).toList).contains '\'' = false := by
  rw [← Bool.not_eq_true, List.contains_iff_mem, List.mem_append, not_or]
  refine ⟨?_, quote_not_mem i⟩
  intro h
  have := (List.mem_replicate.mp h).2
  exact absurd this (by decide)

theorem drop_blanks (i d : Nat) : (List.replicate d ' ' ++ (toString i).toList).dropWhile (· == ' ') = (toString i).toList := by
  induction d with
  | zero =>
    rw [List.replicate_zero, List.nil_append, toString_dec]
    cases h : dec i with
    | nil => rfl
    | cons c l =>
      have hd := dec_digit (n := i) (c := c) (by rw [h]; exact List.mem_cons_self)
      rw [List.dropWhile_cons_of_neg]
      intro hc
      rw [beq_iff_eq] at hc
      subst hc
      revert hd
      decide
  | succ d ih =>
    rw [List.replicate_succ, List.cons_append, List.dropWhile_cons_of_pos (by simp), ih]

theorem leafLines_append (a b : List (List Char)) : leafLines (a ++ b) = leafLines a ++ leafLines b := by
  unfold leafLines
  rw [List.filter_append, List.map_append]

theorem Draws.leafLines {items : List Node} {d : Nat} {c : Int} {ls : List (List Char)} (h : Draws items d c ls) :
    ∀ {ns leaves : List Nat}, Unfolds items c ns leaves → leafLines ls = leaves.map fun i => (toString i).toList := by
  induction h with
  | leaf d i =>
    intro ns leaves hu
    obtain ⟨-, rfl⟩ := hu.inv_leaf
    unfold Tree.leafLines
    rw [List.filter_cons_of_pos (by rw [contains_quote_leaf]; rfl), List.filter_nil, List.map_cons, drop_blanks]
    rfl
  | @node d v nd l r h1 h2 h3 _ _ ih1 ih2 =>
    intro ns leaves hu
    obtain ⟨nd', nl, ll, nr, lr, e, -, -, u1, u2, -, rfl⟩ := hu.inv_node
    obtain rfl : nd = nd' := by rw [h1] at e; exact Option.some.inj e
    rw [List.map_append, ← ih1 u1, ← ih2 u2, ← leafLines_append]
    unfold Tree.leafLines
    rw [List.filter_cons_of_neg (by rw [contains_quote_node]; simp)]

/-! ## The tree of an input -/

variable {t : Tree} {hist : List Bool} {D : Nat} {live : Nat → Option Node} {label : Nat → List Bool}

theorem ReadAt.prefix {s r : List Bool} {i : Nat} (h : ReadAt hist r i) (hp : s <+: r) : ReadAt hist s i := by
  obtain ⟨q, rfl⟩ := hp
  obtain ⟨h1, h2⟩ := h
  rw [List.length_append] at h1
  refine ⟨by omega, ?_⟩
  have := congrArg (List.take s.length) h2
  rw [List.take_take, List.length_append, min_eq_left (by omega), List.take_left'] at this
  · exact this
  · rfl

theorem before_ne {a b : Nat} (h : Before hist a b) : a ≠ b := by
  rintro rfl
  obtain ⟨s, ⟨h1, h2⟩, ⟨-, h3⟩⟩ := h
  rw [List.length_append, List.length_singleton] at h2 h3
  rw [h2] at h3
  simp at h3

/-- the subtree of a node -/
theorem TreeShape.subtree (h : TreeShape t hist D live label) (hs : hist.length ≤ 8 * t.window.size) :
    ∀ (k : Nat) {v : Nat} {nd : Node}, live v = some nd → D + 1 ≤ (label v).length + k →
      ∃ ns leaves, ∃ ages : List Nat, Unfolds t.nodes.items (-(v : Int) - 1) ns leaves ∧ leaves = ages.map (posOf t.window) ∧
        (∀ a ∈ ages, a < t.window.size ∧ ReadAt hist (label v) a) ∧ ages.Pairwise (Before hist) ∧
        (∀ u ∈ ns, ∃ nu, live u = some nu ∧ label v <+: label u) ∧
        (∀ s, Branches hist D s → label v <+: s → ∃ u ∈ ns, label u = s) := by
  intro k
  induction k with
  | zero =>
    intro v nd hv hk
    have := (h.sound v nd hv).1.1
    omega
  | succ k ih =>
    intro v nd hv hk
    have hget : ∀ {u : Nat} {nu : Node}, live u = some nu → t.nodes.items[u]? = some nu := by
      intro u nu hu
      have e1 := h.node u nu hu
      unfold nodesGet at e1
      obtain ⟨nd', k1, k2⟩ := bind_inv e1
      obtain ⟨_, -, k2⟩ := bind_inv k2
      rw [k1, k2]
    have key : ∀ b, ∃ ns leaves, ∃ ages : List Nat, nd.child b ≠ -1 ∧ Unfolds t.nodes.items (nd.child b) ns leaves ∧
        leaves = ages.map (posOf t.window) ∧
        (∀ a ∈ ages, a < t.window.size ∧ ReadAt hist (label v ++ [b]) a) ∧ ages.Pairwise (Before hist) ∧
        (∀ u ∈ ns, ∃ nu, live u = some nu ∧ label v <+: label u) ∧
        (∀ s, Branches hist D s → label v ++ [b] <+: s → ∃ u ∈ ns, label u = s) := by
      intro b
      obtain ⟨i, hi, -, hc⟩ := h.child v nd b hv
      have hlen := hi.1
      rw [List.length_append, List.length_singleton] at hlen
      rcases hc with ⟨hn, hc⟩ | ⟨w, nw, hw1, hw, hc, hp, hm, -⟩
      · refine ⟨[], [posOf t.window i], [i], by omega, ?_, rfl, ?_, List.pairwise_singleton _ _, by simp,
          fun s hb hp => absurd hp (hn s hb)⟩
        · rw [hc]
          exact .leaf _
        · intro a ha
          obtain rfl := List.mem_singleton.mp ha
          exact ⟨by omega, hi⟩
      · have h2 := hp.length_le
        rw [List.length_append, List.length_singleton] at h2
        obtain ⟨ns, leaves, ages, u1, u2, u3, u4, u5, u6⟩ := ih hw (by omega)
        refine ⟨ns, leaves, ages, by omega, by rw [hc]; exact u1, u2, fun a ha => ⟨(u3 a ha).1, (u3 a ha).2.prefix hp⟩,
          u4, ?_, fun s hb hp' => u6 s hb (hm s hb hp')⟩
        intro u hu
        obtain ⟨nu, e, hpu⟩ := u5 u hu
        exact ⟨nu, e, (List.prefix_append _ _).trans (hp.trans hpu)⟩
    obtain ⟨nl, ll, al, l0, l1, l2, l3, l4, l5, l6⟩ := key false
    obtain ⟨nr, lr, ar, r0, r1, r2, r3, r4, r5, r6⟩ := key true
    refine ⟨_, _, al ++ ar, .node (hget hv) l0 r0 l1 r1, by rw [l2, r2, List.map_append], ?_, ?_, ?_, ?_⟩
    · intro a ha
      rcases List.mem_append.mp ha with ha | ha
      · exact ⟨(l3 a ha).1, (l3 a ha).2.prefix (List.prefix_append _ _)⟩
      · exact ⟨(r3 a ha).1, (r3 a ha).2.prefix (List.prefix_append _ _)⟩
    · rw [List.pairwise_append]
      exact ⟨l4, r4, fun a ha b hb => ⟨label v, (l3 a ha).2, (r3 b hb).2⟩⟩
    · intro u hu
      rw [List.mem_cons, List.mem_append] at hu
      rcases hu with rfl | hu | hu
      · exact ⟨nd, hv, List.prefix_refl _⟩
      · exact r5 u hu
      · exact l5 u hu
    · intro s hb hp
      obtain ⟨q, rfl⟩ := hp
      cases q with
      | nil => exact ⟨v, by simp, by simp⟩
      | cons b q =>
        have hp' : label v ++ [b] <+: label v ++ b :: q := ⟨q, by simp⟩
        cases b
        · obtain ⟨u, hu, e⟩ := l6 _ hb hp'
          exact ⟨u, by simp [hu], e⟩
        · obtain ⟨u, hu, e⟩ := r6 _ hb hp'
          exact ⟨u, by simp [hu], e⟩

/-- **C79.** For every input, however long, once the tree is ready for the next bit it can be printed. The text has a line
for every live node and one line more for leaves than for nodes. The lines of leaves list window positions of different
suffixes in lexicographic order of the text that starts there. -/
theorem C79_listing (luts : Luts) (h : LutsOk luts) (W sh maxOrder : Nat) (hW : W ≤ 2 ^ 31) (hsh : sh < W)
    (hM : maxOrder ≤ 8191) (hist : List Bool) (upd : List CtxState → Bool → List Costs)
    (hu : ∀ l b, (upd l b).length = (l.filter CtxState.isNode).length) :
    ∃ s0 s1 s lines n, srcNew W maxOrder sh = some s0 ∧ feed (treeSource luts) upd 0 s0 hist = some s1 ∧
      ready (treeSource luts) hist.length s1 = some s ∧ printTree s.tree = some lines ∧ liveCount s.tree.nodes = some n ∧
      (s.tree.proper = false → n = 0 ∧ lines = ["Empty tree".toList]) ∧
      (s.tree.proper = true → lines.length = 2 * n + 1 ∧ ∃ ages : List Nat, ages.length = n + 1 ∧
        (∀ a ∈ ages, a < s.tree.window.size) ∧
        leafLines lines = ages.map (fun a => (toString (posOf s.tree.window a)).toList) ∧
        ages.Pairwise (Before (windowed W hist))) := by
  obtain ⟨s0, s1, e0, e1, h1⟩ := src_run (Pc := fun _ _ _ => True) h (fun _ _ _ => ⟨costsDefault, trivial⟩) hW hsh hM
    hu (fun _ _ _ _ _ => allowed_const (fun _ _ => trivial)) hist
  obtain ⟨s, e2, h2⟩ := src_ready hW (by omega) hM h1
  have hh : windowed W hist = seg (fun i => hist.getD i false) (hist.length / 8 + 1 - W)
      (8 * (hist.length / 8) + hist.length % 8 - 8 * (hist.length / 8 + 1 - W)) := by
    have := windowed_seg (x := fun i => hist.getD i false) (W := W) (L := hist.length)
    rw [seg_getD_self] at this
    rw [this]
    congr 1
    omega
  obtain ⟨l, l1, l2, l3, -⟩ := count_of_state (by omega) hW hh h2.state
  have hst := h2.state
  have hwin := hst.win
  have hsize := hwin.size
  have hinv := hwin.inv
  cases hp : s.tree.proper with
  | false =>
    have hno := (shape_of_state (j := hist.length % 8) (by omega) hh hst).2 hp
    refine ⟨s0, s1, s, ["Empty tree".toList], l.length, e0, e1, e2, ?_, l3, fun _ => ⟨?_, rfl⟩, fun h => by simp [hp] at h⟩
    · unfold printTree
      rw [if_neg (by simp [hp])]
      rfl
    · rw [List.length_eq_zero_iff, List.eq_nil_iff_forall_not_mem]
      intro a ha
      exact hno a ((l2 a).mp ha)
  | true =>
    obtain ⟨N, str, cnt, hT, -⟩ : ProperOk luts _ _ _ sh W maxOrder _ _ _ _ s.tree s.ctxs := by
      rcases hst.cases with hc | ⟨hp', -⟩
      · exact hc
      · rw [hp] at hp'; simp at hp'
    have hS := shape_of_tree (by omega) hh hwin hst.le hT
    obtain ⟨nd, hnd⟩ := hS.root
    have hlen : (windowed W hist).length ≤ 8 * s.tree.window.size := by
      rw [hh, seg_length]; omega
    obtain ⟨ns, leaves, ages, u1, u2, u3, u4, u5, u6⟩ := hS.subtree hlen (8 * maxOrder + 7 + 1) hnd (by omega)
    have hnodup : ages.Nodup := List.Pairwise.imp (fun h => before_ne h) u4
    have hld : leaves.Nodup := by
      rw [u2]
      refine List.Nodup.map_on ?_ hnodup
      intro a ha b hb he
      by_contra hne
      have h1 := (u3 a ha).1; have h2 := (u3 b hb).1; have h3 := hinv.size_le
      exact posOf_inj hinv (by omega) (by omega) hne (by omega) (by omega) he
    have hnd' := u1.nodup hld
    obtain ⟨lines, hD⟩ := u1.draws 0
    obtain ⟨ns', leaves', v1, v2⟩ := hD.unfolds
    obtain ⟨rfl, rfl⟩ := u1.det v1
    have hcount : leaves.length = ns.length + 1 := by
      have key : ∀ {c : Int} {ns ls : List Nat}, Unfolds s.tree.nodes.items c ns ls → ls.length = ns.length + 1 := by
        intro c ns ls hu
        induction hu with
        | leaf => simp
        | node _ _ _ _ _ ih1 ih2 => simp [ih1, ih2]; omega
      exact key u1
    have hnl : ns.length = l.length := by
      have hperm : (ns.map str).Perm l := by
        refine (List.perm_ext_iff_of_nodup ?_ l1).mpr ?_
        · refine List.Nodup.map_on ?_ hnd'
          intro a ha b hb he
          obtain ⟨na, ea, -⟩ := u5 a ha
          obtain ⟨nb, eb, -⟩ := u5 b hb
          exact hS.injective a b na nb ea eb he
        · intro r
          rw [l2, List.mem_map]
          constructor
          · rintro ⟨u, hu, rfl⟩
            obtain ⟨nu, eu, -⟩ := u5 u hu
            exact (hS.sound u nu eu).1
          · intro hb
            exact u6 r hb (hS.rootPrefix r hb)
      rw [← hperm.length_eq, List.length_map]
    refine ⟨s0, s1, s, lines, l.length, e0, e1, e2, ?_, l3, fun h => by simp [hp] at h, fun _ => ⟨by omega, ages, ?_,
      fun a ha => (u3 a ha).1, ?_, u4⟩⟩
    · unfold printTree
      rw [if_pos hp]
      refine printNode_ok hD ?_ 0 rfl [] _ List.nodup_nil (by simp) (by simp)
      intro ns' leaves' hU v hv nv hnv b
      obtain ⟨rfl, rfl⟩ := u1.det hU
      obtain ⟨nv', ev, -⟩ := u5 v hv
      obtain ⟨hit, -⟩ := rep_some hT.rep ev
      obtain rfl : nv = nv' := by rw [hnv] at hit; exact Option.some.inj hit
      obtain ⟨i, -, -, hc⟩ := hS.child v nv b ev
      rcases hc with ⟨-, hc⟩ | ⟨w, nw, -, hw, hc, -⟩
      · have hmx : (s.tree.window.start + i) % s.tree.window.max < s.tree.window.max := Nat.mod_lt _ hinv.max_pos
        have hmw : s.tree.window.max ≤ 2 ^ 31 := by rw [hwin.max]; exact hW
        rw [hc]
        omega
      · have := (rep_some hT.rep hw).2
        rw [hc]
        omega
    · have := congrArg List.length u2
      rw [List.length_map] at this
      omega
    · rw [hD.leafLines u1, u2, List.map_map]
      rfl

/-- ten bits in a window of three bytes that wraps around after its first byte -/
example : ∃ luts s0 s1, LutsOk luts ∧ srcNew 3 2 2 = some s0 ∧
    feed (treeSource luts) (fun l _ => List.replicate (l.filter CtxState.isNode).length costsDefault) 0 s0
      [true, false, true, true, false, true, false, false, true, false] = some s1 := by
  obtain ⟨luts, h⟩ := luts_exist
  obtain ⟨s0, s1, -, -, -, h1, h2, -⟩ := C79_listing luts h 3 2 2 (by norm_num) (by norm_num) (by norm_num)
    [true, false, true, true, false, true, false, false, true, false]
    (fun l _ => List.replicate (l.filter CtxState.isNode).length costsDefault) (by simp)
  exact ⟨luts, s0, s1, h, h1, h2⟩

end Verif.Tree
