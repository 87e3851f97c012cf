import Verif.Tree.Print
import Verif.Tree.PrintSpec
import Verif.Tree.SoundProps
import Verif.Tree.FollowProps

/-!
# C79: the listing of a tree
-/

namespace Verif.Tree

open Verif Verif.History Verif.Window Verif.Text

variable {t t' : Tree} {m : Nat} {items : List Node}

/-! ## Lines -/

theorem indent_eq (d : Nat) : indent d = List.replicate (3 * d) ' ' := by
  unfold indent
  induction d with
  | zero => rfl
  | succ d ih =>
    rw [List.replicate_succ, List.flatten_cons, ih, show 3 * (d + 1) = 3 + 3 * d by omega, List.replicate_add]
    rfl

theorem toString_dec (n : Nat) : (toString n).toList = dec n := by
  rw [show toString n = n.repr from rfl, Nat.toList_repr]
  rfl

theorem leafLine_eq (i d : Nat) : leafLine i d = List.replicate (3 * d) ' ' ++ (toString i).toList := by
  unfold leafLine
  rw [indent_eq, toString_dec]

theorem nodeLine_eq (nd : Node) (v d : Nat) :
    nodeLine nd v d = List.replicate (3 * d) ' ' ++ (wantedNode nd v).toList := by
  unfold nodeLine nodeText wantedNode
  rw [indent_eq]
  simp only [String.toList_append, toString_dec, List.append_assoc]
  simp [bin, toString]

theorem nodeText_inj {a b : Node} {v w : Nat}
    (h : nodeText a ++ [' ', '=', ' '] ++ dec v = nodeText b ++ [' ', '=', ' '] ++ dec w) :
    a.textStart = b.textStart ∧ a.depth = b.depth ∧ State.recentLast7 a.recent = State.recentLast7 b.recent ∧
      a.leftCount = b.leftCount ∧ a.rightCount = b.rightCount ∧ v = w := by
  unfold nodeText at h
  simp only [List.append_assoc, List.cons_append, List.nil_append] at h
  obtain ⟨h1, h⟩ := split_at (dec_ne (by decide)) (dec_ne (by decide)) h
  obtain ⟨h2, h⟩ := split_at (dec_ne (by decide)) (dec_ne (by decide)) h
  obtain ⟨h3, h⟩ := split_at (bin_ne (by decide)) (bin_ne (by decide)) h
  simp only [List.cons.injEq, true_and] at h
  obtain ⟨h4, h⟩ := split_at (dec_ne (by decide)) (dec_ne (by decide)) h
  simp only [List.cons.injEq, true_and] at h
  obtain ⟨h5, h⟩ := split_at (dec_ne (by decide)) (dec_ne (by decide)) h
  simp only [List.cons.injEq, true_and] at h
  exact ⟨dec_inj h1, dec_inj h2, bin_inj h3, dec_inj h4, dec_inj h5, dec_inj h⟩

theorem quote_mem (nd : Node) (v : Nat) : '\'' ∈ (wantedNode nd v).toList := by
  have := nodeLine_eq nd v 0
  rw [Nat.mul_zero, List.replicate_zero, List.nil_append] at this
  rw [← this]
  unfold nodeLine nodeText
  simp

theorem quote_not_mem (i : Nat) : '\'' ∉ (toString i).toList := by
  rw [toString_dec]
  exact dec_ne (by decide)

theorem wantedNode_inj {a b : Node} {v w : Nat} (h : (wantedNode a v).toList = (wantedNode b w).toList) :
    a.textStart = b.textStart ∧ a.depth = b.depth ∧ State.recentLast7 a.recent = State.recentLast7 b.recent ∧
      a.leftCount = b.leftCount ∧ a.rightCount = b.rightCount ∧ v = w := by
  have h1 := nodeLine_eq a v 0
  have h2 := nodeLine_eq b w 0
  rw [Nat.mul_zero, List.replicate_zero, List.nil_append] at h1 h2
  rw [← h1, ← h2] at h
  exact nodeText_inj h

/-! ## Listings -/

theorem Draws.unfolds {d : Nat} {c : Int} {ls : List (List Char)} (h : Draws items d c ls) :
    ∃ ns leaves, Unfolds items c ns leaves ∧ ls.length = ns.length + leaves.length := by
  induction h with
  | leaf d i => exact ⟨[], [i], .leaf i, rfl⟩
  | node h1 h2 h3 _ _ ih1 ih2 =>
    obtain ⟨ns1, ls1, u1, e1⟩ := ih1
    obtain ⟨ns2, ls2, u2, e2⟩ := ih2
    refine ⟨_, _, .node h1 h2 h3 u1 u2, ?_⟩
    simp only [List.length_cons, List.length_append, e1, e2]
    omega

theorem Unfolds.draws {c : Int} {ns leaves : List Nat} (h : Unfolds items c ns leaves) :
    ∀ d, ∃ ls, Draws items d c ls := by
  induction h with
  | leaf i => intro d; exact ⟨_, .leaf d i⟩
  | node h1 h2 h3 _ _ ih1 ih2 =>
    intro d
    obtain ⟨l, hl⟩ := ih1 (d + 1)
    obtain ⟨r, hr⟩ := ih2 (d + 1)
    exact ⟨_, .node h1 h2 h3 hl hr⟩

/-- what is printed is a listing -/
theorem printNode_draws (hfit : Fits t.nodes.items (2 ^ 31)) : ∀ (fuel v d : Nat) (ls : List (List Char)),
    printNode t fuel v d = some ls → Draws t.nodes.items d (-(v : Int) - 1) ls := by
  intro fuel
  induction fuel with
  | zero => intro v d ls h; cases h
  | succ fuel ih =>
    intro v d ls h
    unfold printNode at h
    obtain ⟨nd, e1, h⟩ := bind_inv h
    obtain ⟨_, e2, h⟩ := bind_inv h
    obtain ⟨l, e3, h⟩ := bind_inv h
    obtain ⟨r, e4, h⟩ := bind_inv h
    obtain rfl := Option.some.inj h
    have hv := (nodeIsValid_iff nd).mp (check_eq_some.mp e2)
    have hget : t.nodes.items[v]? = some nd := by
      unfold nodesGet at e1
      obtain ⟨nd', k1, k2⟩ := bind_inv e1
      obtain ⟨_, -, k2⟩ := bind_inv k2
      rw [k1, k2]
    have hb := hfit nd (List.mem_of_getElem? hget)
    have side : ∀ {c : Int} {ls : List (List Char)}, -2 ^ 31 ≤ c → c < 2 ^ 31 →
        printChild (fun w => printNode t fuel w (d + 1)) c (d + 1) = some ls → Draws t.nodes.items (d + 1) c ls := by
      intro c ls hc hc' h
      unfold printChild at h
      rcases child_cases c with ⟨i, rfl⟩ | ⟨w, rfl⟩
      · rw [if_neg (by unfold childIsNode; simp), childToWindow_eq _ (by omega), ob_some, leafLine_eq] at h
        obtain rfl := Option.some.inj h
        exact .leaf _ i
      · rw [if_pos (by unfold childIsNode; simp; omega), childToNode_code (by omega), ob_some] at h
        exact ih w _ _ h
    rw [nodeLine_eq]
    exact .node hget hv.1 hv.2 (side (c := nd.child false) (hb false).1 (by have := (hb false).2; simpa using this) e3)
      (side (c := nd.child true) (hb true).1 (by have := (hb true).2; simpa using this) e4)

/-- a listing is printed if there is fuel for the nodes that are not above -/
theorem printNode_ok {d : Nat} {c : Int} {ls : List (List Char)} (h : Draws t.nodes.items d c ls) :
    (∀ ns leaves, Unfolds t.nodes.items c ns leaves → ∀ v ∈ ns, ∀ nd, t.nodes.items[v]? = some nd → ∀ b,
      -2 ^ 31 ≤ nd.child b ∧ nd.child b < 2 ^ 31) → ∀ (v : Nat), c = -(v : Int) - 1 → ∀ (above : List Nat) (fuel : Nat), above.Nodup →
      (∀ u ∈ above, u < t.nodes.items.length ∧ ∃ k ns leaves, Unfolds t.nodes.items (-(u : Int) - 1) ns leaves ∧
        ns.length = k ∧ ∀ ns' leaves', Unfolds t.nodes.items c ns' leaves' → ns'.length < k) →
      t.nodes.items.length ≤ fuel + above.length → printNode t fuel v d = some ls := by
  induction h with
  | leaf d i => intro _ v hv; omega
  | @node d u nd l r h1 h2 h3 hl hr ih1 ih2 =>
    intro hfit v hv above fuel hnd hab hf
    obtain rfl : u = v := by omega
    obtain ⟨nl, ll, ul, -⟩ := hl.unfolds
    obtain ⟨nr, lr, ur, -⟩ := hr.unfolds
    have hself := Unfolds.node h1 h2 h3 ul ur
    have hu : u ∉ above := by
      intro hm
      obtain ⟨-, k, ns, leaves, hU, hk, hlt⟩ := hab u hm
      have := hlt _ _ hU
      omega
    have hlt := (List.getElem?_eq_some_iff.mp h1).1
    have hnd' : (u :: above).Nodup := List.nodup_cons.mpr ⟨hu, hnd⟩
    have hcard : (u :: above).length ≤ t.nodes.items.length := by
      have hs : (u :: above).toFinset ⊆ Finset.range t.nodes.items.length := by
        intro w hw
        rw [List.mem_toFinset, List.mem_cons] at hw
        rw [Finset.mem_range]
        rcases hw with rfl | hw
        · exact hlt
        · exact (hab w hw).1
      have := Finset.card_le_card hs
      rwa [List.toFinset_card_of_nodup hnd', Finset.card_range] at this
    rw [List.length_cons] at hcard
    obtain ⟨f, rfl⟩ : ∃ f, fuel = f + 1 := ⟨fuel - 1, by omega⟩
    have hb := hfit _ _ hself u (by simp) nd h1
    have hget : nodesGet t.nodes u = some nd := by
      unfold nodesGet
      rw [h1, ob_some, check_pos (Or.inr ((nodeIsValid_iff nd).mpr ⟨h2, h3⟩)), ob_some]
    have habove : ∀ (b : Bool), ∀ w ∈ u :: above, w < t.nodes.items.length ∧ ∃ k ns leaves,
        Unfolds t.nodes.items (-(w : Int) - 1) ns leaves ∧ ns.length = k ∧
        ∀ ns' leaves', Unfolds t.nodes.items (nd.child b) ns' leaves' → ns'.length < k := by
      intro b w hw
      have hsmall : ∀ ns' leaves', Unfolds t.nodes.items (nd.child b) ns' leaves' →
          ns'.length < (u :: (nr ++ nl)).length := by
        intro ns' leaves' hU
        rw [List.length_cons, List.length_append]
        cases b
        · obtain ⟨rfl, -⟩ := ul.det hU; omega
        · obtain ⟨rfl, -⟩ := ur.det hU; omega
      rcases List.mem_cons.mp hw with rfl | hw
      · exact ⟨hlt, _, _, _, hself, rfl, hsmall⟩
      · obtain ⟨k1, k, ns, leaves, hU, hk, hlt'⟩ := hab w hw
        exact ⟨k1, k, ns, leaves, hU, hk, fun ns' leaves' hU' => lt_trans (hsmall _ _ hU') (hlt' _ _ hself)⟩
    have side : ∀ (b : Bool) {ls : List (List Char)}, Draws t.nodes.items (d + 1) (nd.child b) ls →
        (∀ v : Nat, nd.child b = -(v : Int) - 1 → printNode t f v (d + 1) = some ls) →
        printChild (fun w => printNode t f w (d + 1)) (nd.child b) (d + 1) = some ls := by
      intro b ls hD hrec
      unfold printChild
      have hc := (hb b).1
      have hc' := (hb b).2
      rcases child_cases (nd.child b) with ⟨i, hi⟩ | ⟨w, hi⟩
      · rw [hi] at hD hc' ⊢
        rw [if_neg (by unfold childIsNode; simp), childToWindow_eq _ (by omega), ob_some, leafLine_eq]
        generalize hcc : (i : Int) = c at hD
        cases hD with
        | leaf d j =>
          obtain rfl : i = j := by omega
          rfl
        | node => omega
      · have := hrec w hi
        rw [hi] at hc ⊢
        rw [if_pos (by unfold childIsNode; simp; omega), childToNode_code (by omega), ob_some]
        exact this
    have hleft := side false hl (fun v hv => ih1 (fun ns' ls' hU w hw => by
      obtain ⟨rfl, rfl⟩ := ul.det hU
      exact hfit _ _ hself w (by simp [hw])) v hv (u :: above) f hnd' (habove false) (by rw [List.length_cons]; omega))
    have hright := side true hr (fun v hv => ih2 (fun ns' ls' hU w hw => by
      obtain ⟨rfl, rfl⟩ := ur.det hU
      exact hfit _ _ hself w (by simp [hw])) v hv (u :: above) f hnd' (habove true) (by rw [List.length_cons]; omega))
    unfold printNode
    rw [hget, ob_some, check_pos ((nodeIsValid_iff nd).mpr ⟨h2, h3⟩), ob_some,
      show nd.left = nd.child false from rfl, show nd.right = nd.child true from rfl, hleft, ob_some, hright, ob_some,
      nodeLine_eq]

/-- **C79 (text).** For every node pool: printing a tree succeeds exactly if the children, followed from the root, form a
finite tree, and then the text is the listing of this tree: a line for every node and every leaf, nodes before their
subtrees, the subtree of bit 0 before that of bit 1, indented by three blanks for every level. Without a tree the text
is `Empty tree`. -/
theorem C79_text (hfit : Fits t.nodes.items (2 ^ 31)) (lines : List (List Char)) :
    (t.proper = true → (printTree t = some lines ↔ Draws t.nodes.items 0 (-1) lines)) ∧
    (t.proper = true → (printTree t ≠ none ↔ ∃ nodes leaves, Unfolds t.nodes.items (-1) nodes leaves)) ∧
    (t.proper = false → printTree t = some ["Empty tree".toList]) := by
  have h1 : ∀ lines, t.proper = true → (printTree t = some lines ↔ Draws t.nodes.items 0 (-1) lines) := by
    intro lines hp
    unfold printTree
    rw [if_pos hp]
    constructor
    · intro h
      exact printNode_draws hfit _ 0 0 lines h
    · intro h
      exact printNode_ok h (fun ns leaves _ v _ nd hnd b => by
        have := hfit nd (List.mem_of_getElem? hnd) b
        simpa using this) 0 rfl [] _ List.nodup_nil (by simp) (by simp)
  refine ⟨h1 lines, fun hp => ?_, fun hp => ?_⟩
  · constructor
    · intro h
      obtain ⟨ls, e⟩ := Option.ne_none_iff_exists'.mp h
      obtain ⟨ns, leaves, hu, -⟩ := ((h1 ls hp).mp e).unfolds
      exact ⟨ns, leaves, hu⟩
    · rintro ⟨ns, leaves, hu⟩
      obtain ⟨ls, hd⟩ := hu.draws 0
      rw [(h1 ls hp).mpr hd]
      simp
  · unfold printTree
    rw [if_neg (by simp [hp])]
    rfl

/-- equal listings are listings of equal trees -/
theorem Draws.inj {items items' : List Node} {d : Nat} {c : Int} {ls : List (List Char)} (h : Draws items d c ls) :
    ∀ {c' : Int} {ls' rest rest' : List (List Char)}, Draws items' d c' ls' → ls ++ rest = ls' ++ rest' →
      c = c' ∧ rest = rest' ∧ ∃ ns leaves, Unfolds items c ns leaves ∧ Unfolds items' c ns leaves ∧
        ∀ v ∈ ns, ∃ nd nd', items[v]? = some nd ∧ items'[v]? = some nd' ∧ LooksLike nd nd' := by
  induction h with
  | leaf d i =>
    intro c' ls' rest rest' h' he
    cases h' with
    | leaf d j =>
      rw [List.cons_append, List.cons_append, List.cons.injEq] at he
      have := List.append_cancel_left he.1
      rw [toString_dec, toString_dec] at this
      obtain rfl := dec_inj this
      exact ⟨rfl, by simpa using he.2, [], [i], .leaf i, .leaf i, by simp⟩
    | node =>
      rw [List.cons_append, List.cons_append, List.cons.injEq] at he
      have := List.append_cancel_left he.1
      exact absurd (by rw [this]; exact quote_mem _ _) (quote_not_mem i)
  | @node d v nd l r h1 h2 h3 _ _ ih1 ih2 =>
    intro c' ls' rest rest' h' he
    cases h' with
    | leaf d j =>
      rw [List.cons_append, List.cons_append, List.cons.injEq] at he
      have := List.append_cancel_left he.1
      exact absurd (by rw [← this]; exact quote_mem _ _) (quote_not_mem j)
    | @node d' v' nd' l' r' k1 k2 k3 k4 k5 =>
      rw [List.cons_append, List.cons_append, List.cons.injEq, List.append_assoc, List.append_assoc] at he
      have hn := List.append_cancel_left he.1
      obtain ⟨n1, n2, n3, n4, n5, rfl⟩ := wantedNode_inj hn
      obtain ⟨e1, he', nsl, ll, ul, ul', hl⟩ := ih1 k4 he.2
      obtain ⟨e2, he'', nsr, lr, ur, ur', hr⟩ := ih2 k5 he'
      refine ⟨rfl, he'', _, _, .node h1 h2 h3 ul ur, .node k1 k2 k3 (e1 ▸ ul') (e2 ▸ ur'), ?_⟩
      intro w hw
      rw [List.mem_cons, List.mem_append] at hw
      rcases hw with rfl | hw | hw
      · exact ⟨nd, nd', h1, k1, ⟨e1, e2, n1, n2, n3, n4, n5⟩⟩
      · exact hr w hw
      · exact hl w hw

/-- **C79 (faithful).** Two trees that print the same text consist of the same nodes with the same children, and each node
has the same text position, depth, recent bits and counts in both. -/
theorem C79_faithful (hfit : Fits t.nodes.items (2 ^ 31)) (hfit' : Fits t'.nodes.items (2 ^ 31)) (hp : t.proper = true)
    (hp' : t'.proper = true) {lines : List (List Char)} (h : printTree t = some lines) (h' : printTree t' = some lines) :
    ∃ nodes leaves, Unfolds t.nodes.items (-1) nodes leaves ∧ Unfolds t'.nodes.items (-1) nodes leaves ∧
      ∀ v ∈ nodes, ∃ nd nd', t.nodes.items[v]? = some nd ∧ t'.nodes.items[v]? = some nd' ∧ LooksLike nd nd' := by
  have h1 := ((C79_text hfit lines).1 hp).mp h
  have h2 := ((C79_text hfit' lines).1 hp').mp h'
  exact (h1.inj (rest := []) (rest' := []) h2 rfl).2.2

/-! ## Contexts -/

theorem toString_decInt (n : Int) : (toString n).toList = decInt n := by
  unfold decInt
  cases n with
  | ofNat k =>
    rw [if_neg (by simp)]
    exact toString_dec k
  | negSucc k =>
    rw [if_pos (Int.negSucc_lt_zero k)]
    show (("-" : String) ++ (k + 1).repr).toList = _
    rw [String.toList_append, Nat.toList_repr]
    rfl

theorem ctxText_eq (c : Ctx) : ctxText c = (wantedCtx c).toList := by
  unfold ctxText wantedCtx
  simp only [String.toList_append, toString_dec, toString_decInt, List.append_assoc]
  obtain ⟨s, n, i, l, d⟩ := c
  cases l <;> rcases d with _ | _ | _ <;> simp [toString, boolText, dirText]

theorem boolText_char {b : Bool} {c : Char} (h : c ∈ boolText b) : c.isAlpha = true := by
  cases b <;> simp only [boolText, List.mem_cons, List.not_mem_nil, or_false] at h <;>
    rcases h with rfl | rfl | rfl | h <;> (try rcases h with rfl | rfl) <;> (try subst h) <;> decide

theorem dirText_char {d : Option Bool} {c : Char} (h : c ∈ dirText d) : c.isAlpha = true := by
  rcases d with _ | _ | _ <;> simp only [dirText, List.mem_cons, List.not_mem_nil, or_false] at h <;>
    rcases h with rfl | rfl | rfl | h <;> (try rcases h with rfl | rfl) <;> (try subst h) <;> decide

theorem boolText_inj {a b : Bool} (h : boolText a = boolText b) : a = b := by
  revert h
  cases a <;> cases b <;> decide

theorem dirText_inj {a b : Option Bool} (h : dirText a = dirText b) : a = b := by
  revert h
  rcases a with _ | _ | _ <;> rcases b with _ | _ | _ <;> decide

/-- the characters of a context -/
def ctxChar (c : Char) : Bool := c != ' ' && c != ']'

theorem ctxChar_digit {c : Char} (h : c.isDigit = true) : ctxChar c = true := by
  unfold ctxChar
  by_cases h1 : c = ' '
  · subst h1; exact absurd h (by decide)
  · by_cases h2 : c = ']'
    · subst h2; exact absurd h (by decide)
    · simp [h1, h2]

theorem ctxChar_alpha {c : Char} (h : c.isAlpha = true) : ctxChar c = true := by
  unfold ctxChar
  by_cases h1 : c = ' '
  · subst h1; exact absurd h (by decide)
  · by_cases h2 : c = ']'
    · subst h2; exact absurd h (by decide)
    · simp [h1, h2]

theorem ctxText_char {c : Ctx} : ∀ a ∈ ctxText c, ctxChar a = true := by
  intro a ha
  unfold ctxText at ha
  simp only [List.mem_append] at ha
  rcases ha with ((((((((ha | ha) | ha) | ha) | ha) | ha) | ha) | ha) | ha) | ha
  · revert a; decide
  · exact ctxChar_digit (dec_digit ha)
  · revert a; decide
  · exact ctxChar_digit (dec_digit ha)
  · revert a; decide
  · rcases decInt_char ha with rfl | h
    · decide
    · exact ctxChar_digit h
  · revert a; decide
  · exact ctxChar_alpha (boolText_char ha)
  · revert a; decide
  · exact ctxChar_alpha (dirText_char ha)

theorem ctxText_inj {a b : Ctx} (h : ctxText a = ctxText b) : a = b := by
  obtain ⟨s, n, i, l, d⟩ := a
  obtain ⟨s', n', i', l', d'⟩ := b
  unfold ctxText at h
  simp only [List.append_assoc, List.cons_append, List.nil_append, List.cons.injEq, true_and] at h
  obtain ⟨h1, h⟩ := split_at (dec_ne (by decide)) (dec_ne (by decide)) h
  simp only [List.cons.injEq, true_and] at h
  obtain ⟨h2, h⟩ := split_at (dec_ne (by decide)) (dec_ne (by decide)) h
  simp only [List.cons.injEq, true_and] at h
  have hi : ∀ {n : Int}, ',' ∉ decInt n := by
    intro n hn
    rcases decInt_char hn with h | h <;> exact absurd h (by decide)
  obtain ⟨h3, h⟩ := split_at hi hi h
  simp only [List.cons.injEq, true_and] at h
  have hb : ∀ {b : Bool}, ',' ∉ boolText b := fun hb => absurd (boolText_char hb) (by decide)
  obtain ⟨h4, h5⟩ := split_at hb hb h
  simp only [List.cons.injEq, true_and] at h5
  obtain rfl := dec_inj h1
  obtain rfl := dec_inj h2
  obtain rfl := decInt_inj h3
  rw [boolText_inj h4, dirText_inj h5]

theorem restText_inj : ∀ {l l' : List Ctx}, (l.map fun c => [' ', ' '] ++ ctxText c).flatten ++ [']'] =
    (l'.map fun c => [' ', ' '] ++ ctxText c).flatten ++ [']'] → l = l' := by
  intro l
  induction l with
  | nil =>
    intro l' h
    cases l' with
    | nil => rfl
    | cons a l' => simp at h
  | cons a l ih =>
    intro l' h
    cases l' with
    | nil => simp at h
    | cons b l' =>
      simp only [List.map_cons, List.flatten_cons, List.append_assoc, List.cons_append, List.nil_append, List.cons.injEq,
        true_and] at h
      obtain ⟨c, r, hc, e⟩ : ∃ c r, ctxChar c = false ∧ (l.map fun c => [' ', ' '] ++ ctxText c).flatten ++ [']'] = c :: r := by
        cases l with
        | nil => exact ⟨_, _, by decide, rfl⟩
        | cons => exact ⟨_, _, by decide, rfl⟩
      obtain ⟨c', r', hc', e'⟩ : ∃ c r, ctxChar c = false ∧
          (l'.map fun c => [' ', ' '] ++ ctxText c).flatten ++ [']'] = c :: r := by
        cases l' with
        | nil => exact ⟨_, _, by decide, rfl⟩
        | cons => exact ⟨_, _, by decide, rfl⟩
      simp only [List.cons_append, List.nil_append] at e e'
      rw [e, e'] at h
      obtain ⟨h1, h2⟩ := split_first ctxText_char ctxText_char hc hc' h
      rw [← e, ← e'] at h2
      rw [ctxText_inj h1, ih h2]

/-- **C79.** A list of contexts is printed as written in the specification, and lists that are printed the same are the same. -/
theorem C79_contexts (l l' : List Ctx) :
    ctxsText l = (wantedCtxs l).toList ∧ ((wantedCtxs l) = (wantedCtxs l') ↔ l = l') := by
  have key : ∀ l : List Ctx, ctxsText l = (wantedCtxs l).toList := by
    intro l
    unfold ctxsText wantedCtxs
    rw [String.toList_append, String.toList_append]
    congr 2
    cases l with
    | nil => rfl
    | cons c l =>
      rw [List.map_cons, String.toList_intercalate, List.map_cons, ← ctxText_eq]
      induction l generalizing c with
      | nil => simp
      | cons a l ih =>
        have := ih a
        simp only [List.map_cons, List.flatten_cons, List.map_map] at this ⊢
        rw [List.intercalate_cons_cons, ← ctxText_eq, ← this]
        simp
  refine ⟨key l, ⟨fun h => ?_, fun h => by rw [h]⟩⟩
  have h := congrArg String.toList h
  rw [← key, ← key] at h
  unfold ctxsText at h
  rw [List.append_assoc, List.append_assoc] at h
  have h := List.append_cancel_left h
  cases l with
  | nil =>
    cases l' with
    | nil => rfl
    | cons a l' => simp [ctxText] at h
  | cons a l =>
    cases l' with
    | nil => simp [ctxText] at h
    | cons b l' =>
      obtain ⟨c, r, hc, e⟩ : ∃ c r, ctxChar c = false ∧ (l.map fun c => [' ', ' '] ++ ctxText c).flatten ++ [']'] = c :: r := by
        cases l with
        | nil => exact ⟨_, _, by decide, rfl⟩
        | cons => exact ⟨_, _, by decide, rfl⟩
      obtain ⟨c', r', hc', e'⟩ : ∃ c r, ctxChar c = false ∧
          (l'.map fun c => [' ', ' '] ++ ctxText c).flatten ++ [']'] = c :: r := by
        cases l' with
        | nil => exact ⟨_, _, by decide, rfl⟩
        | cons => exact ⟨_, _, by decide, rfl⟩
      dsimp only at h
      rw [List.append_assoc, List.append_assoc, e, e'] at h
      obtain ⟨h1, h2⟩ := split_first ctxText_char ctxText_char hc hc' h
      rw [← e, ← e'] at h2
      rw [ctxText_inj h1, restText_inj h2]

example : wantedCtxs [⟨4, 2, 7, false, some true⟩, ⟨0, 1, -1, true, none⟩] =
    "active contexts: [sfx:4,node:2,incnt:7,inleaf:false,dir:right  sfx:0,node:1,incnt:-1,inleaf:true,dir:none]" := by
  decide +kernel

/-- the tree of `FollowProps` is printed, with hypotheses of C79_text that hold -/
example : Fits exampleTree.nodes.items (2 ^ 31) ∧ printTree exampleTree = some ["0'1'0'l(0)r(0) = 0".toList,
    "   0'6'0'l(0)r(0) = 1".toList, "      2".toList, "      0".toList, "   3".toList] := by
  refine ⟨?_, by decide +kernel⟩
  intro nd hnd b
  simp only [exampleTree, List.mem_cons, List.not_mem_nil, or_false] at hnd
  rcases hnd with rfl | rfl <;> cases b <;> decide

end Verif.Tree
