import Verif.Tree.Check
import Verif.Tree.CheckSpec
import Verif.Tree.NodesProps
import Verif.Window.Props
import Mathlib.Data.Finset.Card
import Mathlib.Data.Finset.Range

/-!
# The traversal of an arbitrary node pool
-/

namespace Verif.Tree

open Verif Verif.History Verif.Window

theorem bind_inv {α β : Type _} {x : Option α} {f : α → Option β} {b : β} (h : (x >>= f) = some b) :
    ∃ a, x = some a ∧ f a = some b := by
  cases x with
  | none => cases h
  | some a => exact ⟨a, rfl, h⟩

/-! ## Unfoldings -/

variable {items : List Node}

theorem Unfolds.inv_leaf {i : Nat} {ns ls : List Nat} (h : Unfolds items (i : Int) ns ls) : ns = [] ∧ ls = [i] := by
  generalize hc : (i : Int) = c at h
  cases h with
  | leaf j => simp only [Nat.cast_inj] at hc; subst hc; exact ⟨rfl, rfl⟩
  | node => omega

theorem Unfolds.inv_node {v : Nat} {ns ls : List Nat} (h : Unfolds items (-(v : Int) - 1) ns ls) :
    ∃ nd nl ll nr lr, items[v]? = some nd ∧ nd.left ≠ -1 ∧ nd.right ≠ -1 ∧ Unfolds items nd.left nl ll ∧
      Unfolds items nd.right nr lr ∧ ns = v :: (nr ++ nl) ∧ ls = ll ++ lr := by
  generalize hc : -(v : Int) - 1 = c at h
  cases h with
  | leaf j => omega
  | @node u nd nl ll nr lr h1 h2 h3 h4 h5 =>
    obtain rfl : v = u := by omega
    exact ⟨nd, nl, ll, nr, lr, h1, h2, h3, h4, h5, rfl, rfl⟩

theorem Unfolds.det {c : Int} {ns ls : List Nat} (h : Unfolds items c ns ls) :
    ∀ {ns' ls' : List Nat}, Unfolds items c ns' ls' → ns = ns' ∧ ls = ls' := by
  induction h with
  | leaf i =>
    intro ns' ls' h'
    obtain ⟨rfl, rfl⟩ := h'.inv_leaf
    exact ⟨rfl, rfl⟩
  | @node v nd nl ll nr lr h1 _ _ _ _ ih1 ih2 =>
    intro ns' ls' h'
    obtain ⟨nd', nl', ll', nr', lr', e, -, -, k1, k2, rfl, rfl⟩ := h'.inv_node
    obtain rfl : nd = nd' := by rw [h1] at e; exact Option.some.inj e
    obtain ⟨rfl, rfl⟩ := ih1 k1
    obtain ⟨rfl, rfl⟩ := ih2 k2
    exact ⟨rfl, rfl⟩

theorem Unfolds.ne_nil {c : Int} {ns ls : List Nat} (h : Unfolds items c ns ls) : ls ≠ [] := by
  induction h with
  | leaf i => simp
  | node _ _ _ _ _ ih1 _ => simp [ih1]

theorem Unfolds.lt {c : Int} {ns ls : List Nat} (h : Unfolds items c ns ls) : ∀ v ∈ ns, v < items.length := by
  induction h with
  | leaf i => simp
  | node h1 _ _ _ _ ih1 ih2 =>
    intro w hw
    rw [List.mem_cons, List.mem_append] at hw
    rcases hw with rfl | hw | hw
    · exact (List.getElem?_eq_some_iff.mp h1).1
    · exact ih2 w hw
    · exact ih1 w hw

/-- every node of an unfolding has its own unfolding, with leaves of the whole -/
theorem Unfolds.sub {c : Int} {ns ls : List Nat} (h : Unfolds items c ns ls) :
    ∀ v ∈ ns, ∃ ns' ls', Unfolds items (-(v : Int) - 1) ns' ls' ∧ ∀ i ∈ ls', i ∈ ls := by
  induction h with
  | leaf i => simp
  | node h1 h2 h3 h4 h5 ih1 ih2 =>
    intro w hw
    rw [List.mem_cons, List.mem_append] at hw
    rcases hw with rfl | hw | hw
    · exact ⟨_, _, .node h1 h2 h3 h4 h5, fun i hi => hi⟩
    · obtain ⟨ns', ls', k, hk⟩ := ih2 w hw
      exact ⟨ns', ls', k, fun i hi => List.mem_append_right _ (hk i hi)⟩
    · obtain ⟨ns', ls', k, hk⟩ := ih1 w hw
      exact ⟨ns', ls', k, fun i hi => List.mem_append_left _ (hk i hi)⟩

theorem Unfolds.nodup {c : Int} {ns ls : List Nat} (h : Unfolds items c ns ls) : ls.Nodup → ns.Nodup := by
  induction h with
  | leaf i => simp
  | @node v nd nl ll nr lr h1 h2 h3 h4 h5 ih1 ih2 =>
    intro hd
    have hself : Unfolds items (-(v : Int) - 1) (v :: (nr ++ nl)) (ll ++ lr) := .node h1 h2 h3 h4 h5
    obtain ⟨d1, d2, d3⟩ := List.nodup_append.mp hd
    have hmem : ∀ (l : List Nat), l ≠ [] → ∃ i, i ∈ l := fun l hl => List.exists_mem_of_ne_nil l hl
    rw [List.nodup_cons]
    constructor
    · intro hv
      rw [List.mem_append] at hv
      rcases hv with hv | hv
      · obtain ⟨ns', ls', k, hk⟩ := h5.sub v hv
        obtain ⟨-, rfl⟩ := hself.det k
        obtain ⟨i, hi⟩ := hmem ll h4.ne_nil
        exact d3 i hi i (hk i (List.mem_append_left _ hi)) rfl
      · obtain ⟨ns', ls', k, hk⟩ := h4.sub v hv
        obtain ⟨-, rfl⟩ := hself.det k
        obtain ⟨i, hi⟩ := hmem lr h5.ne_nil
        exact d3 i (hk i (List.mem_append_right _ hi)) i hi rfl
    · rw [List.nodup_append]
      refine ⟨ih2 d2, ih1 d1, ?_⟩
      intro a ha b hb he
      subst he
      obtain ⟨ns1, ls1, k1, hk1⟩ := h5.sub a ha
      obtain ⟨ns2, ls2, k2, hk2⟩ := h4.sub a hb
      obtain ⟨-, rfl⟩ := k1.det k2
      obtain ⟨i, hi⟩ := hmem ls1 k1.ne_nil
      exact d3 i (hk2 i hi) i (hk1 i hi) rfl

theorem Unfolds.length_le {c : Int} {ns ls : List Nat} (h : Unfolds items c ns ls) (hd : ns.Nodup) :
    ns.length ≤ items.length := by
  have hs : ns.toFinset ⊆ Finset.range items.length := by
    intro v hv
    rw [List.mem_toFinset] at hv
    rw [Finset.mem_range]
    exact h.lt v hv
  have := Finset.card_le_card hs
  rwa [List.toFinset_card_of_nodup hd, Finset.card_range] at this

/-! ## The loop -/

/-- what the loop does for a node -/
def visit {α : Type} (t : Tree) (f : α → Nat → Node → Bool → Option α) (acc : α) (v : Nat) : Option α := do
  let nd ← nodesGet t.nodes v
  check (childIsValid nd.left = true)
  let acc ← f acc v nd false
  check (childIsValid nd.right = true)
  f acc v nd true

/-- the node of a child, if it is one -/
def kid (c : Int) : List Nat := if c < 0 then [(-c - 1).toNat] else []

/-- all children are `i32` values, and leaves are below `m` -/
def Fits (items : List Node) (m : Nat) : Prop := ∀ nd ∈ items, ∀ b, -2 ^ 31 ≤ nd.child b ∧ nd.child b < m

theorem kid_leaf (i : Nat) : kid (i : Int) = [] := by unfold kid; rw [if_neg (by omega)]

theorem kid_node (v : Nat) : kid (-(v : Int) - 1) = [v] := by
  unfold kid
  rw [if_pos (by omega)]
  congr 1; omega

theorem child_cases (c : Int) : (∃ i : Nat, c = i) ∨ ∃ v : Nat, c = -(v : Int) - 1 := by
  by_cases h : c < 0
  · exact Or.inr ⟨(-c - 1).toNat, by omega⟩
  · exact Or.inl ⟨c.toNat, by omega⟩

theorem childIsValid_iff {c : Int} (h : -2 ^ 31 ≤ c) : childIsValid c = true ↔ c ≠ -1 := by
  unfold childIsValid i32AsUsize
  rw [Bool.or_eq_true, decide_eq_true_iff, decide_eq_true_iff]
  by_cases hc : c ≥ 0
  · simp [hc]; omega
  · constructor
    · rintro (h1 | h1) rfl
      · omega
      · simp at h1
    · intro hn
      right
      rw [Int.emod_eq_of_lt (by omega) (by omega)]
      omega

theorem childToNode_code {v : Nat} (h : v < 2 ^ 31) : childToNode (-(v : Int) - 1) = some v := childToNode_eq _ h

theorem traverseChildren_two {α : Type} {f : α → Nat → Node → Bool → Option α} {v : Nat} {nd : Node} {stack : List Nat}
    {acc : α} (h : ∀ b, -2 ^ 31 ≤ nd.child b) :
    traverseChildren f v nd [false, true] stack acc = (do
      check (childIsValid nd.left = true)
      let acc ← f acc v nd false
      check (childIsValid nd.right = true)
      let acc ← f acc v nd true
      some (kid nd.right ++ (kid nd.left ++ stack), acc)) := by
  have h1 : ∀ b (stack : List Nat) (acc : α), (if childIsNode (nd.child b) = true then
      (do let w ← childToNode (nd.child b); some (w :: stack, acc)) else some (stack, acc)) =
      some (kid (nd.child b) ++ stack, acc) := by
    intro b stack acc
    have hb := h b
    rcases child_cases (nd.child b) with ⟨i, hi⟩ | ⟨w, hi⟩
    · rw [hi, kid_leaf, if_neg (by unfold childIsNode; simp)]
      rfl
    · rw [hi, kid_node, if_pos (by unfold childIsNode; simp; omega), childToNode_code (by omega), ob_some]
      rfl
  have h2 : ∀ b (stack : List Nat) (acc : α), traverseChildren f v nd [b] stack acc = (do
      check (childIsValid (nd.child b) = true)
      let acc ← f acc v nd b
      some (kid (nd.child b) ++ stack, acc)) := by
    intro b stack acc
    simp only [traverseChildren]
    simp only [h1]
  have h3 : ∀ b b' (stack : List Nat) (acc : α), traverseChildren f v nd [b, b'] stack acc = (do
      check (childIsValid (nd.child b) = true)
      let acc ← f acc v nd b
      traverseChildren f v nd [b'] (kid (nd.child b) ++ stack) acc) := by
    intro b b' stack acc
    rw [traverseChildren]
    have hb := h b
    congr 1; funext _; congr 1; funext acc1
    rcases child_cases (nd.child b) with ⟨i, hi⟩ | ⟨w, hi⟩
    · rw [hi, kid_leaf, if_neg (by unfold childIsNode; simp)]
      rfl
    · rw [hi, kid_node, if_pos (by unfold childIsNode; simp; omega), childToNode_code (by omega), ob_some]
      rfl
  rw [h3]
  simp only [h2]
  rfl

variable {t : Tree} {α : Type} {f : α → Nat → Node → Bool → Option α} {m : Nat}

theorem traverse_step (hfit : Fits t.nodes.items m) (fuel v : Nat) (stack : List Nat) (acc : α) {nd : Node}
    (hv : t.nodes.items[v]? = some nd) :
    traverse t f (fuel + 1) (v :: stack) acc = (visit t f acc v).bind fun a =>
      traverse t f fuel (kid nd.right ++ (kid nd.left ++ stack)) a := by
  rw [traverse]
  unfold visit
  have hb : ∀ b, -2 ^ 31 ≤ nd.child b := fun b => (hfit nd (List.mem_of_getElem? hv) b).1
  cases hg : nodesGet t.nodes v with
  | none => rfl
  | some nd' =>
    obtain rfl : nd' = nd := by
      unfold nodesGet at hg
      rw [hv, ob_some] at hg
      obtain ⟨_, -, hg⟩ := bind_inv hg
      exact (Option.some.inj hg).symm
    rw [ob_some, ob_some, traverseChildren_two hb]
    cases check (childIsValid nd'.left = true) with
    | none => rfl
    | some _ =>
      rw [ob_some, ob_some]
      cases f acc v nd' false with
      | none => rfl
      | some a =>
        rw [ob_some, ob_some]
        cases check (childIsValid nd'.right = true) with
        | none => rfl
        | some _ =>
          rw [ob_some, ob_some]
          cases f a v nd' true with
          | none => rfl
          | some a' => rfl

/-- with enough fuel the loop visits the nodes of the unfolding -/
theorem traverse_unfolds (hfit : Fits t.nodes.items m) {c : Int} {ns ls : List Nat}
    (h : Unfolds t.nodes.items c ns ls) : ∀ (k : Nat) (stack : List Nat) (acc : α),
    traverse t f (ns.length + k) (kid c ++ stack) acc = (ns.foldlM (visit t f) acc).bind fun a =>
      traverse t f k stack a := by
  induction h with
  | leaf i =>
    intro k stack acc
    rw [kid_leaf]
    simp
  | @node v nd nl ll nr lr h1 h2 h3 h4 h5 ih1 ih2 =>
    intro k stack acc
    rw [kid_node, List.singleton_append, List.length_cons, List.length_append,
      show nr.length + nl.length + 1 + k = (nr.length + (nl.length + k)) + 1 by omega,
      traverse_step hfit _ _ _ _ h1, List.foldlM_cons]
    simp only [List.foldlM_append]
    cases visit t f acc v with
    | none => rfl
    | some a =>
      simp only [Option.bind_some, Option.bind_eq_bind]
      rw [ih2]
      cases nr.foldlM (visit t f) a with
      | none => rfl
      | some a' =>
        simp only [Option.bind_some]
        rw [ih1]

/-- the unfoldings of a stack -/
inductive UnfoldsAll (items : List Node) : List Nat → List Nat → Prop
  | nil : UnfoldsAll items [] []
  | cons {v : Nat} {stack ns ls ns' : List Nat} : Unfolds items (-(v : Int) - 1) ns ls → UnfoldsAll items stack ns' →
      UnfoldsAll items (v :: stack) (ns ++ ns')

theorem UnfoldsAll.split {c : Int} {stack ns : List Nat} (h : UnfoldsAll items (kid c ++ stack) ns) :
    ∃ n1 l1 n2, Unfolds items c n1 l1 ∧ UnfoldsAll items stack n2 ∧ ns = n1 ++ n2 := by
  rcases child_cases c with ⟨i, rfl⟩ | ⟨v, rfl⟩
  · rw [kid_leaf, List.nil_append] at h
    exact ⟨_, _, _, .leaf i, h, rfl⟩
  · rw [kid_node, List.singleton_append] at h
    cases h with
    | cons h1 h2 => exact ⟨_, _, _, h1, h2, rfl⟩

theorem visit_some {acc a : α} {v : Nat} (hfit : Fits t.nodes.items m) (h : visit t f acc v = some a) :
    ∃ nd, t.nodes.items[v]? = some nd ∧ nd.left ≠ -1 ∧ nd.right ≠ -1 := by
  unfold visit at h
  obtain ⟨nd, e1, h⟩ := bind_inv h
  obtain ⟨_, e2, h⟩ := bind_inv h
  obtain ⟨_, -, h⟩ := bind_inv h
  obtain ⟨_, e3, -⟩ := bind_inv h
  have hv : t.nodes.items[v]? = some nd := by
    unfold nodesGet at e1
    obtain ⟨nd', e, e1⟩ := bind_inv e1
    obtain ⟨_, -, e1⟩ := bind_inv e1
    rw [e, ← Option.some.inj e1]
  have hb := fun b => (hfit nd (List.mem_of_getElem? hv) b).1
  exact ⟨nd, hv, (childIsValid_iff (hb false)).mp (check_eq_some.mp e2),
    (childIsValid_iff (hb true)).mp (check_eq_some.mp e3)⟩

/-- a loop that ends has unfolded everything on its stack -/
theorem traverse_some (hfit : Fits t.nodes.items m) : ∀ (fuel : Nat) (stack : List Nat) (acc a : α),
    traverse t f fuel stack acc = some a → ∃ ns, UnfoldsAll t.nodes.items stack ns ∧ ns.length ≤ fuel := by
  intro fuel
  induction fuel with
  | zero =>
    intro stack acc a h
    cases stack with
    | nil => exact ⟨[], .nil, by simp⟩
    | cons v stack => rw [traverse] at h; simp at h
  | succ fuel ih =>
    intro stack acc a h
    cases stack with
    | nil => exact ⟨[], .nil, by simp⟩
    | cons v stack =>
      have hv : ∃ nd, t.nodes.items[v]? = some nd := by
        rw [traverse] at h
        obtain ⟨nd, e, -⟩ := bind_inv h
        unfold nodesGet at e
        obtain ⟨nd', e, -⟩ := bind_inv e
        exact ⟨nd', e⟩
      obtain ⟨nd, hv⟩ := hv
      rw [traverse_step hfit _ _ _ _ hv] at h
      obtain ⟨a1, e1, h⟩ := bind_inv h
      obtain ⟨nd', hv', k1, k2⟩ := visit_some hfit e1
      obtain rfl : nd = nd' := by rw [hv] at hv'; exact Option.some.inj hv'
      obtain ⟨ns, hn, hl⟩ := ih _ _ _ h
      obtain ⟨n1, l1, n2, u1, hn2, rfl⟩ := hn.split
      obtain ⟨n3, l3, n4, u2, hn4, rfl⟩ := hn2.split
      refine ⟨_, .cons (.node hv k1 k2 u2 u1) hn4, ?_⟩
      simp only [List.length_cons, List.length_append] at hl ⊢
      omega

/-- the traversal from the root ends exactly if the unfolding is small enough and the visits succeed -/
theorem traverse_iff (hfit : Fits t.nodes.items m) (fuel : Nat) (acc a : α) :
    traverse t f fuel [0] acc = some a ↔ ∃ ns ls, Unfolds t.nodes.items (-1) ns ls ∧ ns.length ≤ fuel ∧
      ns.foldlM (visit t f) acc = some a := by
  have key : ∀ ns ls, Unfolds t.nodes.items (-1) ns ls → ns.length ≤ fuel →
      traverse t f fuel [0] acc = ns.foldlM (visit t f) acc := by
    intro ns ls hu hl
    have := traverse_unfolds (f := f) hfit hu (fuel - ns.length) [] acc
    rw [show ns.length + (fuel - ns.length) = fuel by omega, show kid (-1) ++ ([] : List Nat) = [0] from rfl] at this
    rw [this]
    cases ns.foldlM (visit t f) acc with
    | none => rfl
    | some a =>
      rw [Option.bind_some]
      cases (fuel - ns.length) <;> rw [traverse]
  constructor
  · intro h
    obtain ⟨ns, hn, hl⟩ := traverse_some hfit _ _ _ _ h
    cases hn with
    | @cons _ _ n1 l1 n2 u hn =>
      cases hn
      rw [List.append_nil] at hl
      have u' : Unfolds t.nodes.items (-1) n1 l1 := u
      exact ⟨n1, l1, u', hl, by rw [← key n1 l1 u' hl]; exact h⟩
  · rintro ⟨ns, ls, u, hl, h⟩
    rw [key ns ls u hl, h]

end Verif.Tree
