import Verif.Tree.Check
import Verif.Tree.State

/-!
# The traversal reaches every node once
-/

namespace Verif.Tree

open Verif Verif.History Verif.Window

variable {P : Str → Nat → Prop} {D : Nat} {ex : Prop} {Pc : Str → List Bool → Costs → Prop} {table : List Nat}
  {ps : Nat → Nat} {N : Live} {str : Nat → Str} {cap cnt : Nat} {t : Tree}

theorem childIsValid_leaf (i : Nat) : childIsValid (i : Int) = true := by
  unfold childIsValid; simp

theorem childIsNode_node (w : Nat) : childIsNode (-(w : Int) - 1) = true := by
  unfold childIsNode; simp; omega

theorem childIsNode_leaf (i : Nat) : childIsNode (i : Int) = false := by
  unfold childIsNode; simp

/-- what the traversal has done: `done` are the children that have been handled, `S` is the stack -/
structure Progress (N : Live) (str : Nat → Str) (done : List (Nat × Bool)) (S : List Nat) : Prop where
  live : ∀ v ∈ S, ∃ nd, N v = some nd
  dlive : ∀ p ∈ done, ∃ nd, N p.1 = some nd
  nodup : done.Nodup
  apart : S.Pairwise fun v w => ¬ str v <+: str w ∧ ¬ str w <+: str v
  fresh : ∀ v ∈ S, ∀ p ∈ done, ¬ str v <+: str p.1
  cover : ∀ w nw, N w = some nw → (∀ b, (w, b) ∈ done) ∨ ∃ v ∈ S, str v <+: str w

/-- the children of a node are pushed -/
theorem traverseChildren_eq {α : Type} {f : α → Nat → Node → Bool → Option α} {I : List (Nat × Bool) → α → Prop}
    (hcap : cap ≤ 2 ^ 31) (hT : TreeOk t P D ex Pc table ps cap N str cnt)
    (hf : ∀ done v nd b acc, N v = some nd → (v, b) ∉ done → I done acc →
      ∃ acc', f acc v nd b = some acc' ∧ I ((v, b) :: done) acc')
    {v : Nat} {nd : Node} (hv : N v = some nd) : ∀ (bs : List Bool) (stack : List Nat) (acc : α) (done : List (Nat × Bool)),
    I done acc → (∀ b ∈ bs, (v, b) ∉ done) → bs.Nodup →
    ∃ ws acc', traverseChildren f v nd bs stack acc = some (ws ++ stack, acc') ∧
      I ((bs.map fun b => (v, b)).reverse ++ done) acc' ∧
      (∀ w, w ∈ ws ↔ ∃ b ∈ bs, nd.child b = -(w : Int) - 1) ∧ ws.Nodup := by
  intro bs
  induction bs with
  | nil =>
    intro stack acc done hI _ _
    exact ⟨[], acc, rfl, hI, by simp, by simp⟩
  | cons b bs ih =>
    intro stack acc done hI hn hd
    rw [List.nodup_cons] at hd
    have hno := hT.inv.node v nd hv
    obtain ⟨acc1, e1, h1⟩ := hf done v nd b acc hv (hn b (by simp)) hI
    have hn' : ∀ b' ∈ bs, (v, b') ∉ (v, b) :: done := by
      intro b' hb' hmem
      rw [List.mem_cons, Prod.mk.injEq] at hmem
      rcases hmem with ⟨-, rfl⟩ | hmem
      · exact hd.1 hb'
      · exact hn b' (by simp [hb']) hmem
    unfold traverseChildren
    dsimp only
    obtain ⟨i, hi, ⟨-, hc⟩ | ⟨w, nw, hw1, hw, hc, hl, -⟩⟩ := hno.child b
    · rw [hc, check_pos (childIsValid_leaf _), ob_some, e1, ob_some, if_neg (by rw [childIsNode_leaf]; simp)]
      obtain ⟨ws, acc', k1, k2, k3, k4⟩ := ih stack acc1 _ h1 hn' hd.2
      refine ⟨ws, acc', k1, ?_, ?_, k4⟩
      · simpa using k2
      · intro w
        rw [k3]
        constructor
        · rintro ⟨b', hb', he⟩; exact ⟨b', by simp [hb'], he⟩
        · rintro ⟨b', hb', he⟩
          rcases List.mem_cons.mp hb' with rfl | hb'
          · rw [hc] at he; omega
          · exact ⟨b', hb', he⟩
    · have hwc := (rep_some hT.rep hw).2
      rw [hc, check_pos (childIsValid_node hw1 (by omega)), ob_some, e1, ob_some, if_pos (childIsNode_node _),
        childToNode_eq _ (by omega), ob_some]
      obtain ⟨ws, acc', k1, k2, k3, k4⟩ := ih (w :: stack) acc1 _ h1 hn' hd.2
      refine ⟨ws ++ [w], acc', by rw [k1]; simp, ?_, ?_, ?_⟩
      · simpa using k2
      · intro w'
        rw [List.mem_append, k3, List.mem_singleton]
        constructor
        · rintro (⟨b', hb', he⟩ | rfl)
          · exact ⟨b', by simp [hb'], he⟩
          · exact ⟨b, by simp, hc⟩
        · rintro ⟨b', hb', he⟩
          rcases List.mem_cons.mp hb' with rfl | hb'
          · right; rw [hc] at he; omega
          · exact Or.inl ⟨b', hb', he⟩
      · rw [List.nodup_append]
        refine ⟨k4, by simp, ?_⟩
        intro a ha b' hb' he
        rw [List.mem_singleton] at hb'
        subst he; subst hb'
        obtain ⟨b2, hb2, he2⟩ := (k3 _).mp ha
        obtain ⟨i2, hi2, ⟨-, hc2⟩ | ⟨w2, nw2, hw21, hw2, hc2, hl2, -⟩⟩ := hno.child b2
        · rw [hc2] at he2; omega
        · obtain rfl : w2 = a := by rw [hc2] at he2; omega
          have := (least_parent hno.br hno.br hl hl2).2
          subst this
          exact hd.1 hb2

/-- After handling a node its children are on the stack. -/
theorem Progress.step (hI : TInv P D ex Pc table ps N str) {done : List (Nat × Bool)} {v : Nat} {S : List Nat}
    (h : Progress N str done (v :: S)) {nd : Node} (hv : N v = some nd) {ws : List Nat}
    (hws : ∀ w, w ∈ ws ↔ ∃ b ∈ [false, true], nd.child b = -(w : Int) - 1) (hnd : ws.Nodup) :
    Progress N str ([(v, true), (v, false)] ++ done) (ws ++ S) := by
  have hno := hI.node v nd hv
  have hchild : ∀ w ∈ ws, ∃ b nw, 1 ≤ w ∧ N w = some nw ∧ Least P D (str v ++ [b]) (str w) := by
    intro w hw
    obtain ⟨b, -, he⟩ := (hws w).mp hw
    obtain ⟨i, hi, ⟨-, hc⟩ | ⟨w', nw, hw1, hw', hc, hl, -⟩⟩ := hno.child b
    · rw [hc] at he; omega
    · obtain rfl : w' = w := by rw [hc] at he; omega
      exact ⟨b, nw, hw1, hw', hl⟩
  have happ := List.pairwise_cons.mp h.apart
  have hnv : ∀ p ∈ done, p.1 ≠ v := by
    intro p hp he
    exact h.fresh v (by simp) p hp (by rw [he])
  have hext : ∀ w ∈ ws, str v <+: str w := by
    intro w hw
    obtain ⟨b, nw, -, -, hl⟩ := hchild w hw
    exact prefix_of_snoc hl.2.1
  refine ⟨?_, ?_, ?_, ?_, ?_, ?_⟩
  · intro w hw
    rw [List.mem_append] at hw
    rcases hw with hw | hw
    · obtain ⟨b, nw, -, h2, -⟩ := hchild w hw
      exact ⟨nw, h2⟩
    · exact h.live w (by simp [hw])
  · intro p hp
    simp only [List.cons_append, List.nil_append, List.mem_cons] at hp
    rcases hp with rfl | rfl | hp
    · exact ⟨nd, hv⟩
    · exact ⟨nd, hv⟩
    · exact h.dlive p hp
  · simp only [List.cons_append, List.nil_append, List.nodup_cons, List.mem_cons]
    refine ⟨?_, fun hp => hnv _ hp rfl, h.nodup⟩
    rintro (he | hp)
    · simp at he
    · exact hnv _ hp rfl
  · rw [List.pairwise_append]
    refine ⟨?_, happ.2, ?_⟩
    · refine List.Pairwise.imp_of_mem ?_ hnd
      intro w w' hw hw' hne
      obtain ⟨b, nw, -, h2, hl⟩ := hchild w hw
      obtain ⟨b', nw', -, h2', hl'⟩ := hchild w' hw'
      have key : ∀ {a a' : Nat} {c c' : Bool} {na na' : Node}, N a = some na → N a' = some na' → a ≠ a' →
          Least P D (str v ++ [c]) (str a) → Least P D (str v ++ [c']) (str a') → ¬ str a <+: str a' := by
        intro a a' c c' na na' ha ha' hn hla hla' hp
        obtain rfl : c = c' := snoc_bit (hla.2.1.trans hp) hla'.2.1
        exact hn (hI.inj _ _ _ _ ha ha' (prefix_antisymm (hla.2.2 _ hla'.1 hla'.2.1) (hla'.2.2 _ hla.1 hla.2.1)))
      exact ⟨key h2 h2' hne hl hl', key h2' h2 (Ne.symm hne) hl' hl⟩
    · intro w hw z hz
      obtain ⟨h1, h2⟩ := happ.1 z hz
      have hp := hext w hw
      refine ⟨fun h3 => h1 (hp.trans h3), fun h3 => ?_⟩
      rcases prefix_cmp h3 hp with h4 | h4
      · exact h2 h4
      · exact h1 h4
  · intro w hw p hp hpre
    simp only [List.cons_append, List.nil_append, List.mem_cons] at hp
    rw [List.mem_append] at hw
    rcases hw with hw | hw
    · have hvw := hext w hw
      have hlt : (str v).length < (str w).length := by
        obtain ⟨b, nw, -, -, hl⟩ := hchild w hw
        exact snoc_len hl.2.1
      have hle := hpre.length_le
      rcases hp with rfl | rfl | hp
      · dsimp only at hle; omega
      · dsimp only at hle; omega
      · exact h.fresh v (by simp) p hp (hvw.trans hpre)
    · rcases hp with rfl | rfl | hp
      · exact (happ.1 w hw).2 hpre
      · exact (happ.1 w hw).2 hpre
      · exact h.fresh w (by simp [hw]) p hp hpre
  · intro w nw hw
    rcases h.cover w nw hw with hd | ⟨z, hz, hp⟩
    · left
      intro b
      rw [List.mem_append]
      exact Or.inr (hd b)
    · rcases List.mem_cons.mp hz with rfl | hz
      · by_cases he : str z = str w
        · left
          obtain rfl := hI.inj _ _ _ _ hv hw he
          intro b
          cases b <;> simp
        · right
          obtain ⟨c, hc⟩ := snoc_of_prefix hp he
          obtain ⟨i, hi, ⟨hn, -⟩ | ⟨w', nw', hw1, hw', hc', hl, -⟩⟩ := hno.child c
          · exact absurd hc (hn _ (hI.node w nw hw).br)
          · refine ⟨w', ?_, hl.2.2 _ (hI.node w nw hw).br hc⟩
            rw [List.mem_append]
            left
            rw [hws]
            exact ⟨c, by cases c <;> simp, hc'⟩
      · exact Or.inr ⟨z, by simp [hz], hp⟩

/-- the traversal ends, having handled every child of every node once -/
theorem traverse_ok {α : Type} {f : α → Nat → Node → Bool → Option α} {I : List (Nat × Bool) → α → Prop}
    (hcap : cap ≤ 2 ^ 31) (hT : TreeOk t P D ex Pc table ps cap N str cnt)
    (hf : ∀ done v nd b acc, N v = some nd → (v, b) ∉ done → I done acc →
      ∃ acc', f acc v nd b = some acc' ∧ I ((v, b) :: done) acc') :
    ∀ (fuel : Nat) (S : List Nat) (acc : α) (done : List (Nat × Bool)), Progress N str done S → I done acc →
      2 * t.nodes.items.length ≤ 2 * fuel + done.length →
      ∃ acc' done', traverse t f fuel S acc = some acc' ∧ I done' acc' ∧ done'.Nodup ∧
        ∀ v b, (v, b) ∈ done' ↔ ∃ nd, N v = some nd := by
  intro fuel
  induction fuel with
  | zero =>
    intro S acc done h hI hlen
    cases S with
    | nil =>
      refine ⟨acc, done, by rw [traverse], hI, h.nodup, ?_⟩
      intro v b
      refine ⟨fun hp => h.dlive _ hp, ?_⟩
      rintro ⟨nd, hv⟩
      rcases h.cover v nd hv with hd | ⟨z, hz, -⟩
      · exact hd b
      · simp at hz
    | cons v S =>
      exfalso
      obtain ⟨nd, hv⟩ := h.live v (by simp)
      have hsub : (done.toFinset.card) < ((Finset.range t.nodes.items.length) ×ˢ (Finset.univ : Finset Bool)).card := by
        apply Finset.card_lt_card
        refine ⟨?_, ?_⟩
        · intro p hp
          rw [List.mem_toFinset] at hp
          obtain ⟨np, hnp⟩ := h.dlive p hp
          rw [Finset.mem_product, Finset.mem_range]
          exact ⟨(List.getElem?_eq_some_iff.mp (rep_some hT.rep hnp).1).1, Finset.mem_univ _⟩
        · intro hs
          have : (v, true) ∈ done.toFinset := by
            apply hs
            rw [Finset.mem_product, Finset.mem_range]
            exact ⟨(List.getElem?_eq_some_iff.mp (rep_some hT.rep hv).1).1, Finset.mem_univ _⟩
          rw [List.mem_toFinset] at this
          exact h.fresh v (by simp) _ this (List.prefix_refl _)
      rw [List.toFinset_card_of_nodup h.nodup, Finset.card_product, Finset.card_range] at hsub
      simp at hsub
      omega
  | succ fuel ih =>
    intro S acc done h hI hlen
    cases S with
    | nil =>
      refine ⟨acc, done, by rw [traverse], hI, h.nodup, ?_⟩
      intro v b
      refine ⟨fun hp => h.dlive _ hp, ?_⟩
      rintro ⟨nd, hv⟩
      rcases h.cover v nd hv with hd | ⟨z, hz, -⟩
      · exact hd b
      · simp at hz
    | cons v S =>
      obtain ⟨nd, hv⟩ := h.live v (by simp)
      have hnv : ∀ b, (v, b) ∉ done := fun b hp => h.fresh v (by simp) _ hp (List.prefix_refl _)
      obtain ⟨ws, acc', e, h2, h3, h4⟩ := traverseChildren_eq hcap hT hf hv [false, true] S acc done hI
        (fun b _ => hnv b) (by simp)
      have hp := h.step hT.inv hv h3 h4
      rw [traverse, rep_get hT.rep hv (Or.inr (hT.inv.node v nd hv).valid), ob_some, e, ob_some]
      dsimp only
      exact ih _ _ _ hp (by simpa using h2) (by simp; omega)

/-- from the root -/
theorem traverse_root {α : Type} {f : α → Nat → Node → Bool → Option α} {I : List (Nat × Bool) → α → Prop}
    (hcap : cap ≤ 2 ^ 31) (hT : TreeOk t P D ex Pc table ps cap N str cnt)
    (hf : ∀ done v nd b acc, N v = some nd → (v, b) ∉ done → I done acc →
      ∃ acc', f acc v nd b = some acc' ∧ I ((v, b) :: done) acc') {acc : α} (hI : I [] acc) :
    ∃ acc' done, traverse t f t.nodes.items.length [0] acc = some acc' ∧ I done acc' ∧ done.Nodup ∧
        ∀ v b, (v, b) ∈ done ↔ ∃ nd, N v = some nd := by
  refine traverse_ok hcap hT hf _ [0] acc [] ⟨?_, by simp, by simp, by simp, by simp, ?_⟩ hI (by simp)
  · intro v hv
    rw [List.mem_singleton] at hv
    subst hv
    exact hT.inv.root
  · intro w nw hw
    exact Or.inr ⟨0, by simp, hT.inv.rootle _ (hT.inv.node w nw hw).br⟩

end Verif.Tree
