import Verif.Tree.Model
import Verif.Tree.NodesProps

/-!
# The node pool as a map from numbers to nodes
-/

namespace Verif.Tree

open Verif Verif.History

/-- the pool holds the nodes `N`, the root included, and `cnt` nodes besides the root -/
def Rep (cap : Nat) (ns : Nodes) (N : Live) (cnt : Nat) : Prop :=
  ∃ live free, PoolInv cap ns live cnt free ∧ (∀ i, 1 ≤ i → N i = live i) ∧ N 0 = ns.items[0]?

theorem put_self (N : Live) (i : Nat) (v : Option Node) : N.put i v i = v := by simp [Live.put]

theorem put_ne (N : Live) {i j : Nat} (v : Option Node) (h : j ≠ i) : N.put i v j = N j := by simp [Live.put, h]

/-- the text position of the root -/
def RootText (N : Live) (p : Nat) : Prop := ∃ nd, N 0 = some nd ∧ nd.textStart = p

theorem RootText.put {N : Live} {p v : Nat} {nd : Node} (h : RootText N p) (hv : v = 0 → nd.textStart = p) :
    RootText (N.put v (some nd)) p := by
  by_cases h0 : v = 0
  · subst h0
    exact ⟨nd, put_self _ _ _, hv rfl⟩
  · obtain ⟨n0, h1, h2⟩ := h
    exact ⟨n0, by rw [put_ne _ _ (Ne.symm h0)]; exact h1, h2⟩

theorem RootText.keep {N : Live} {p v : Nat} {nd nd' : Node} (h : RootText N p) (hv : N v = some nd)
    (ht : nd'.textStart = nd.textStart) : RootText (N.put v (some nd')) p := by
  refine h.put ?_
  rintro rfl
  obtain ⟨n0, h1, h2⟩ := h
  rw [hv, Option.some.injEq] at h1
  rw [ht, h1, h2]

theorem RootText.del {N : Live} {p v : Nat} (h : RootText N p) (hv : 1 ≤ v) : RootText (N.put v none) p := by
  obtain ⟨n0, h1, h2⟩ := h
  exact ⟨n0, by rw [put_ne _ _ (by omega)]; exact h1, h2⟩

variable {cap cnt : Nat} {ns : Nodes} {N : Live}

theorem rep_new (h0 : 1 ≤ cap) : ∃ ns, nodesNew cap = some ns ∧
    Rep cap ns (Live.put (fun _ => none) 0 (some nodeInvalid)) 0 := by
  have e : nodesNew cap = some ⟨[nodeInvalid], none, 0, cap⟩ := by
    unfold nodesNew
    rw [check_pos h0, ob_some]
  refine ⟨_, e, _, _, pool_new h0 e, ?_, ?_⟩
  · intro i hi
    rw [put_ne (j := i) (i := 0) _ _ (by omega)]
  · rw [put_self]; rfl

theorem rep_some (h : Rep cap ns N cnt) {v : Nat} {nd : Node} (hv : N v = some nd) :
    ns.items[v]? = some nd ∧ v < cap := by
  obtain ⟨live, free, hp, hN, h0⟩ := h
  have key : ns.items[v]? = some nd := by
    by_cases h1 : 1 ≤ v
    · rw [hN v h1, hp.isLive] at hv
      by_cases hc : 1 ≤ v ∧ v ∉ free
      · rwa [if_pos hc] at hv
      · rw [if_neg hc] at hv; simp at hv
    · obtain rfl : v = 0 := by omega
      rw [← h0, hv]
  refine ⟨key, ?_⟩
  have := (List.getElem?_eq_some_iff.mp key).1
  have := hp.len.2
  omega

theorem rep_get (h : Rep cap ns N cnt) {v : Nat} {nd : Node} (hv : N v = some nd)
    (hok : 1 ≤ v ∨ nodeIsValid nd = true) : nodesGet ns v = some nd := by
  unfold nodesGet
  rw [(rep_some h hv).1, ob_some, check_pos hok, ob_some]

theorem rep_update (h : Rep cap ns N cnt) {v : Nat} {nd : Node} (hv : N v = some nd) (x : Node) :
    ∃ ns', updateNode ns v x = some ns' ∧ Rep cap ns' (N.put v (some x)) cnt := by
  obtain ⟨live, free, hp, hN, h0⟩ := h
  by_cases h1 : 1 ≤ v
  · obtain ⟨ns', e, e0, hp'⟩ := pool_update hp (i := v) (by rw [← hN v h1, hv]; simp) x
    refine ⟨ns', e, _, _, hp', ?_, ?_⟩
    · intro i hi
      unfold Live.put
      rw [hN i hi]
    · rw [put_ne _ _ (by omega), h0, e0]
  · obtain rfl : v = 0 := by omega
    obtain ⟨ns', e, e0, hp'⟩ := pool_root hp x
    refine ⟨ns', e, _, _, hp', ?_, ?_⟩
    · intro i hi
      rw [put_ne _ _ (by omega), hN i hi]
    · rw [put_self, e0]

theorem rep_set (h : Rep cap ns N cnt) {v : Nat} {nd : Node} (hv : N v = some nd)
    (hok : 1 ≤ v ∨ nodeIsValid nd = true) (x : Node) :
    ∃ ns', nodesSet ns v x = some ns' ∧ Rep cap ns' (N.put v (some x)) cnt := by
  obtain ⟨ns', e, hr⟩ := rep_update h hv x
  refine ⟨ns', ?_, hr⟩
  unfold updateNode at e
  rw [check_pos (List.getElem?_eq_some_iff.mp (rep_some h hv).1).1, ob_some] at e
  unfold nodesSet
  rw [rep_get h hv hok, ob_some, e]

theorem rep_add (h : Rep cap ns N cnt) (hc : cap ≤ 2 ^ 31) (hn : cnt + 1 < cap) (x : Node) :
    ∃ ns' u, addNode ns x = some (ns', -((u : Nat) : Int) - 1) ∧ 1 ≤ u ∧ u < cap ∧ N u = none ∧
      Rep cap ns' (N.put u (some x)) (cnt + 1) := by
  obtain ⟨live, free, hp, hN, h0⟩ := h
  obtain ⟨ns', free', u, e, h1, h2, h3, h4, hp'⟩ := (pool_add hp hc x).1 hn
  refine ⟨ns', u, e, h1, h2, by rw [hN u h1, h3], _, _, hp', ?_, ?_⟩
  · intro i hi
    unfold Live.put
    rw [hN i hi]
  · rw [put_ne _ _ (by omega), h0, h4]

theorem rep_delete (h : Rep cap ns N cnt) (hc : cap ≤ 2 ^ 31) {v : Nat} {nd : Node} (h1 : 1 ≤ v)
    (hv : N v = some nd) : ∃ ns', deleteNode ns v = some ns' ∧ Rep cap ns' (N.put v none) (cnt - 1) := by
  obtain ⟨live, free, hp, hN, h0⟩ := h
  obtain ⟨ns', e, e0, hp', -⟩ := pool_delete hp hc (i := v) (by rw [← hN v h1, hv]; simp)
  refine ⟨ns', e, _, _, hp', ?_, ?_⟩
  · intro i hi
    unfold Live.put
    rw [hN i hi]
  · rw [put_ne _ _ (by omega), h0, e0]

/-- the numbers of the nodes -/
theorem rep_all (h : Rep cap ns N cnt) : ∃ l : List Nat, l.Nodup ∧ l.length = cnt + 1 ∧
    (∀ i, i ∈ l ↔ ∃ nd, N i = some nd) ∧ 0 ∈ l := by
  obtain ⟨live, free, hp, hN, h0⟩ := h
  have hc := card_live ns.items free hp.nodup hp.range hp.len.1
  refine ⟨0 :: (List.range ns.items.length).filter fun i =>
      ((if 1 ≤ i ∧ i ∉ free then ns.items[i]? else none) : Option Node).isSome, ?_, ?_, ?_, by simp⟩
  · rw [List.nodup_cons]
    refine ⟨by simp, List.nodup_range.filter _⟩
  · rw [List.length_cons]
    have := hp.count
    omega
  · intro i
    refine ⟨fun hi => ?_, ?_⟩
    swap
    · rintro ⟨nd, hnd⟩
      by_cases h1 : 1 ≤ i
      · rw [hN i h1, hp.isLive] at hnd
        rw [List.mem_cons, List.mem_filter, List.mem_range]
        refine Or.inr ⟨?_, by rw [hnd]; rfl⟩
        split at hnd
        · exact (List.getElem?_eq_some_iff.mp hnd).1
        · simp at hnd
      · obtain rfl : i = 0 := by omega
        simp
    rcases List.mem_cons.mp hi with rfl | hi
    · rw [h0]
      exact ⟨_, List.getElem?_eq_getElem (by have := hp.len.1; omega)⟩
    · rw [List.mem_filter] at hi
      obtain ⟨-, hi⟩ := hi
      obtain ⟨nd, hnd⟩ := Option.isSome_iff_exists.mp hi
      refine ⟨nd, ?_⟩
      have h1 : 1 ≤ i := by
        by_contra hcon
        rw [if_neg (fun hh => hcon hh.1)] at hnd
        simp at hnd
      rw [hN i h1, hp.isLive, hnd]

theorem rep_list (h : Rep cap ns N cnt) : ∃ l : List Nat, l.Nodup ∧ l.length = cnt + 1 ∧
    (∀ i ∈ l, ∃ nd, N i = some nd) ∧ 0 ∈ l := by
  obtain ⟨l, h1, h2, h3, h4⟩ := rep_all h
  exact ⟨l, h1, h2, fun i hi => (h3 i).mp hi, h4⟩

/-- the number of nodes reported -/
theorem rep_count (h : Rep cap ns N cnt) {nd : Node} (h0 : N 0 = some nd) :
    liveCount ns = some (if nodeIsValid nd then cnt + 1 else 0) := by
  have hi := (rep_some h h0).1
  obtain ⟨live, free, hp, -, -⟩ := h
  have := hp.count
  have := card_live ns.items free hp.nodup hp.range hp.len.1
  have := hp.removed
  unfold liveCount
  rw [hi, ob_some]
  by_cases hv : nodeIsValid nd = true
  · rw [if_pos hv, if_pos hv, subU_eq (by omega)]
    congr 1; omega
  · rw [if_neg hv, if_neg hv]

end Verif.Tree
