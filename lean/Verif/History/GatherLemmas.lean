import Verif.History.NaiveLemmas

/-!
# The list of gathered states, up to cost trackers
-/

namespace Verif.History

open Verif Verif.Window

/-- both bits have followed the context of order `k` -/
def Branching (hist : List Bool) (k : Nat) : Prop := true ∈ following hist k ∧ false ∈ following hist k

/-- the orders to report -/
def orders (hist : List Bool) (maxOrder : Nat) : List Nat :=
  (List.range (maxOrder + 1)).filter fun k => occs hist k ≠ []

/-- the cost trackers `c` of a context `s` that has been followed by the bits `q` have to satisfy `P s q c`, which must be
possible as long as no cost trackers have been supplied for `s` -/
def Fresh (P : List Bool → List Bool → Costs → Prop) : Prop := ∀ s q, q.length ≤ leadRun q + 1 → ∃ c, P s q c

/-- the cost trackers supplied with the bit `b` satisfy `P` -/
def Supplied (P : List Bool → List Bool → Costs → Prop) (hist : List Bool) (b : Bool) (costs : List Costs) : Prop :=
  ∀ (k : Nat) c, costs[k]? = some c → P (context hist k) (following hist k ++ [b]) c

/-- a correct list of states, whose cost trackers satisfy `P` -/
def GatherOk (P : List Bool → List Bool → Costs → Prop) (table : List Nat) (maxOrder : Nat) (hist : List Bool)
    (states : List CtxState) : Prop :=
  List.Forall₂ (fun k s => ∃ c, P (context hist k) (following hist k) c ∧
    specState table (lastDist hist k) (following hist k) c = some s)
    (orders hist maxOrder) states

theorem branching_succ {hist : List Bool} {k : Nat} (h : Branching hist (k + 1)) : Branching hist k := by
  have key : ∀ b, b ∈ following hist (k + 1) → b ∈ following hist k := by
    intro b hb
    unfold following at hb ⊢
    obtain ⟨i, hi, rfl⟩ := List.mem_map.mp hb
    obtain ⟨h1, h2⟩ := occs_succ hi
    exact List.mem_map.mpr ⟨i + 1, h1, h2⟩
  exact ⟨key _ h.1, key _ h.2⟩

theorem branching_occs {hist : List Bool} {k : Nat} (h : Branching hist k) : occs hist k ≠ [] := by
  intro he
  have := h.1
  unfold following at this
  rw [he] at this
  simp at this

theorem not_run_iff (b : Bool) (l : List Bool) :
    State.headRun (b :: l) ≠ (b :: l).length ↔ true ∈ b :: l ∧ false ∈ b :: l := by
  constructor
  · intro hf
    have hx : ∃ x ∈ l, x ≠ b := by
      by_contra hno
      push Not at hno
      apply hf
      have : b :: l = List.replicate (l.length + 1) b := by
        rw [List.replicate_succ, ← List.eq_replicate_of_mem hno]
      rw [this, headRun_replicate, List.length_replicate]
    obtain ⟨x, hx, hne⟩ := hx
    cases b <;> cases x <;> simp_all
  · rintro ⟨h1, h2⟩ hf
    have hr := leadRun_full hf
    rw [hr, List.mem_replicate] at h1 h2
    have := h1.2.trans h2.2.symm
    simp at this

/-- a replay state is branching iff both bits were seen -/
theorem specState_isNode {table : List Nat} {d : Nat} {bits : List Bool} {c : Costs} {s : CtxState}
    (hs : specState table d bits c = some s) : s.isNode = true ↔ true ∈ bits ∧ false ∈ bits := by
  unfold specState leadRun at hs
  cases bits with
  | nil => simp at hs
  | cons b l =>
    rw [if_neg (by simp)] at hs
    rw [← not_run_iff]
    by_cases hf : State.headRun (b :: l) = (b :: l).length
    · rw [if_pos hf, Option.some.injEq] at hs
      subst hs
      simp [CtxState.isNode, hf]
    · rw [if_neg hf] at hs
      obtain ⟨e, he⟩ := replay_some (capRun (b :: l))
      rw [he, ob_some] at hs
      cases ht : Log2.costForNewNode table (min (State.headRun (b :: l)) 1000) with
      | none => rw [ht, ob_none] at hs; simp at hs
      | some t =>
        rw [ht, ob_some, Option.some.injEq] at hs
        subst hs
        simp only [CtxState.isNode, true_iff]
        exact hf

/-- the reported orders are `0, 1, …, r - 1` -/
theorem orders_range (hist : List Bool) (maxOrder : Nat) : ∃ r, r ≤ maxOrder + 1 ∧
    orders hist maxOrder = List.range r ∧ ∀ k, k < r ↔ k ≤ maxOrder ∧ occs hist k ≠ [] := by
  have hseg : ∀ n, ∃ r, r ≤ n ∧ ((List.range n).filter fun k => decide (occs hist k ≠ [])) = List.range r := by
    intro n
    induction n with
    | zero => exact ⟨0, le_refl _, rfl⟩
    | succ n ih =>
      obtain ⟨r, hr, e⟩ := ih
      rw [List.range_succ, List.filter_append, e]
      by_cases ho : occs hist n = []
      · exact ⟨r, by omega, by simp [ho]⟩
      · refine ⟨n + 1, le_refl _, ?_⟩
        have : r = n := by
          by_contra hne
          have hm : r ∈ (List.range n).filter fun k => decide (occs hist k ≠ []) := by
            rw [List.mem_filter, List.mem_range]
            exact ⟨by omega, by simpa using fun h0 => ho (occs_empty_le (by omega) h0)⟩
          rw [e, List.mem_range] at hm
          omega
        subst this
        simp [ho, List.range_succ]
  obtain ⟨r, hr, er⟩ := hseg (maxOrder + 1)
  refine ⟨r, hr, er, ?_⟩
  intro k
  have : k ∈ List.range r ↔ k ∈ (List.range (maxOrder + 1)).filter fun k => decide (occs hist k ≠ []) := by
    rw [er]
  rw [List.mem_range, List.mem_filter, List.mem_range, decide_eq_true_iff] at this
  rw [this]
  constructor <;> rintro ⟨h1, h2⟩ <;> exact ⟨by omega, h2⟩

theorem mapM_forall2 {α β : Type} (f : α → Option β) : ∀ (l : List α) (ys : List β),
    l.mapM f = some ys ↔ List.Forall₂ (fun x y => f x = some y) l ys := by
  intro l
  induction l with
  | nil =>
    intro ys
    rw [List.mapM_nil, List.forall₂_nil_left_iff]
    constructor
    · intro h; change some [] = some ys at h; rw [Option.some.injEq] at h; exact h.symm
    · rintro rfl; rfl
  | cons x l ih =>
    intro ys
    rw [List.mapM_cons, List.forall₂_cons_left_iff]
    cases hx : f x with
    | none => simp
    | some y =>
      rw [ob_some]
      cases hl : l.mapM f with
      | none =>
        rw [ob_none]
        constructor
        · intro h; simp at h
        · rintro ⟨b, u, h1, h2, rfl⟩
          rw [← ih, hl] at h2; simp at h2
      | some zs =>
        rw [ob_some]
        change some (y :: zs) = some ys ↔ _
        rw [Option.some.injEq]
        constructor
        · rintro rfl; exact ⟨y, zs, rfl, (ih zs).mp hl, rfl⟩
        · rintro ⟨b, u, h1, h2, rfl⟩
          rw [← ih, hl, Option.some.injEq] at h2
          rw [Option.some.injEq] at h1
          rw [h1, h2]

theorem gatherOk_of_spec {table : List Nat} {maxOrder : Nat} {hist : List Bool} {states : List CtxState}
    (h : specGather table maxOrder hist = some states) :
    GatherOk (fun _ _ c => c = costsDefault) table maxOrder hist states := by
  unfold specGather at h
  rw [mapM_forall2] at h
  unfold GatherOk orders
  refine h.imp ?_
  intro k s hs
  exact ⟨_, rfl, hs⟩

theorem spec_of_gatherOk {table : List Nat} {maxOrder : Nat} {hist : List Bool} {states : List CtxState}
    (h : GatherOk (fun _ _ c => c = costsDefault) table maxOrder hist states) :
    specGather table maxOrder hist = some states := by
  unfold specGather
  rw [mapM_forall2]
  unfold GatherOk orders at h
  refine h.imp ?_
  rintro k s ⟨c, rfl, hs⟩
  exact hs

theorem GatherOk.get {P : List Bool → List Bool → Costs → Prop} {table : List Nat} {maxOrder : Nat} {hist : List Bool}
    {states : List CtxState} (h : GatherOk P table maxOrder hist states) {i : Nat} {s : CtxState}
    (hs : states[i]? = some s) :
    i ≤ maxOrder ∧ occs hist i ≠ [] ∧
    ∃ c, P (context hist i) (following hist i) c ∧
      specState table (lastDist hist i) (following hist i) c = some s := by
  obtain ⟨r, hr, er, hk⟩ := orders_range hist maxOrder
  unfold GatherOk at h
  rw [er] at h
  have hlen := h.length_eq
  rw [List.length_range] at hlen
  obtain ⟨hi, hs⟩ := List.getElem?_eq_some_iff.mp hs
  have := h.get (i := i) (by rw [List.length_range]; omega) hi
  simp only [List.get_eq_getElem, List.getElem_range] at this
  rw [hs] at this
  exact ⟨((hk i).mp (by omega)).1, ((hk i).mp (by omega)).2, this⟩

theorem GatherOk.length_le {P : List Bool → List Bool → Costs → Prop} {table : List Nat} {maxOrder : Nat} {hist : List Bool}
    {states : List CtxState} (h : GatherOk P table maxOrder hist states) : states.length ≤ maxOrder + 1 := by
  obtain ⟨r, hr, er, hk⟩ := orders_range hist maxOrder
  unfold GatherOk at h
  rw [er] at h
  have hlen := h.length_eq
  rw [List.length_range] at hlen
  omega

theorem GatherOk.lt_length {P : List Bool → List Bool → Costs → Prop} {table : List Nat} {maxOrder : Nat} {hist : List Bool}
    {states : List CtxState} (h : GatherOk P table maxOrder hist states) (k : Nat) :
    k < states.length ↔ k ≤ maxOrder ∧ occs hist k ≠ [] := by
  obtain ⟨r, hr, er, hk⟩ := orders_range hist maxOrder
  unfold GatherOk at h
  rw [er] at h
  have hlen := h.length_eq
  rw [List.length_range] at hlen
  rw [← hlen, hk]

theorem GatherOk.antitone {P : List Bool → List Bool → Costs → Prop} {luts : Luts} (_hL : LutsOk luts) {maxOrder : Nat}
    {hist : List Bool}
    {states : List CtxState} (h : GatherOk P luts.costs maxOrder hist states) {i : Nat} {s s' : CtxState}
    (hs : states[i]? = some s) (hs' : states[i + 1]? = some s') (hn : s'.isNode = true) : s.isNode = true := by
  obtain ⟨-, -, c, -, hc⟩ := h.get hs
  obtain ⟨-, -, c', -, hc'⟩ := h.get hs'
  rw [specState_isNode hc]
  rw [specState_isNode hc'] at hn
  exact branching_succ hn

/-- in a list whose branching states form a prefix, position and count agree -/
theorem prefix_count : ∀ (l : List CtxState),
    (∀ i s s', l[i]? = some s → l[i + 1]? = some s' → s'.isNode = true → s.isNode = true) →
    ∀ i s, l[i]? = some s → (s.isNode = true ↔ i < (l.filter CtxState.isNode).length) := by
  intro l
  induction l with
  | nil => intro _ i s h; simp at h
  | cons x l ih =>
    intro hp i s hs
    have ih := ih (fun i s s' h1 h2 => hp (i + 1) s s' (by simpa using h1) (by simpa using h2))
    by_cases hx : x.isNode = true
    · rw [List.filter_cons_of_pos hx, List.length_cons]
      cases i with
      | zero => simp at hs; subst hs; simp [hx]
      | succ i =>
        rw [List.getElem?_cons_succ] at hs
        rw [ih i s hs]; omega
    · -- no state branches
      have hno : ∀ (i : Nat) (s : CtxState), (x :: l)[i]? = some s → s.isNode = false := by
        intro i
        induction i with
        | zero => intro s h; simp at h; subst h; simpa using hx
        | succ i ihi =>
          intro s h
          have hlt := (List.getElem?_eq_some_iff.mp h).1
          have hprev : (x :: l)[i]? = some (x :: l)[i] := List.getElem?_eq_getElem (by omega)
          by_contra hc
          have := hp i _ s hprev h (by simpa using hc)
          rw [ihi _ hprev] at this
          simp at this
      have hz : (x :: l).filter CtxState.isNode = [] := by
        rw [List.filter_eq_nil_iff]
        intro y hy
        obtain ⟨n, hn⟩ := List.getElem?_of_mem hy
        rw [hno n y hn]; simp
      rw [hz, hno i s hs]
      simp

/-- with one cost tracker per branching state, the trackers line up with the branching orders -/
theorem GatherOk.costs_line_up {P : List Bool → List Bool → Costs → Prop} {luts : Luts} (hL : LutsOk luts) {maxOrder : Nat}
    {hist : List Bool} {states : List CtxState} (h : GatherOk P luts.costs maxOrder hist states) (k : Nat) :
    k < (states.filter CtxState.isNode).length ↔ k ≤ maxOrder ∧ Branching hist k := by
  constructor
  · intro hk
    have hlt : k < states.length := lt_of_lt_of_le hk (List.length_filter_le _ _)
    have hs : states[k]? = some states[k] := List.getElem?_eq_getElem hlt
    have := (prefix_count states (fun i s s' => h.antitone hL) k _ hs).mpr hk
    obtain ⟨h1, -, c, -, hc⟩ := h.get hs
    rw [specState_isNode hc] at this
    exact ⟨h1, this⟩
  · rintro ⟨h1, h2⟩
    have hlt := (h.lt_length k).mpr ⟨h1, branching_occs h2⟩
    have hs : states[k]? = some states[k] := List.getElem?_eq_getElem hlt
    rw [← prefix_count states (fun i s s' => h.antitone hL) k _ hs]
    obtain ⟨h1, -, c, -, hc⟩ := h.get hs
    rw [specState_isNode hc]
    exact h2

end Verif.History
