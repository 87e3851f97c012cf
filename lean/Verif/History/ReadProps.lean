import Verif.History.FatProps
import Verif.Tree.Props

/-!
# What a reported context state tells (C27, C28, C29, C32)

The fields of a state are read by the methods of `ContextState`. Here their values are given in terms of the earlier
occurrences of the context.
-/

namespace Verif.History

open Verif Verif.Bits

/-- the states have the same fields except for the cost trackers -/
inductive SameButCosts : CtxState → CtxState → Prop
  | edge (d n : Nat) (b : Bool) : SameButCosts (.edge d n b) (.edge d n b)
  | node (d e r u : Nat) (c c' : Costs) : SameButCosts (.node d e r u c) (.node d e r u c')

theorem same_of_spec {table : List Nat} {d : Nat} {bits : List Bool} {c c' : Costs} {s s' : CtxState}
    (h : specState table d bits c = some s) (h' : specState table d bits c' = some s') : SameButCosts s s' := by
  unfold specState at h h'
  by_cases h1 : bits = []
  · rw [if_pos h1] at h; simp at h
  · rw [if_neg h1] at h h'
    by_cases h2 : leadRun bits = bits.length
    · rw [if_pos h2, Option.some.injEq] at h h'
      rw [← h, ← h']
      exact .edge _ _ _
    · rw [if_neg h2] at h h'
      obtain ⟨e, he⟩ := replay_some (capRun bits)
      rw [he, ob_some] at h h'
      cases ht : Log2.costForNewNode table (min (leadRun bits) 1000) with
      | none => rw [ht, ob_none] at h; simp at h
      | some t =>
        rw [ht, ob_some, Option.some.injEq] at h h'
        rw [← h, ← h']
        exact .node _ _ _ _ _ _

/-- **C28 (comparing up to cost trackers).** `neutralize_cost_trackers` makes two states equal exactly when they agree
in everything but the cost trackers. Afterwards both trackers hold their initial value, a cost of 2^15. -/
theorem C28_neutralize (s s' : CtxState) :
    (s.neutralize = s'.neutralize ↔ SameButCosts s s') ∧ SameButCosts s s.neutralize ∧
    ∀ d e r u c, s.neutralize = .node d e r u c → c = (2 ^ 15, 2 ^ 15) := by
  refine ⟨⟨?_, ?_⟩, ?_, ?_⟩
  · intro h
    cases s <;> cases s' <;> simp only [CtxState.neutralize, CtxState.edge.injEq, CtxState.node.injEq, reduceCtorEq] at h
    · obtain ⟨rfl, rfl, rfl⟩ := h
      exact .edge _ _ _
    · obtain ⟨rfl, rfl, rfl, rfl, -⟩ := h
      exact .node _ _ _ _ _ _
  · intro h
    cases h <;> rfl
  · cases s
    · exact .edge _ _ _
    · exact .node _ _ _ _ _ _
  · intro d e r u c h
    cases s
    · cases h
    · cases h
      rfl

/-- what the fields of a state are, for a context last seen at distance `d` and followed by `bits` -/
structure Reads (d : Nat) (bits : List Bool) (s : CtxState) : Prop where
  /-- distance of the last occurrence -/
  dist : s.dist = d
  /-- number of occurrences, counted up to 1000 -/
  count : s.occurrenceCount = min bits.length 1000
  /-- the last 15 of the bits that followed, behind a leading one -/
  recent : s.recentBits = some (enc (lastN 15 bits))
  /-- both bits have followed -/
  node : s.isNode = true ↔ true ∈ bits ∧ false ∈ bits

theorem reads_of_spec {table : List Nat} {d : Nat} {bits : List Bool} {c : Costs} {s : CtxState}
    (h : specState table d bits c = some s) : Reads d bits s := by
  have hnode := specState_isNode h
  unfold specState at h
  by_cases h1 : bits = []
  · rw [if_pos h1] at h; simp at h
  rw [if_neg h1] at h
  by_cases h2 : leadRun bits = bits.length
  · rw [if_pos h2, Option.some.injEq] at h
    subst h
    refine ⟨rfl, rfl, ?_, hnode⟩
    obtain ⟨b, l, rfl⟩ := List.exists_cons_of_ne_nil h1
    have hr := leadRun_full h2
    change State.recentForBitRun b _ = _
    rw [(State.C18_constructors b _).1, hr]
    unfold lastN
    simp only [List.drop_replicate, List.length_replicate]
    congr 3
    omega
  · rw [if_neg h2] at h
    have hle : leadRun bits ≤ bits.length := headRun_le bits
    obtain ⟨e, he, -, -, hc⟩ := Est.C13_range (capRun bits)
    rw [he, ob_some] at h
    cases ht : Log2.costForNewNode table (min (leadRun bits) 1000) with
    | none => rw [ht, ob_none] at h; simp at h
    | some t =>
      rw [ht, ob_some, Option.some.injEq] at h
      subst h
      refine ⟨rfl, ?_, rfl, hnode⟩
      change Est.decCount e = _
      rw [hc]
      unfold capRun
      rw [List.length_drop]
      omega

/-- **C32 (what is kept).** Whatever bits follow a context, its state has the distance of the last one, the number of
bits up to 1000, and the last 15 of them. It branches exactly if both bits have followed. -/
theorem C32_reads (luts : Luts) (h : LutsOk luts) (es : List Event) (he : es ≠ []) :
    ∃ s, observeAll luts none es = some (some s) ∧ Reads (es.getLast he).1 (es.map fun e => e.2.1) s := by
  obtain ⟨s, h1, h2⟩ := C32_replay luts h es he
  exact ⟨s, h1, reads_of_spec h2⟩

/-- the cost trackers of a branching context in the naive source: as new, or both what the table has for the length of
the run of equal bits if the last bit was the first to differ -/
def NaiveCosts (table : List Nat) (bits : List Bool) (c : Costs) : Prop :=
  if bits.length = leadRun bits + 1 then c.1 = c.2 ∧ Log2.costForNewNode table (min (leadRun bits) 1000) = some c.1
  else c = (2 ^ 15, 2 ^ 15)

theorem naive_costs {table : List Nat} {d : Nat} {bits : List Bool} {s : CtxState}
    (h : specState table d bits costsDefault = some s) (d' e r u : Nat) (c : Costs) (hs : s = .node d' e r u c) :
    NaiveCosts table bits c := by
  subst hs
  unfold specState at h
  by_cases h1 : bits = []
  · rw [if_pos h1] at h; simp at h
  rw [if_neg h1] at h
  by_cases h2 : leadRun bits = bits.length
  · rw [if_pos h2] at h
    simp at h
  · rw [if_neg h2] at h
    obtain ⟨e, he⟩ := replay_some (capRun bits)
    rw [he, ob_some] at h
    cases ht : Log2.costForNewNode table (min (leadRun bits) 1000) with
    | none => rw [ht, ob_none] at h; simp at h
    | some t =>
      rw [ht, ob_some, Option.some.injEq, CtxState.node.injEq] at h
      obtain ⟨-, -, -, -, rfl⟩ := h
      unfold NaiveCosts
      split
      · exact ⟨rfl, ht⟩
      · rfl

theorem gather_get {P : List Bool → List Bool → Costs → Prop} {table : List Nat} {maxOrder : Nat} {hist : List Bool}
    {states : List CtxState} (h : GatherOk P table maxOrder hist states) {k : Nat} {s : CtxState}
    (hs : states[k]? = some s) :
    occs hist k ≠ [] ∧ ∃ c, P (context hist k) (following hist k) c ∧
      specState table (lastDist hist k) (following hist k) c = some s := by
  obtain ⟨n, -, hn, -⟩ := orders_range hist maxOrder
  unfold GatherOk at h
  have hl := h.length_eq
  obtain ⟨hk, rfl⟩ := List.getElem?_eq_some_iff.mp hs
  have hk' : k < (orders hist maxOrder).length := by omega
  have hg := h.get hk' hk
  have hk0 : (orders hist maxOrder)[k] = k := by simp [hn]
  simp only [List.get_eq_getElem, hk0] at hg
  refine ⟨?_, hg⟩
  have hm : (orders hist maxOrder)[k] ∈ orders hist maxOrder := List.getElem_mem _
  rw [hk0] at hm
  unfold orders at hm
  rw [List.mem_filter] at hm
  simpa using hm.2

theorem gather_length {P : List Bool → List Bool → Costs → Prop} {table : List Nat} {maxOrder : Nat} {hist : List Bool}
    {states : List CtxState} (h : GatherOk P table maxOrder hist states) (k : Nat) :
    k < states.length ↔ k ≤ maxOrder ∧ occs hist k ≠ [] := by
  obtain ⟨n, -, hn, hk⟩ := orders_range hist maxOrder
  unfold GatherOk at h
  rw [← h.length_eq, hn, List.length_range]
  exact hk k

/-- the states are those of the contexts which have occurred, from order 0 to `maxOrder` without gaps, and tell what the
earlier occurrences were -/
structure ReadsAll (maxOrder : Nat) (hist : List Bool) (states : List CtxState) : Prop where
  present : ∀ k, k < states.length ↔ k ≤ maxOrder ∧ occs hist k ≠ []
  reads : ∀ (k : Nat) (s : CtxState), states[k]? = some s → Reads (lastDist hist k) (following hist k) s

theorem reads_of_gather {P : List Bool → List Bool → Costs → Prop} {table : List Nat} {maxOrder : Nat} {hist : List Bool}
    {states : List CtxState} (h : GatherOk P table maxOrder hist states) : ReadsAll maxOrder hist states := by
  refine ⟨gather_length h, ?_⟩
  intro k s hs
  obtain ⟨-, c, -, hc⟩ := gather_get h hs
  exact reads_of_spec hc

/-- **C27 (what is reported).** After every bit the naive source has a state for order `k` exactly if that context has
occurred before. The state gives the distance of the last occurrence, the number of occurrences up to 1000, the last 15
bits that followed, and whether both bits have followed. The cost trackers of a branching context are new, or both from
the table if the last bit was the first to differ. -/
theorem C27_reads (luts : Luts) (h : LutsOk luts) (m maxOrder : Nat) (hm : m < 2 ^ 63) (hist : List Bool)
    (hlen : hist.length < 8 * m) (upd : List CtxState → Bool → List Costs)
    (hu : ∀ l b, ∀ c ∈ upd l b, c = (2 ^ 15, 2 ^ 15)) :
    ∃ states, observe (naiveSource luts) upd (naiveNew m maxOrder) hist = some states ∧ ReadsAll maxOrder hist states ∧
      ∀ (k : Nat) d e r u c, states[k]? = some (.node d e r u c) → NaiveCosts luts.costs (following hist k) c := by
  obtain ⟨states, h1, h2⟩ := C27_naive luts h m maxOrder hm hist hlen upd hu
  have hg := gatherOk_of_spec h2
  refine ⟨states, h1, reads_of_gather hg, ?_⟩
  intro k d e r u c hs
  obtain ⟨-, c', rfl, hc⟩ := gather_get hg hs
  exact naive_costs hc d e r u c rfl

theorem same_of_gather {P P' : List Bool → List Bool → Costs → Prop} {table : List Nat} {maxOrder : Nat} {hist : List Bool}
    {l l' : List CtxState} (h : GatherOk P table maxOrder hist l) (h' : GatherOk P' table maxOrder hist l') :
    List.Forall₂ SameButCosts l l' := by
  unfold GatherOk at h h'
  generalize orders hist maxOrder = ks at h h'
  induction h generalizing l' with
  | nil => cases h'; exact .nil
  | cons a _ ih =>
    cases h' with
    | cons a' h2 =>
      obtain ⟨c, -, hc⟩ := a
      obtain ⟨c', -, hc'⟩ := a'
      exact .cons (same_of_spec hc hc') (ih h2)

/-- **C28 (field by field).** Under the assumptions of `C28_fat_map` the states of the hash map source and of the naive
source agree in everything but the cost trackers, and tell what the earlier occurrences were. -/
theorem C28_same (luts : Luts) (h : LutsOk luts) (hash : HashFn) (m maxOrder : Nat) (hm : m < 2 ^ 63)
    (hist : List Bool) (hlen : hist.length < 8 * m) (upd : List CtxState → Bool → List Costs)
    (hu : ∀ l b, (upd l b).length = (l.filter CtxState.isNode).length) :
    ∃ fat naive, observe (fatSource hash luts) upd (fatNew m maxOrder) hist = some fat ∧
      observe (naiveSource luts) (fun _ _ => []) (naiveNew m maxOrder) hist = some naive ∧
      List.Forall₂ SameButCosts fat naive ∧ ReadsAll maxOrder hist fat := by
  obtain ⟨naive, n1, n2⟩ := C27_naive luts h m maxOrder hm hist hlen (fun _ _ => []) (by simp)
  obtain ⟨fat, f1, f2⟩ := fat_observe (P := fun _ _ _ => True) (hash := hash) h m maxOrder hm hist hlen (upd := upd)
    (fun _ _ _ => ⟨costsDefault, trivial⟩) hu (fun _ _ _ _ _ _ => trivial)
  exact ⟨fat, naive, f1, n1, same_of_gather f2 (gatherOk_of_spec n2), reads_of_gather f2⟩

/-- a context seen twice before a byte boundary: ten bits, order 0 has been followed by one bit in the second byte -/
example : ∃ luts, LutsOk luts ∧ ∃ states, observe (naiveSource luts) (fun _ _ => []) (naiveNew 3 2)
    [true, false, true, true, false, true, false, false, true, false] = some states ∧ states.length = 1 ∧
      ∀ s, states[0]? = some s → s.dist = 1 ∧ s.occurrenceCount = 1 ∧ s.recentBits = some 3 ∧ s.isNode = false := by
  obtain ⟨luts, h⟩ := luts_exist
  obtain ⟨states, h1, h2, -⟩ := C27_reads luts h 3 2 (by norm_num)
    [true, false, true, true, false, true, false, false, true, false] (by decide) (fun _ _ => []) (by simp)
  refine ⟨luts, h, states, h1, ?_, ?_⟩
  · have a := h2.present 0
    have b := h2.present 1
    have a' : 0 < states.length := a.mpr (by decide)
    have b' : ¬ 1 < states.length := fun hb => absurd (b.mp hb) (by decide)
    omega
  · intro s hs
    obtain ⟨r1, r2, r3, r4⟩ := h2.reads 0 s hs
    refine ⟨by rw [r1]; decide, by rw [r2]; decide, by rw [r3]; decide, ?_⟩
    have hf : ¬ s.isNode = true := fun hb => absurd (r4.mp hb) (by decide)
    simpa using hf

end Verif.History

namespace Verif.Tree

open Verif Verif.History

/-- **C29 (field by field).** Under the assumptions of `C29_tree` the states of the tree agree with those of the naive
source and of the hash map source in everything but the cost trackers, and tell what the earlier occurrences were. -/
theorem C29_same (luts : Luts) (h : LutsOk luts) (hash : HashFn) (W sh maxOrder : Nat) (hW : W ≤ 2 ^ 31) (hsh : sh < W)
    (hM : maxOrder ≤ 8191) (hist : List Bool) (hlen : hist.length < 8 * W) (upd : List CtxState → Bool → List Costs)
    (hu : ∀ l b, (upd l b).length = (l.filter CtxState.isNode).length) :
    ∃ tree fat naive, observe (treeSource luts) upd (srcNew W maxOrder sh) hist = some tree ∧
      observe (fatSource hash luts) upd (fatNew W maxOrder) hist = some fat ∧
      observe (naiveSource luts) (fun _ _ => []) (naiveNew W maxOrder) hist = some naive ∧
      List.Forall₂ SameButCosts tree naive ∧ List.Forall₂ SameButCosts tree fat ∧ ReadsAll maxOrder hist tree := by
  obtain ⟨naive, n1, n2⟩ := C27_naive luts h W maxOrder (by omega) hist hlen (fun _ _ => []) (by simp)
  obtain ⟨fat, f1, f2⟩ := fat_observe (P := fun _ _ _ => True) (hash := hash) h W maxOrder (by omega) hist hlen (upd := upd)
    (fun _ _ _ => ⟨costsDefault, trivial⟩) hu (fun _ _ _ _ _ _ => trivial)
  obtain ⟨tree, t1, t2⟩ := src_observe (Pc := fun _ _ _ => True) h (fun _ _ _ => ⟨costsDefault, trivial⟩) hW hsh hM (upd := upd)
    hu (fun _ _ _ _ _ => allowed_const (fun _ _ => trivial)) hist
  rw [windowed_all hlen] at t2
  have t3 := t2.exact hlen (fun _ _ _ => ⟨costsDefault, trivial⟩)
  exact ⟨tree, fat, naive, t1, f1, n1, same_of_gather t3 (gatherOk_of_spec n2), same_of_gather t3 f2, reads_of_gather t3⟩

/-- a window of 3 bytes that wraps around after its first byte, and 10 bits -/
example (hash : HashFn) : ∃ luts tree naive, LutsOk luts ∧
    observe (treeSource luts) (fun l _ => List.replicate (l.filter CtxState.isNode).length costsDefault) (srcNew 3 2 2)
      [true, false, true, true, false, true, false, false, true, false] = some tree ∧
    observe (naiveSource luts) (fun _ _ => []) (naiveNew 3 2)
      [true, false, true, true, false, true, false, false, true, false] = some naive ∧
    List.Forall₂ SameButCosts tree naive := by
  obtain ⟨luts, h⟩ := luts_exist
  obtain ⟨tree, fat, naive, h1, -, h2, h3, -⟩ := C29_same luts h hash 3 2 2 (by norm_num) (by norm_num) (by norm_num)
    [true, false, true, true, false, true, false, false, true, false] (by decide)
    (fun l _ => List.replicate (l.filter CtxState.isNode).length costsDefault) (by simp)
  exact ⟨luts, tree, naive, h, h1, h2, h3⟩

end Verif.Tree
