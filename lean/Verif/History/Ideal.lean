import Verif.History.FatProps

/-!
# Specification of cost trackers

The ideal history source remembers nothing but the bits read and the cost trackers supplied with each of them. The cost
trackers it reports for a context are those supplied with the bit after the last occurrence of the context.
-/

namespace Verif.History

open Verif

/-- what has been read, and what cost trackers have been supplied with each bit -/
structure Ideal where
  hist : List Bool
  paid : List (List Costs)

def Ideal.new : Ideal := ⟨[], []⟩

/-- one more bit -/
def Ideal.push (I : Ideal) (b : Bool) (costs : List Costs) : Ideal := ⟨I.hist ++ [b], I.paid ++ [costs]⟩

/-- the place of the bit that followed the last occurrence of the context of order `k` -/
def lastBit (hist : List Bool) (k : Nat) : Nat := 8 * (occs hist k).getLastD 0 + ctxLen hist k

/-- the state of the context of order `k` -/
def idealState (table : List Nat) (I : Ideal) (k : Nat) : Option CtxState :=
  specState table (lastDist I.hist k) (following I.hist k) ((I.paid.getD (lastBit I.hist k) []).getD k costsDefault)

/-- the states of all contexts, up to order `maxOrder`, that have occurred before -/
def idealGather (table : List Nat) (maxOrder : Nat) (I : Ideal) : Option (List CtxState) :=
  (orders I.hist maxOrder).mapM (idealState table I)

/-- the ideal history source -/
def idealSource (table : List Nat) (maxOrder : Nat) : Source Ideal :=
  ⟨some, idealGather table maxOrder, fun I b costs => some (I.push b costs)⟩

/-! ## The cost trackers of a context, by what has followed it -/

/-- cost trackers `c` have been supplied for the context `s` with the last of the bits `q` that have followed it -/
def Paid (I : Ideal) (s q : List Bool) (c : Costs) : Prop :=
  q.length ≤ leadRun q + 1 ∨ ∃ L k costs, L < I.hist.length ∧ occs (I.hist.take L) k ≠ [] ∧
    s = context (I.hist.take L) k ∧ q = following (I.hist.take L) k ++ [I.hist.getD L false] ∧
    I.paid[L]? = some costs ∧ costs[k]? = some c

theorem paid_fresh (I : Ideal) : Fresh (Paid I) := fun _ _ h => ⟨costsDefault, Or.inl h⟩

theorem paid_push {I : Ideal} {b : Bool} {costs : List Costs} {s q : List Bool} {c : Costs} (h : Paid I s q c) :
    Paid (I.push b costs) s q c := by
  rcases h with h | ⟨L, k, cs, h1, h2, h3, h4, h5, h6⟩
  · exact Or.inl h
  · have ht : (I.push b costs).hist.take L = I.hist.take L := List.take_append_of_le_length (by omega)
    refine Or.inr ⟨L, k, cs, ?_, by rw [ht]; exact h2, by rw [ht]; exact h3, ?_, ?_, h6⟩
    · unfold Ideal.push
      rw [List.length_append]; omega
    · rw [ht, h4]
      unfold Ideal.push
      rw [List.getD_append _ _ _ _ h1]
    · unfold Ideal.push
      rw [List.getElem?_append_left (List.getElem?_eq_some_iff.mp h5).1]
      exact h5

theorem paid_supplied {I : Ideal} (hI : I.paid.length = I.hist.length) {b : Bool} {costs : List Costs}
    (hl : ∀ k, k < costs.length → Branching I.hist k) : Supplied (Paid (I.push b costs)) I.hist b costs := by
  intro k c hc
  have ht : (I.push b costs).hist.take I.hist.length = I.hist := by
    unfold Ideal.push
    rw [List.take_append_of_le_length (le_refl _), List.take_length]
  refine Or.inr ⟨I.hist.length, k, costs, ?_, ?_, by rw [ht], ?_, ?_, hc⟩
  · unfold Ideal.push
    rw [List.length_append, List.length_singleton]; omega
  · rw [ht]
    exact branching_occs (hl k (List.getElem?_eq_some_iff.mp hc).1)
  · rw [ht]
    unfold Ideal.push
    rw [List.getD_append_right _ _ _ _ (le_refl _), Nat.sub_self]
    rfl
  · unfold Ideal.push
    rw [← hI, List.getElem?_append_right (le_refl _), Nat.sub_self]
    rfl

theorem context_length {hist : List Bool} {k : Nat} (h : occs hist k ≠ []) : (context hist k).length = ctxLen hist k := by
  have := occs_lt h
  unfold context
  rw [List.length_drop]
  unfold ctxLen
  omega

/-- an earlier moment in the same context as now, after which the context has not occurred -/
theorem last_unique {hist : List Bool} {L k k' : Nat} (hL : L < hist.length) (ho : occs hist k ≠ [])
    (ho' : occs (hist.take L) k' ≠ []) (hc : context hist k = context (hist.take L) k')
    (hq : (following hist k).length = (following (hist.take L) k').length + 1) :
    k' = k ∧ L = lastBit hist k := by
  have hlen : (hist.take L).length = L := by rw [List.length_take]; omega
  have h1 := context_length ho
  have h2 := context_length ho'
  rw [hc, h2] at h1
  have o1 := occs_lt ho
  have o2 := occs_lt ho'
  unfold ctxLen at h1
  rw [hlen] at h1 o2
  have hk : k' = k := by omega
  subst hk
  refine ⟨rfl, ?_⟩
  have hmod : L % 8 = hist.length % 8 := by omega
  have hcl : ctxLen (hist.take L) k' = ctxLen hist k' := by unfold ctxLen; rw [hlen, hmod]
  -- the occurrences up to then
  have hcur : (hist.drop (8 * (L / 8 - k'))).take (ctxLen hist k') = context hist k' := by
    rw [hc]
    unfold context
    rw [hlen, hcl, List.drop_take]
    unfold ctxLen
    rw [show L - (8 * k' + hist.length % 8) = 8 * (L / 8 - k') by omega,
      show L - 8 * (L / 8 - k') = 8 * k' + hist.length % 8 by omega]
  have hocc : occs (hist.take L) k' = (List.range (L / 8 - k')).filter fun i =>
      decide ((hist.drop (8 * i)).take (ctxLen hist k') = context hist k') := by
    unfold occs
    rw [hlen]
    apply List.filter_congr
    intro i hi
    rw [List.mem_range] at hi
    rw [hcl, ← hc, List.drop_take, List.take_take, Nat.min_eq_left (by unfold ctxLen; omega)]
  have hsplit : occs hist k' = occs (hist.take L) k' ++ [L / 8 - k'] ++
      (List.range' (L / 8 - k' + 1) (hist.length / 8 - L / 8 - 1)).filter fun i =>
        decide ((hist.drop (8 * i)).take (ctxLen hist k') = context hist k') := by
    have hr : List.range (hist.length / 8 - k') = List.range (L / 8 - k') ++ [L / 8 - k'] ++
        List.range' (L / 8 - k' + 1) (hist.length / 8 - L / 8 - 1) := by
      rw [← List.range_succ, List.range_eq_range', List.range_eq_range']
      have := List.range'_append_1 (s := 0) (m := L / 8 - k' + 1) (n := hist.length / 8 - L / 8 - 1)
      rw [Nat.zero_add] at this
      rw [this]
      congr 1; omega
    rw [hocc]
    unfold occs
    rw [hr, List.filter_append, List.filter_append, List.filter_singleton]
    rw [show (decide ((hist.drop (8 * (L / 8 - k'))).take (ctxLen hist k') = context hist k')) = true by
      rw [decide_eq_true_iff]; exact hcur]
    rfl
  unfold following at hq
  rw [List.length_map, List.length_map, hsplit, List.length_append, List.length_append, List.length_singleton] at hq
  have hnil := List.length_eq_zero_iff.mp (show ((List.range' (L / 8 - k' + 1) (hist.length / 8 - L / 8 - 1)).filter fun i =>
    decide ((hist.drop (8 * i)).take (ctxLen hist k') = context hist k')).length = 0 by omega)
  rw [hnil, List.append_nil] at hsplit
  unfold lastBit
  rw [hsplit, List.getLastD_concat]
  unfold ctxLen
  omega

/-- while no cost trackers have been supplied they do not matter -/
theorem specState_fresh {table : List Nat} {d : Nat} {bits : List Bool} (h : bits.length ≤ leadRun bits + 1) (c c' : Costs) :
    specState table d bits c = specState table d bits c' := by
  have := headRun_le bits
  unfold specState
  by_cases h1 : bits = []
  · rw [if_pos h1, if_pos h1]
  · rw [if_neg h1, if_neg h1]
    by_cases h2 : leadRun bits = bits.length
    · rw [if_pos h2, if_pos h2]
    · have h3 : bits.length = leadRun bits + 1 := by
        unfold leadRun at *
        omega
      rw [if_neg h2, if_neg h2]
      simp only [if_pos h3]

/-- correct states whose cost trackers are those supplied are the ideal ones -/
theorem ideal_of_gatherOk {table : List Nat} {maxOrder : Nat} {I : Ideal} {states : List CtxState}
    (h : GatherOk (Paid I) table maxOrder I.hist states) : idealGather table maxOrder I = some states := by
  unfold idealGather
  rw [mapM_forall2]
  unfold GatherOk at h
  have hmem : ∀ k ∈ orders I.hist maxOrder, occs I.hist k ≠ [] := by
    intro k hk
    have := (List.mem_filter.mp hk).2
    simpa using this
  generalize orders I.hist maxOrder = ks at h hmem
  induction h with
  | nil => exact List.Forall₂.nil
  | @cons k s ks ss h _ ih =>
    refine List.Forall₂.cons ?_ (ih fun k hk => hmem k (by simp [hk]))
    obtain ⟨c, hc, hs⟩ := h
    unfold idealState
    rcases hc with hc | ⟨L, k', costs, h1, h2, h3, h4, h5, h6⟩
    · rw [specState_fresh hc _ c]
      exact hs
    · obtain ⟨rfl, hL⟩ := last_unique h1 (hmem k (by simp)) h2 h3 (by rw [h4]; simp)
      rw [← hL, List.getD_eq_getElem?_getD (l := I.paid), h5, Option.getD_some, List.getD_eq_getElem?_getD, h6, Option.getD_some]
      exact hs

/-! ## Sources that work like the ideal one -/

/-- `R I s`: the source, in state `s`, works like the ideal source in state `I`, for the bits `x` and as long as less than
`B` bits have been read -/
def Follows {σ : Type} (src : Source σ) (table : List Nat) (maxOrder : Nat) (x : Nat → Bool) (B : Nat)
    (R : Ideal → σ → Prop) : Prop :=
  ∀ I s, R I s → I.hist.length < B → ∃ s1 states, ready src I.hist.length s = some s1 ∧ src.gather s1 = some states ∧
    idealGather table maxOrder I = some states ∧
    ∀ costs : List Costs, costs.length = (states.filter CtxState.isNode).length →
      ∃ s2, src.process s1 (x I.hist.length) costs = some s2 ∧ R (I.push (x I.hist.length) costs) s2

/-- two sources report the same states at every bit, for the bits `x` and as long as less than `B` bits have been read -/
def Agree {σ τ : Type} (src : Source σ) (other : Source τ) (x : Nat → Bool) (B : Nat) (R : Nat → σ → τ → Prop) : Prop :=
  ∀ L s u, R L s u → L < B → ∃ s1 u1 states, ready src L s = some s1 ∧ ready other L u = some u1 ∧
    src.gather s1 = some states ∧ other.gather u1 = some states ∧
    ∀ costs : List Costs, costs.length = (states.filter CtxState.isNode).length →
      ∃ s2 u2, src.process s1 (x L) costs = some s2 ∧ other.process u1 (x L) costs = some u2 ∧ R (L + 1) s2 u2

theorem Follows.agree {σ : Type} {src : Source σ} {table : List Nat} {maxOrder B : Nat} {x : Nat → Bool}
    {R : Ideal → σ → Prop} (h : Follows src table maxOrder x B R) :
    Agree src (idealSource table maxOrder) x B fun L s I => L = I.hist.length ∧ R I s := by
  rintro L s I ⟨rfl, hR⟩ hB
  obtain ⟨s1, states, e1, e2, e3, h4⟩ := h I s hR hB
  refine ⟨s1, I, states, e1, by unfold ready; split <;> rfl, e2, e3, fun costs hc => ?_⟩
  obtain ⟨s2, e4, hR2⟩ := h4 costs hc
  exact ⟨s2, I.push (x I.hist.length) costs, e4, rfl, by
    unfold Ideal.push; rw [List.length_append, List.length_singleton], hR2⟩

/-- feeding bits to such a source -/
theorem Follows.feed {σ : Type} {src : Source σ} {table : List Nat} {maxOrder B : Nat} {x : Nat → Bool}
    {R : Ideal → σ → Prop} (h : Follows src table maxOrder x B R) {upd : List CtxState → Bool → List Costs}
    (hu : ∀ l b, (upd l b).length = (l.filter CtxState.isNode).length) : ∀ (bits : List Bool) (I : Ideal) (s : σ), R I s →
    (∀ r b, bits[r]? = some b → x (I.hist.length + r) = b) → I.hist.length + bits.length ≤ B →
    ∃ s' I', feed src upd I.hist.length s bits = some s' ∧
      feed (idealSource table maxOrder) upd I.hist.length I bits = some I' ∧ R I' s' ∧ I'.hist = I.hist ++ bits := by
  intro bits
  induction bits with
  | nil => intro I s hR _ _; exact ⟨s, I, rfl, rfl, hR, (List.append_nil _).symm⟩
  | cons b bits ih =>
    intro I s hR hx hB
    rw [List.length_cons] at hB
    obtain ⟨s1, states, e1, e2, e3, h4⟩ := h I s hR (by omega)
    have hb : x I.hist.length = b := hx 0 b rfl
    rw [hb] at h4
    obtain ⟨s2, e4, hR2⟩ := h4 (upd states b) (hu states b)
    have hl : (I.push b (upd states b)).hist.length = I.hist.length + 1 := by
      unfold Ideal.push; rw [List.length_append, List.length_singleton]
    obtain ⟨s', I', f1, f2, f3, f4⟩ := ih (I.push b (upd states b)) s2 hR2 (by
      intro r b' hr
      rw [hl]
      have := hx (r + 1) b' hr
      rw [← this]; congr 1; omega) (by rw [hl]; omega)
    rw [hl] at f1 f2
    refine ⟨s', I', ?_, ?_, f3, ?_⟩
    · rw [History.feed, e1, ob_some, e2, ob_some, e4, ob_some, f1]
    · rw [History.feed, show ready (idealSource table maxOrder) I.hist.length I = some I by unfold ready; split <;> rfl,
        ob_some]
      change (idealGather table maxOrder I >>= _) = _
      rw [e3, ob_some]
      exact f2
    · rw [f4]
      unfold Ideal.push
      rw [List.append_assoc]; rfl

/-- the states reported by such a source -/
theorem Follows.observe {σ : Type} {src : Source σ} {table : List Nat} {maxOrder B : Nat} {hist : List Bool}
    {R : Ideal → σ → Prop} (h : Follows src table maxOrder (fun i => hist.getD i false) B R)
    {upd : List CtxState → Bool → List Costs} (hu : ∀ l b, (upd l b).length = (l.filter CtxState.isNode).length)
    {new : Option σ} {s0 : σ} (h0 : new = some s0) (hR : R Ideal.new s0) (hB : hist.length < B) :
    ∃ states, observe src upd new hist = some states ∧
      observe (idealSource table maxOrder) upd (some Ideal.new) hist = some states := by
  obtain ⟨s, I, e1, e2, e3, e4⟩ := h.feed hu hist Ideal.new s0 hR (by
    intro r b hr
    change hist.getD (0 + r) false = b
    rw [Nat.zero_add, List.getD_eq_getElem?_getD, hr]; rfl) (by
    change 0 + hist.length ≤ B
    omega)
  change I.hist = [] ++ hist at e4
  rw [List.nil_append] at e4
  obtain ⟨s1, states, k1, k2, k3, -⟩ := h I s e3 (by rw [e4]; exact hB)
  rw [e4] at k1
  refine ⟨states, ?_, ?_⟩
  · unfold History.observe
    rw [h0, ob_some]
    change (History.feed src upd 0 s0 hist >>= _) = _
    change History.feed src upd 0 s0 hist = _ at e1
    rw [e1, ob_some, k1, ob_some, k2]
  · unfold History.observe
    rw [ob_some]
    change (History.feed (idealSource table maxOrder) upd 0 Ideal.new hist >>= _) = _
    change History.feed (idealSource table maxOrder) upd 0 Ideal.new hist = _ at e2
    rw [e2, ob_some, show ready (idealSource table maxOrder) hist.length I = some I by unfold ready; split <;> rfl,
      ob_some]
    exact k3

end Verif.History
