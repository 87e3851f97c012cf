import Verif.History.GatherLemmas

/-!
# C27, C31, C32: context states and the reference history source

Specification: `Verif.History.Spec`, on the plain sequence of input bits.
-/

namespace Verif.History

open Verif Verif.Window

/-- the tables of `LookUpTables::new` used by the history sources can be built -/
theorem luts_exist : ∃ luts, LutsOk luts := by
  obtain ⟨rates, cache, hr, hc⟩ := Est.C17_cache_exists
  obtain ⟨lut, h1, -⟩ := Log2.lut_spec
  obtain ⟨t, h3, -⟩ := Log2.C45_cost_table lut rates h1 hr
  exact ⟨⟨rates, cache, t⟩, hr, hc, lut, h1, h3⟩

/-! ## C32 -/

/-- **C32.** Whatever bits follow a context, at whatever distances and with whatever cost trackers
supplied, the transitions never panic and the resulting state is the replay of those bits: a context that
has seen only equal bits keeps that bit and the count up to 1000; any other keeps the estimator fed with
the bits (leading run truncated to 1000), the last 15 bits, the last three runs, the distance of the last
observation, and the cost trackers last supplied (those of the table right after the first branching). -/
theorem C32_replay (luts : Luts) (h : LutsOk luts) (es : List Event) (he : es ≠ []) :
    ∃ s, observeAll luts none es = some (some s) ∧
      specState luts.costs (es.getLast he).1 (es.map fun e => e.2.1) (es.getLast he).2.2 = some s := by
  obtain ⟨h1, h2⟩ := observeAll_spec h es
  obtain ⟨s, hs⟩ := h2 he
  refine ⟨s, hs, ?_⟩
  rw [hs, Option.some.injEq, List.getLastD_eq_getLast?, List.getLast?_eq_some_getLast he, Option.getD_some] at h1
  exact h1.symm

/-- **C32 (branching).** A context is in the branching state exactly if two different bits have been
seen. -/
theorem C32_branching (luts : Luts) (h : LutsOk luts) (es : List Event) (s : CtxState)
    (hs : observeAll luts none es = some (some s)) :
    s.isNode = true ↔ true ∈ es.map (fun e => e.2.1) ∧ false ∈ es.map (fun e => e.2.1) := by
  obtain ⟨h1, h2⟩ := observeAll_spec h es
  rw [hs, Option.some.injEq] at h1
  generalize es.map (fun e => e.2.1) = bits at h1
  unfold specState leadRun at h1
  cases bits with
  | nil => simp at h1
  | cons b l =>
    rw [if_neg (by simp)] at h1
    by_cases hf : State.headRun (b :: l) = (b :: l).length
    · rw [if_pos hf, Option.some.injEq] at h1
      rw [h1, leadRun_full hf]
      simp only [CtxState.isNode, List.mem_replicate]
      cases b <;> simp
    · rw [if_neg hf] at h1
      obtain ⟨e, he⟩ := replay_some (capRun (b :: l))
      obtain ⟨t, ht⟩ := costs_exist h (min (State.headRun (b :: l)) 1000)
      rw [he, ob_some, ht, ob_some, Option.some.injEq] at h1
      rw [h1]
      simp only [CtxState.isNode, true_iff]
      have hx : ∃ x ∈ l, x ≠ b := by
        by_contra hno
        push Not at hno
        apply hf
        have : b :: l = List.replicate (l.length + 1) b := by
          rw [List.replicate_succ, ← List.eq_replicate_of_mem hno]
        rw [this, headRun_replicate, List.length_replicate]
      obtain ⟨x, hx, hne⟩ := hx
      cases b <;> cases x <;> simp_all

/-- a context that saw 1, 1, 0 at distances 9, 5, 2 branches; its last bits are 110 and its tracked runs
are 0 once after 1 twice -/
example : ∃ luts s e c, LutsOk luts ∧
    observeAll luts none [(9, true, costsDefault), (5, true, costsDefault), (2, false, costsDefault)] =
      some (some s) ∧ s = .node 2 e 14 (2 + 2 ^ 11 * 2) c := by
  obtain ⟨luts, h⟩ := luts_exist
  obtain ⟨s, hs, hs'⟩ := C32_replay luts h
    [(9, true, costsDefault), (5, true, costsDefault), (2, false, costsDefault)] (by simp)
  refine ⟨luts, s, ?_⟩
  simp only [List.map_cons, List.map_nil, List.getLast_cons_cons, List.getLast_singleton] at hs'
  obtain ⟨e, he⟩ := replay_some (capRun [true, true, false])
  obtain ⟨t, ht⟩ := costs_exist h 2
  unfold specState at hs'
  rw [if_neg (by simp), if_neg (by decide), he, ob_some,
    show min (leadRun [true, true, false]) 1000 = 2 by decide, ht, ob_some, Option.some.injEq] at hs'
  exact ⟨e, _, h, hs, hs'.symm⟩

/-! ## C27 -/

/-- **C27.** For every window size, maximal order and input that fits in the window, after every bit the
naive source reports, for exactly the orders `k ≤ maxOrder` whose context has occurred before, in
increasing order, the state obtained by replaying the bits that followed the earlier occurrences; nothing
panics. -/
theorem C27_naive (luts : Luts) (h : LutsOk luts) (m maxOrder : Nat) (hm : m < 2 ^ 63) (hist : List Bool)
    (hlen : hist.length < 8 * m) (upd : List CtxState → Bool → List Costs)
    (hu : ∀ l b, ∀ c ∈ upd l b, c = costsDefault) :
    ∃ states, observe (naiveSource luts) upd (naiveNew m maxOrder) hist = some states ∧
      specGather luts.costs maxOrder hist = some states := by
  obtain ⟨s0, e0, h0⟩ := naive_new (m := m) maxOrder (by omega) hm
  obtain ⟨s1, e1, h1⟩ := naive_feed h hu hist s0 [] h0 (by simp; omega)
  rw [List.nil_append] at h1
  obtain ⟨s2, e2, h2⟩ := naive_ready luts h1 (by omega)
  obtain ⟨e3, states, hst⟩ := naive_gather h h2
  refine ⟨states, ?_, hst⟩
  unfold observe
  rw [List.length_nil] at e1
  rw [e0, ob_some, e1, ob_some, e2, ob_some]
  change naiveGather luts s2 = _
  rw [e3, hst]

/-- **C27 (no gaps).** The reported orders are an initial segment, and below the number of whole bytes. -/
theorem C27_no_gaps (hist : List Bool) (k k' : Nat) (hk : k' ≤ k) (h : occs hist k ≠ []) :
    occs hist k' ≠ [] ∧ k < hist.length / 8 :=
  ⟨fun he => h (occs_empty_le hk he), occs_lt h⟩

/-- **C27 (full window).** A byte more than the window holds is refused. -/
theorem C27_full (luts : Luts) (h : LutsOk luts) (m maxOrder : Nat) (h0 : 0 < m) (hm : m < 2 ^ 63)
    (hist : List Bool)
    (hlen : hist.length = 8 * m) (upd : List CtxState → Bool → List Costs)
    (hu : ∀ l b, ∀ c ∈ upd l b, c = costsDefault) :
    observe (naiveSource luts) upd (naiveNew m maxOrder) hist = none := by
  obtain ⟨s0, e0, h0⟩ := naive_new (m := m) maxOrder h0 hm
  obtain ⟨s1, e1, h1⟩ := naive_feed h hu hist s0 [] h0 (by simp; omega)
  rw [List.nil_append] at h1
  unfold observe
  rw [List.length_nil] at e1
  rw [e0, ob_some, e1, ob_some]
  unfold ready
  rw [if_pos (by omega)]
  change (naiveStart s1 >>= _) = none
  unfold naiveStart
  have hb := h1.bit
  rw [if_pos (by omega)] at hb
  rw [check_pos hb, ob_some, check_neg (by rw [h1.max, h1.holds.size]; omega), ob_none, ob_none]

/-- after the bytes 65, 66, 65 and the bit 0: order 0 saw the bit twice more (one, one), order 1 context
"A" once -/
example : let hist := [false, true, false, false, false, false, false, true,
      false, true, false, false, false, false, true, false,
      false, true, false, false, false, false, false, true, false]
    occs hist 0 = [0, 1, 2] ∧ following hist 0 = [true, true, true] ∧
    occs hist 1 = [0] ∧ following hist 1 = [true] ∧ lastDist hist 1 = 2 ∧ occs hist 2 = [] := by
  decide +kernel

/-! ## C31 -/

/-- **C31.** In every gathered chain of states the branching contexts form a prefix: a context that has
seen both bits is never preceded by (a shorter) one that has not. So the first `n` states, `n` the number
of branching ones, are exactly the branching ones. -/
theorem C31_prefix (luts : Luts) (h : LutsOk luts) (m maxOrder : Nat) (hm : m < 2 ^ 63) (hist : List Bool)
    (hlen : hist.length < 8 * m) (upd : List CtxState → Bool → List Costs)
    (hu : ∀ l b, ∀ c ∈ upd l b, c = costsDefault) :
    ∃ states, observe (naiveSource luts) upd (naiveNew m maxOrder) hist = some states ∧
      states.length ≤ maxOrder + 1 ∧
      (∀ i s s', states[i]? = some s → states[i + 1]? = some s' → s'.isNode = true → s.isNode = true) ∧
      ∀ i s, states[i]? = some s → (s.isNode = true ↔ i < (states.filter CtxState.isNode).length) := by
  obtain ⟨states, h1, h2⟩ := C27_naive luts h m maxOrder hm hist hlen upd hu
  have hg : GatherOk (fun _ _ c => c = costsDefault) luts.costs maxOrder hist states := gatherOk_of_spec h2
  exact ⟨states, h1, hg.length_le, fun i s s' => hg.antitone h, fun i s => prefix_count states
    (fun i s s' => hg.antitone h) i s⟩

/-- a window of 3 bytes and 10 bits -/
example : ∃ luts states, LutsOk luts ∧ observe (naiveSource luts) (fun _ _ => []) (naiveNew 3 2)
    [true, false, true, true, false, true, false, false, true, false] = some states ∧ states.length ≤ 3 := by
  obtain ⟨luts, h⟩ := luts_exist
  obtain ⟨states, h1, h2, -⟩ := C31_prefix luts h 3 2 (by norm_num)
    [true, false, true, true, false, true, false, false, true, false] (by decide) (fun _ _ => []) (by simp)
  exact ⟨luts, states, h, h1, h2⟩

end Verif.History
