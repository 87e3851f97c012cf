import Verif.History.Spec

/-!
# C32: context state transitions equal replay
-/

namespace Verif.History

open Verif State Bits

/-- one observation in a context: distance, following bit, cost trackers supplied -/
abbrev Event := Nat × Bool × Costs

/-- how the history sources use the two transitions: the first observation creates the state, cost
trackers are supplied exactly to contexts that have seen both bits (`naive.rs:69-80`,
`fat_map.rs:122-141`) -/
def observeOne (luts : Luts) (s : Option CtxState) (e : Event) : Option (Option CtxState) :=
  match s with
  | none => some (some (startingState e.1 e.2.1))
  | some s => (nextState luts s e.1 e.2.1 (if s.isNode then some e.2.2 else none)).map some

/-- a sequence of observations -/
def observeAll (luts : Luts) (s : Option CtxState) (es : List Event) : Option (Option CtxState) :=
  es.foldlM (observeOne luts) s

theorem headRun_replicate (n : Nat) (b : Bool) : headRun (List.replicate n b) = n := by
  cases n with
  | zero => rfl
  | succ n => simp [List.replicate_succ, headRun, List.takeWhile_replicate]

theorem headRun_le (l : List Bool) : headRun l ≤ l.length := by
  cases l with
  | nil => simp [headRun]
  | cons b l =>
    simp only [headRun, List.length_cons]
    have := (List.takeWhile_sublist (l := l) (· == b)).length_le
    omega

/-- a list is a run iff its leading run is everything -/
theorem leadRun_full {b : Bool} {l : List Bool} (h : headRun (b :: l) = (b :: l).length) :
    b :: l = List.replicate (l.length + 1) b := by
  simp only [headRun, List.length_cons, Nat.add_right_cancel_iff] at h
  have e : l.takeWhile (· == b) = l := (List.takeWhile_sublist _).eq_of_length h
  rw [List.replicate_succ]
  congr 1
  apply List.eq_replicate_of_mem
  intro x hx
  have := (List.takeWhile_eq_self_iff.mp e) x hx
  simpa using this

theorem headRun_append {b : Bool} {l : List Bool} (h : headRun (b :: l) ≠ (b :: l).length) (x : Bool) :
    headRun (b :: l ++ [x]) = headRun (b :: l) := by
  simp only [headRun, List.cons_append, List.length_cons, ne_eq, Nat.add_right_cancel_iff] at *
  rw [List.takeWhile_append, if_neg h]

theorem headRun_replicate_append {n : Nat} {b x : Bool} (hn : 0 < n) (h : x ≠ b) :
    headRun (List.replicate n b ++ [x]) = n := by
  obtain ⟨n, rfl⟩ : ∃ m, n = m + 1 := ⟨n - 1, by omega⟩
  simp [List.replicate_succ, headRun, List.takeWhile_append, List.takeWhile_replicate, h]

theorem costs_exist {luts : Luts} (h : LutsOk luts) (n : Nat) :
    ∃ v, Log2.costForNewNode luts.costs n = some v := by
  obtain ⟨lg, h1, h2⟩ := h.costs
  obtain ⟨t, h3, h4⟩ := Log2.C45_cost_table lg luts.rates h1 h.rates
  rw [h2, Option.some.injEq] at h3
  subst h3
  obtain ⟨v, -, hv, -⟩ := h4 n
  exact ⟨v, hv⟩

theorem replay_some (bits : List Bool) : ∃ e, Est.replay bits = some e := by
  obtain ⟨e, h, -⟩ := Est.C13_range bits
  exact ⟨e, h⟩

theorem replay_snoc {luts : Luts} (h : LutsOk luts) {bits : List Bool} {e : Nat}
    (he : Est.replay bits = some e) (b : Bool) :
    Est.decUpdate luts.rates e b = Est.replay (bits ++ [b]) := by
  rw [Est.replay_eq h.rates] at he ⊢
  rw [Est.decRun_append, he, Option.bind_some, Est.decRun]
  cases Est.decUpdate luts.rates e b with
  | none => rfl
  | some x => rfl

theorem recent_snoc (bits : List Bool) (b : Bool) :
    recentUpdated (enc (lastN 15 bits)) b = some (enc (lastN 15 (bits ++ [b]))) := by
  have h := recentRun_enc (bits ++ [b]) [] (by simp)
  have h1 := recentRun_enc bits [] (by simp)
  have happ : ∀ (l : List Bool) (x : Nat), recentRun x (l ++ [b]) =
      (recentRun x l).bind fun x => recentUpdated x b := by
    intro l
    induction l with
    | nil =>
      intro x
      simp only [List.nil_append, recentRun, Option.bind_some]
      cases recentUpdated x b <;> rfl
    | cons a l ih =>
      intro x
      rw [List.cons_append, recentRun, recentRun]
      cases recentUpdated x a with
      | none => rfl
      | some y => rw [ob_some, ob_some, ih]
  rw [happ, h1, Option.bind_some] at h
  simpa using h

/-- one more observation -/
theorem specState_snoc {luts : Luts} (h : LutsOk luts) (d : Nat) (b0 : Bool) (l : List Bool) (c0 : Costs)
    (d' : Nat) (b : Bool) (c : Costs) :
    ∃ s s', specState luts.costs d (b0 :: l) c0 = some s ∧
      s.isNode = decide (headRun (b0 :: l) ≠ (b0 :: l).length) ∧
      nextState luts s d' b (if s.isNode then some c else none) = some s' ∧
      specState luts.costs d' (b0 :: l ++ [b]) c = some s' := by
  by_cases hf : headRun (b0 :: l) = (b0 :: l).length
  · -- a run so far
    refine ⟨.edge d (min (l.length + 1) 1000) b0, ?_⟩
    have hrep := leadRun_full hf
    have e1 : specState luts.costs d (b0 :: l) c0 = some (.edge d (min (l.length + 1) 1000) b0) := by
      unfold specState leadRun
      rw [if_neg (by simp), if_pos hf]
      rfl
    have hnn : (CtxState.edge d (min (l.length + 1) 1000) b0).isNode = false := rfl
    have hne : b0 :: l ++ [b] ≠ [] := by simp
    by_cases hb : b0 = b
    · subst hb
      refine ⟨.edge d' (min (l.length + 2) 1000) b0, e1, by rw [hnn]; simp [hf], ?_, ?_⟩
      · rw [hnn]
        unfold nextState
        dsimp only
        rw [check_pos (by simp), ob_some, if_pos rfl, u16_eq (by omega), ob_some]
        congr 2; omega
      · have e2 : b0 :: l ++ [b0] = List.replicate (l.length + 2) b0 := by
          rw [hrep, ← List.replicate_one, List.replicate_append_replicate]
        unfold specState leadRun
        rw [if_neg hne, e2, headRun_replicate, List.length_replicate, if_pos rfl]
        rfl
    · have hb' : (!b) = b0 := by cases b <;> cases b0 <;> simp_all
      obtain ⟨t, ht⟩ := costs_exist h (min (l.length + 1) 1000)
      obtain ⟨hc1, hc2⟩ := Est.C17_cache luts.rates luts.cache h.rates h.cache b (min (l.length + 1) 1000)
        (by omega)
      rw [hb'] at hc1 hc2
      obtain ⟨e, he⟩ := Option.isSome_iff_exists.mp hc2
      have hr := (C18_constructors b (min (l.length + 1) 1000)).2
      have hu := (C19_constructors b (min (l.length + 1) 1000)).2
      rw [hb'] at hr hu
      have hu' : runsForNewNode b (min (l.length + 1) 1000) =
          some (specWord (List.replicate (min (l.length + 1) 1000) b0 ++ [b])) := by
        rw [hu]; exact runsRun_spec _ []
      have e2 : b0 :: l ++ [b] = List.replicate (l.length + 1) b0 ++ [b] := by rw [hrep]
      have hlead : headRun (b0 :: l ++ [b]) = l.length + 1 := by
        rw [e2, headRun_replicate_append (by omega) (fun h => hb h.symm)]
      -- truncation does not show in the trackers
      have hcap : capRun (b0 :: l ++ [b]) = List.replicate (min (l.length + 1) 1000) b0 ++ [b] := by
        unfold capRun leadRun
        rw [hlead, e2, List.drop_append_of_le_length (by rw [List.length_replicate]; omega),
          List.drop_replicate, show l.length + 1 - (l.length + 1 - 1000) = min (l.length + 1) 1000 by omega]
      have hrec : lastN 15 (List.replicate (min (l.length + 1) 1000) b0 ++ [b]) =
          lastN 15 (b0 :: l ++ [b]) := by
        rw [e2]
        unfold lastN
        rw [List.drop_append, List.drop_append, List.drop_replicate, List.drop_replicate]
        simp only [List.length_append, List.length_replicate, List.length_cons, List.length_nil]
        generalize hk : min (l.length + 1) 1000 = k
        rw [show k - (k + (0 + 1) - 15) = l.length + 1 - (l.length + 1 + (0 + 1) - 15) by omega,
          show k + (0 + 1) - 15 - k = l.length + 1 + (0 + 1) - 15 - (l.length + 1) by omega]
      have hrun : specWord (List.replicate (min (l.length + 1) 1000) b0 ++ [b]) =
          specWord (b0 :: l ++ [b]) := by
        rw [e2]
        have hh : ∀ n, 0 < n → specWord (List.replicate n b0 ++ [b]) =
            packRuns b 1 (min n 1000) 0 := by
          intro n hn
          obtain ⟨n, rfl⟩ : ∃ m, n = m + 1 := ⟨n - 1, by omega⟩
          unfold specWord specRuns
          dsimp only
          rw [List.reverse_append, List.reverse_singleton, List.singleton_append, List.reverse_replicate,
            List.replicate_succ, headRun_cons_diff (fun h => hb h), dropRun_cons_diff (fun h => hb h),
            ← List.replicate_succ, headRun_replicate]
          have : dropRun (List.replicate (n + 1) b0) = [] := by
            rw [List.replicate_succ, dropRun, List.dropWhile_replicate]
            simp
          rw [this]
          simp [headRun]
        rw [hh _ (by omega), hh _ (by omega),
          show min (min (l.length + 1) 1000) 1000 = min (l.length + 1) 1000 by omega]
      refine ⟨.node d' e (enc (lastN 15 (b0 :: l ++ [b]))) (specWord (b0 :: l ++ [b])) (t, t), e1,
        by rw [hnn]; simp [hf], ?_, ?_⟩
      · rw [hnn]
        unfold nextState
        dsimp only
        rw [check_pos (by simp), ob_some, if_neg hb, hc1, he, ob_some, hr, ob_some, hu', ob_some, ht,
          ob_some, hrec, hrun]
      · unfold specState
        rw [if_neg hne, if_neg (by unfold leadRun; rw [hlead]; simp), hcap, he, ob_some]
        unfold leadRun
        rw [hlead, ht, ob_some, if_pos (by simp)]
  · have hlead := headRun_append hf b
    have hle := headRun_le (b0 :: l)
    have hcap : capRun (b0 :: l ++ [b]) = capRun (b0 :: l) ++ [b] := by
      unfold capRun leadRun
      rw [hlead, List.drop_append_of_le_length (by omega)]
    obtain ⟨e, he⟩ := replay_some (capRun (b0 :: l))
    obtain ⟨e', he'⟩ := replay_some (capRun (b0 :: l) ++ [b])
    obtain ⟨t, ht⟩ := costs_exist h (min (headRun (b0 :: l)) 1000)
    refine ⟨.node d e (enc (lastN 15 (b0 :: l))) (specWord (b0 :: l))
      (if (b0 :: l).length = headRun (b0 :: l) + 1 then (t, t) else c0),
      .node d' e' (enc (lastN 15 (b0 :: l ++ [b]))) (specWord (b0 :: l ++ [b])) c, ?_, ?_, ?_, ?_⟩
    · unfold specState leadRun
      rw [if_neg (by simp), if_neg hf, he, ob_some, ht, ob_some]
    · rw [decide_eq_true hf]; rfl
    · change nextState luts (.node _ _ _ _ _) d' b (some c) = _
      unfold nextState
      dsimp only
      rw [ob_some, replay_snoc h he, he', ob_some, recent_snoc, ob_some, runsUpdated_spec, ob_some]
    · unfold specState leadRun
      rw [if_neg (by simp), hlead, if_neg (by simp at *; omega), hcap, he', ob_some, ht, ob_some,
        if_neg (by simp only [List.length_append, List.length_singleton]; omega)]

/-- **C32 (invariant).** A non empty sequence of observations leads to the replay state. -/
theorem observeAll_spec {luts : Luts} (h : LutsOk luts) (es : List Event) :
    observeAll luts none es = some (specState luts.costs (es.getLastD (0, false, costsDefault)).1
      (es.map fun e => e.2.1) (es.getLastD (0, false, costsDefault)).2.2) ∧
    (es ≠ [] → ∃ s, observeAll luts none es = some (some s)) := by
  induction es using List.reverseRecOn with
  | nil => exact ⟨rfl, fun h => absurd rfl h⟩
  | append_singleton es e ih =>
    obtain ⟨ih1, ih2⟩ := ih
    have hstep : observeAll luts none (es ++ [e]) =
        (observeAll luts none es).bind fun s => observeOne luts s e := by
      unfold observeAll
      rw [List.foldlM_append]
      simp only [List.foldlM_cons, List.foldlM_nil]
      cases List.foldlM (observeOne luts) none es with
      | none => rfl
      | some s =>
        rw [ob_some, Option.bind_some]
        cases observeOne luts s e <;> rfl
    rw [hstep, List.map_append, List.getLastD_concat]
    cases es with
    | nil =>
      simp only [observeAll, List.foldlM_nil, List.map_nil, List.nil_append, List.map_cons]
      refine ⟨rfl, fun _ => ⟨_, rfl⟩⟩
    | cons e0 es =>
      obtain ⟨s, hs⟩ := ih2 (by simp)
      rw [hs, Option.bind_some]
      rw [hs, Option.some.injEq] at ih1
      obtain ⟨t, t', ht, -, hn, ht'⟩ := specState_snoc h
        ((e0 :: es).getLastD (0, false, costsDefault)).1 e0.2.1 (es.map fun e => e.2.1)
        ((e0 :: es).getLastD (0, false, costsDefault)).2.2 e.1 e.2.1 e.2.2
      rw [List.map_cons] at ih1 ⊢
      rw [ht, Option.some.injEq] at ih1
      subst ih1
      unfold observeOne
      dsimp only
      rw [hn, Option.map_some, List.map_cons, List.map_nil, ht']
      exact ⟨rfl, fun _ => ⟨_, rfl⟩⟩

end Verif.History
