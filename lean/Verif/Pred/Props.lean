import Verif.Pred.Calls

/-!
# Properties of the predictor (C42, C44, C52)
-/

namespace Verif.Pred

open Verif Verif.Fixed Verif.Lut Verif.Mix Verif.Util Verif.History Verif.Tree Verif.Bits

/-! ## C52: tables -/

/-- **C52.** Building the lookup tables never panics. -/
theorem C52_tables : ∃ t, tablesNew = some t := by
  obtain ⟨t, h, -⟩ := tables_ok
  exact ⟨t, h⟩

theorem tablesOk_of {t : Tables} (h : tablesNew = some t) : TablesOk t := by
  obtain ⟨t', h1, h2⟩ := tables_ok
  rw [h] at h1
  obtain rfl := Option.some.inj h1
  exact h2

/-! ## C44: the predictor never panics -/

/-- **C44 (creation).** A predictor can be created for every window size up to 2^31 and every maximal order up to 8191. -/
theorem C44_new {t : Tables} (ht : tablesNew = some t) (mode : Mode) {W maxOrder : Nat} (hW0 : 0 < W) (hW : W ≤ 2 ^ 31)
    (hM : maxOrder ≤ 8191) : ∃ p, predNew t mode W maxOrder = some p := by
  obtain ⟨p, h, -⟩ := predNew_at (tablesOk_of ht) hW hW0 hM mode fun _ => false
  exact ⟨p, h⟩

/-- **C44 (protocol).** A history of calls succeeds if and only if every byte is started and each of its eight bits is
first predicted and then fed, whatever the bits are. Every other call panics. -/
theorem C44_protocol {t : Tables} (ht : tablesNew = some t) (mode : Mode) {W maxOrder : Nat} (hW0 : 0 < W)
    (hW : W ≤ 2 ^ 31) (hM : maxOrder ≤ 8191) {p0 : Predictor} (h0 : predNew t mode W maxOrder = some p0)
    (cs : List Call) (hn : cs.length ≤ 2 ^ 40) :
    (calls t mode p0 cs).isSome = true ↔ (phaseRun .idle cs).isSome = true := by
  obtain ⟨p0', e0, h1, h2⟩ := calls_new (tablesOk_of ht) hW hW0 hM mode cs hn
  rw [h0] at e0
  obtain rfl := Option.some.inj e0
  cases hp : phaseRun .idle cs with
  | none => rw [h1 hp]; simp
  | some ph =>
    obtain ⟨fs, p, h3, -⟩ := h2 ph hp
    rw [h3]
    rfl

theorem predict_count {t : Tables} {mode : Mode} : ∀ (cs : List Call) {p p' : Predictor} {fs : List Nat},
    calls t mode p cs = some (fs, p') → fs.length = cs.countP fun c => decide (c = .predict) := by
  intro cs
  induction cs with
  | nil =>
    intro p p' fs h
    rw [calls] at h
    obtain ⟨rfl, -⟩ := Prod.mk.inj (Option.some.inj h)
    rfl
  | cons c cs ih =>
    intro p p' fs h
    rw [calls] at h
    cases hc : call t mode p c with
    | none => rw [hc] at h; cases h
    | some r =>
      obtain ⟨f, q⟩ := r
      rw [hc, ob_some] at h
      dsimp only at h
      cases hcs : calls t mode q cs with
      | none => rw [hcs] at h; cases h
      | some r =>
        obtain ⟨fs', q'⟩ := r
        rw [hcs, ob_some] at h
        obtain ⟨rfl, -⟩ := Prod.mk.inj (Option.some.inj h)
        rw [List.length_append, ih hcs, List.countP_cons]
        have hf : f.toList.length = if decide (c = Call.predict) = true then 1 else 0 := by
          cases c with
          | start =>
            rw [call] at hc
            cases hs : predStart p with
            | none => rw [hs] at hc; cases hc
            | some _ =>
              rw [hs, ob_some] at hc
              obtain ⟨rfl, -⟩ := Prod.mk.inj (Option.some.inj hc)
              rfl
          | predict =>
            rw [call] at hc
            cases hs : predPredict t mode p with
            | none => rw [hs] at hc; cases hc
            | some r =>
              rw [hs, ob_some] at hc
              obtain ⟨rfl, -⟩ := Prod.mk.inj (Option.some.inj hc)
              rfl
          | update b =>
            rw [call] at hc
            cases hs : predUpdate t mode p b with
            | none => rw [hs] at hc; cases hc
            | some _ =>
              rw [hs, ob_some] at hc
              obtain ⟨rfl, -⟩ := Prod.mk.inj (Option.some.inj hc)
              rfl
        rw [hf]
        omega

/-- **C44 (predictions).** Every prediction made in any history of calls is a valid final probability, one per call of
`predict`. -/
theorem C44_predictions {t : Tables} (ht : tablesNew = some t) (mode : Mode) {W maxOrder : Nat} (hW0 : 0 < W)
    (hW : W ≤ 2 ^ 31) (hM : maxOrder ≤ 8191) {p0 : Predictor} (h0 : predNew t mode W maxOrder = some p0)
    (cs : List Call) (hn : cs.length ≤ 2 ^ 40) {fs : List Nat} {p : Predictor}
    (h : calls t mode p0 cs = some (fs, p)) :
    (fs.length = cs.countP fun c => decide (c = .predict)) ∧ ∀ f ∈ fs, 1 ≤ f ∧ f < 2 ^ 23 := by
  refine ⟨predict_count cs h, ?_⟩
  obtain ⟨p0', e0, h1, h2⟩ := calls_new (tablesOk_of ht) hW hW0 hM mode cs hn
  rw [h0] at e0
  obtain rfl := Option.some.inj e0
  cases hp : phaseRun .idle cs with
  | none => rw [h1 hp] at h; cases h
  | some ph =>
    obtain ⟨fs', p', h3, h4, -⟩ := h2 ph hp
    rw [h3] at h
    obtain ⟨rfl, -⟩ := Prod.mk.inj (Option.some.inj h)
    exact h4

theorem phase_bits : ∀ (bits : List Bool) (j : Nat), 0 < bits.length → j + bits.length = 8 →
    phaseRun (.ready j) ((bits.map fun b => [Call.predict, Call.update b]).flatten) = some .idle := by
  intro bits
  induction bits with
  | nil => intro j h _; simp at h
  | cons b bits ih =>
    intro j _ hj
    rw [List.length_cons] at hj
    rw [List.map_cons, List.flatten_cons, List.cons_append, List.cons_append, List.nil_append, phaseRun, phaseStep, ob_some,
      phaseRun, phaseStep, ob_some]
    cases bits with
    | nil =>
      rw [if_pos (by rw [List.length_nil] at hj; omega)]
      rfl
    | cons c bits =>
      rw [List.length_cons] at hj
      rw [if_neg (by omega), ih (j + 1) (by simp) (by rw [List.length_cons]; omega)]

theorem phase_bytes : ∀ (bytes : List (List Bool)), (∀ b ∈ bytes, b.length = 8) →
    phaseRun .idle (bytes.flatMap byteCalls) = some .idle := by
  intro bytes
  induction bytes with
  | nil => intro _; rfl
  | cons b bytes ih =>
    intro h
    have hb := h b (by simp)
    rw [List.flatMap_cons, phaseRun_append, byteCalls, phaseRun, phaseStep, ob_some, phase_bits b 0 (by omega) (by omega),
      Option.bind_some, ih fun c hc => h c (by simp [hc])]

theorem byteCalls_length (bits : List Bool) : (byteCalls bits).length = 1 + 2 * bits.length := by
  unfold byteCalls
  rw [List.length_cons, List.length_flatten, List.map_map]
  have : (List.map (List.length ∘ fun b => [Call.predict, Call.update b]) bits) = List.replicate bits.length 2 := by
    rw [List.eq_replicate_iff]
    refine ⟨by simp, ?_⟩
    intro x hx
    obtain ⟨b, -, rfl⟩ := List.mem_map.mp hx
    rfl
  rw [this, List.sum_replicate, smul_eq_mul]
  omega

theorem bytes_length : ∀ (bytes : List (List Bool)), (∀ b ∈ bytes, b.length = 8) →
    (bytes.flatMap byteCalls).length = 17 * bytes.length := by
  intro bytes
  induction bytes with
  | nil => intro _; rfl
  | cons b bytes ih =>
    intro h
    rw [List.flatMap_cons, List.length_append, byteCalls_length, h b (by simp), ih fun c hc => h c (by simp [hc]),
      List.length_cons]
    omega

theorem bytes_predicts : ∀ (bytes : List (List Bool)), (∀ b ∈ bytes, b.length = 8) →
    ((bytes.flatMap byteCalls).countP fun c => decide (c = .predict)) = 8 * bytes.length := by
  have hb : ∀ bits : List Bool, ((byteCalls bits).countP fun c => decide (c = .predict)) = bits.length := by
    intro bits
    unfold byteCalls
    rw [List.countP_cons, if_neg (by simp), Nat.add_zero]
    induction bits with
    | nil => rfl
    | cons b bits ih => rw [List.map_cons, List.flatten_cons, List.countP_append, ih, List.length_cons]; simp +arith
  intro bytes
  induction bytes with
  | nil => intro _; rfl
  | cons b bytes ih =>
    intro h
    rw [List.flatMap_cons, List.countP_append, hb, h b (by simp), ih fun c hc => h c (by simp [hc]), List.length_cons]
    omega

/-- **C44 (files).** Running the predictor over any bytes, as the program does, never panics and gives a valid final
probability for each bit. -/
theorem C44_file {t : Tables} (ht : tablesNew = some t) (mode : Mode) {W maxOrder : Nat} (hW0 : 0 < W)
    (hW : W ≤ 2 ^ 31) (hM : maxOrder ≤ 8191) {p0 : Predictor} (h0 : predNew t mode W maxOrder = some p0)
    (bytes : List (List Bool)) (h8 : ∀ b ∈ bytes, b.length = 8) (hn : bytes.length ≤ 2 ^ 35) :
    ∃ fs p, calls t mode p0 (bytes.flatMap byteCalls) = some (fs, p) ∧ fs.length = 8 * bytes.length ∧
      ∀ f ∈ fs, 1 ≤ f ∧ f < 2 ^ 23 := by
  have hlen := bytes_length bytes h8
  have h1 := (C44_protocol ht mode hW0 hW hM h0 (bytes.flatMap byteCalls) (by omega)).mpr (by rw [phase_bytes bytes h8]; rfl)
  obtain ⟨⟨fs, p⟩, h2⟩ := Option.isSome_iff_exists.mp h1
  obtain ⟨h3, h4⟩ := C44_predictions ht mode hW0 hW hM h0 _ (by omega) h2
  exact ⟨fs, p, h2, by rw [h3, bytes_predicts bytes h8], h4⟩

/-- **C44 (the program).** With the parameters of the program - a window of 10 000 000 bytes, orders up to 20 and two
refinement stages - no input of up to 2^35 bytes makes it panic before it prints its results. -/
theorem C44_program (bytes : List (List Bool)) (h8 : ∀ b ∈ bytes, b.length = 8) (hn : bytes.length ≤ 2 ^ 35) :
    ∃ t p0 fs p, tablesNew = some t ∧ predNew t .light 10000000 20 = some p0 ∧
      calls t .light p0 (bytes.flatMap byteCalls) = some (fs, p) ∧ fs.length = 8 * bytes.length ∧
      ∀ f ∈ fs, 1 ≤ f ∧ f < 2 ^ 23 := by
  obtain ⟨t, ht⟩ := C52_tables
  obtain ⟨p0, h0⟩ := C44_new ht .light (W := 10000000) (maxOrder := 20) (by omega) (by omega) (by omega)
  obtain ⟨fs, p, h⟩ := C44_file ht .light (by omega) (by omega) (by omega) h0 bytes h8 hn
  exact ⟨t, p0, fs, p, ht, h0, h⟩

/-- the protocol admits whole bytes and stops within one -/
example : phaseRun .idle (byteCalls [true, false, false, true, true, false, true, false] ++ [.start, .predict]) =
    some (.pending 0) := by decide

/-- a second start within a byte, a prediction asked twice, and a bit fed without prediction -/
example : phaseRun .idle [.start, .predict, .update true, .start] = none ∧
    phaseRun .idle [.start, .predict, .predict] = none ∧ phaseRun .idle [.start, .update true] = none := by decide

/-! ## C42: statistics -/

theorem sum_contexts (t : Tables) : ∀ es : List StatEvent,
    (es.map StatEvent.contexts).sum = ((es.filterMap (eventInfo t)).map BitInfo.contexts).sum := by
  intro es
  induction es with
  | nil => rfl
  | cons e es ih =>
    cases e with
    | start lb => rw [List.map_cons, List.sum_cons, ih]; exact Nat.zero_add _
    | bit b states p => rw [List.map_cons, List.sum_cons, ih]; rfl

theorem sum_cost (t : Tables) : ∀ es : List StatEvent,
    (es.map (StatEvent.cost t)).sum = ((es.filterMap (eventInfo t)).map BitInfo.cost).sum := by
  intro es
  induction es with
  | nil => rfl
  | cons e es ih =>
    cases e with
    | start lb => rw [List.map_cons, List.sum_cons, ih]; exact zero_add _
    | bit b states p => rw [List.map_cons, List.sum_cons, ih]; rfl

theorem slot_infos (t : Tables) (o u : Nat) : ∀ es : List StatEvent,
    (ofSlot es o u).filterMap (eventInfo t) =
      (es.filterMap (eventInfo t)).filter fun i => decide (i.slot = some (o, u)) := by
  intro es
  induction es with
  | nil => rfl
  | cons e es ih =>
    unfold ofSlot at *
    rw [List.filter_cons]
    cases e with
    | start lb =>
      rw [if_neg (by simp [StatEvent.slot]), ih]
      rfl
    | bit b states p =>
      rw [List.filterMap_cons_some (b := ⟨states.length, (StatEvent.bit b states p).cost t, (StatEvent.bit b states p).slot⟩)
        (by rfl), List.filter_cons]
      dsimp only
      by_cases h : (StatEvent.bit b states p).slot = some (o, u)
      · rw [if_pos (by rw [decide_eq_true_iff]; exact h), if_pos (by rw [decide_eq_true_iff]; exact h), ← ih]
        rfl
      · rw [if_neg (by rw [decide_eq_true_iff]; exact h), if_neg (by rw [decide_eq_true_iff]; exact h), ← ih]

theorem slot_length (t : Tables) (o u : Nat) : ∀ es : List StatEvent,
    ((ofSlot es o u).filterMap (eventInfo t)).length = (ofSlot es o u).length := by
  intro es
  unfold ofSlot
  induction es with
  | nil => rfl
  | cons e es ih =>
    rw [List.filter_cons]
    cases e with
    | start lb => rw [if_neg (by simp [StatEvent.slot]), ih]
    | bit b states p =>
      split
      · rw [List.length_cons, ← ih]; rfl
      · exact ih

theorem seg_take (l : List Bool) {i : Nat} (h : i ≤ l.length) : seg (fun i => l.getD i false) 0 i = l.take i := by
  apply List.ext_getElem
  · simp; omega
  · intro k h1 h2
    rw [seg_length] at h1
    simp only [seg, List.getElem_map, List.getElem_range, List.getElem_take]
    rw [List.getD_eq_getElem?_getD, Nat.mul_zero, Nat.zero_add, List.getElem?_eq_getElem (by omega)]
    rfl

theorem seg_slice_list (l : List Bool) {k : Nat} (h : 8 * k + 8 ≤ l.length) :
    seg (fun i => l.getD i false) k 8 = (l.drop (8 * k)).take 8 := by
  apply List.ext_getElem
  · simp; omega
  · intro r h1 h2
    rw [seg_length] at h1
    simp only [seg, List.getElem_map, List.getElem_range, List.getElem_take, List.getElem_drop]
    rw [List.getD_eq_getElem?_getD, List.getElem?_eq_getElem (by omega)]
    rfl

/-- bits fed before the last start -/
theorem PhaseAt.bits {t : Tables} {mode : Mode} {W maxOrder : Nat} {x : Nat → Bool} {L S : Nat} {fs : List Nat}
    {ph : Phase} {p : Predictor} (h : PhaseAt t mode W maxOrder x L S fs ph p) : 8 * (S - 1) ≤ L := by
  cases ph with
  | idle => have := IdleAt.pos h; omega
  | ready j => obtain ⟨n, h1, h2, -⟩ := ReadyAt.pos h; omega
  | pending j => obtain ⟨n, h1, h2, -⟩ := PendingAt.pos h; omega

/-- **C42.** After any history of calls the statistics hold: the number of bytes started; the sum of the numbers of
contexts; the sum of the costs of all bits that had a context; per class of contexts the number and the cost of its
bits; per symbol the number and the cost of the finished bytes but the last. The per class costs add up to the total,
and so do the per symbol costs together with the cost of the last byte. -/
theorem C42_statistics {t : Tables} (ht : tablesNew = some t) (mode : Mode) {W maxOrder : Nat} (hW0 : 0 < W)
    (hW : W ≤ 2 ^ 31) (hM : maxOrder ≤ 8191) {p0 : Predictor} (h0 : predNew t mode W maxOrder = some p0)
    (cs : List Call) (hn : cs.length ≤ 2 ^ 40) {fs : List Nat} {p : Predictor}
    (h : calls t mode p0 cs = some (fs, p)) :
    let is := infos t W maxOrder (fed cs) fs
    let costs := is.map BitInfo.cost
    p.stats.totalBytes = started cs ∧ p.stats.totalContexts = (is.map BitInfo.contexts).sum ∧
    p.stats.totalCost = costs.sum ∧
    (∀ o ≤ 4, ∀ u ≤ 4,
      p.stats.orderCounts[o * 5 + u]? = some (is.filter fun i => decide (i.slot = some (o, u))).length ∧
      p.stats.orderCosts[o * 5 + u]? =
        some ((is.filter fun i => decide (i.slot = some (o, u))).map BitInfo.cost).sum) ∧
    (∀ b < 256,
      p.stats.symbolCounts[b]? = some ((byteCosts (fed cs) costs (started cs)).countP fun x => decide (x.1 = b)) ∧
      p.stats.symbolCosts[b]? =
        some (((byteCosts (fed cs) costs (started cs)).filter fun x => decide (x.1 = b)).map (·.2)).sum) ∧
    p.stats.orderCosts.sum = p.stats.totalCost ∧
    (0 < started cs → p.stats.byteCost = (costs.drop (8 * (started cs - 1))).sum ∧
      p.stats.symbolCosts.sum + p.stats.byteCost = p.stats.totalCost) ∧
    p.stats.symbolCounts.sum = started cs - 1 := by
  obtain ⟨p0', e0, h1, h2⟩ := calls_new (tablesOk_of ht) hW hW0 hM mode cs hn
  rw [h0] at e0
  obtain rfl := Option.some.inj e0
  cases hp : phaseRun .idle cs with
  | none => rw [h1 hp] at h; cases h
  | some ph =>
    obtain ⟨fs', p', h3, -, h4⟩ := h2 ph hp
    rw [h3] at h
    obtain ⟨rfl, rfl⟩ := Prod.mk.inj (Option.some.inj h)
    obtain ⟨-, -, es, g1, g2, -, g3⟩ := h4.always
    have hb := h4.bits
    have his : es.filterMap (eventInfo t) = infos t W maxOrder (fed cs) fs' := by
      rw [g3.infos]
      unfold infos
      apply List.map_congr_left
      intro i hi
      rw [List.mem_range] at hi
      rw [seg_take _ (by omega)]
    have hbk : booked t es = byteCosts (fed cs) ((infos t W maxOrder (fed cs) fs').map BitInfo.cost) (started cs) := by
      rw [g3.booked, his]
      unfold byteCosts
      apply List.map_congr_left
      intro k hk
      rw [List.mem_range] at hk
      rw [seg_slice_list _ (by omega)]
    have hne : 0 < started cs → es ≠ [] := by
      rintro h0 rfl
      have := g3.starts
      rw [List.countP_nil] at this
      omega
    dsimp only
    refine ⟨by rw [g2.totalBytes, g3.starts], by rw [g2.totalContexts, sum_contexts t, his],
      by rw [g2.totalCost, sum_cost, his], ?_, ?_, g2.sumCosts, ?_, by rw [g2.sumBytes, g2.totalBytes, g3.starts]⟩
    · intro o ho u hu
      refine ⟨by rw [g2.counts o ho u hu, ← slot_length t, slot_infos, his], ?_⟩
      rw [g2.costs o ho u hu, sum_cost, slot_infos, his]
    · intro b hb
      exact ⟨by rw [g2.symCounts b hb, hbk], by rw [g2.symCosts b hb, hbk]⟩
    · intro hs
      exact ⟨by rw [g2.byteCost (hne hs), g3.since hs, his], g2.sumSymbols (hne hs)⟩

/-- **C42 (any history).** The statistics for themselves: whatever the contexts, probabilities and bits they are told,
they never index out of bounds or overflow, and hold the sums described by `StatsAt`. -/
theorem C42_any_history {t : Tables} (ht : tablesNew = some t) {maxOrder : Nat} (hM : maxOrder ≤ 8191)
    (es : List StatEvent) (h : EventsOk maxOrder es) (hn : es.length ≤ 2 ^ 40) :
    ∃ s, statsRun t (statsNew maxOrder) es = some s ∧ StatsAt t maxOrder es s :=
  stats_at (tablesOk_of ht) hM es h hn

/-- **C42 (first byte).** The bits of the first byte have no context and are not charged: the total is 0, while coding
them takes about a byte. -/
theorem C42_first_byte {t : Tables} (ht : tablesNew = some t) (mode : Mode) {W maxOrder : Nat} (hW0 : 0 < W)
    (hW : W ≤ 2 ^ 31) (hM : maxOrder ≤ 8191) {p0 : Predictor} (h0 : predNew t mode W maxOrder = some p0)
    (cs : List Call) (hn : cs.length ≤ 2 ^ 40) {fs : List Nat} {p : Predictor}
    (h : calls t mode p0 cs = some (fs, p)) (hf : (fed cs).length ≤ 8) : p.stats.totalCost = 0 := by
  obtain ⟨-, -, h1, -⟩ := C42_statistics ht mode hW0 hW hM h0 cs hn h
  rw [h1]
  apply List.sum_eq_zero
  intro c hc
  obtain ⟨i, hi, rfl⟩ := List.mem_map.mp hc
  unfold infos at hi
  obtain ⟨k, hk, rfl⟩ := List.mem_map.mp hi
  rw [List.mem_range] at hk
  unfold bitInfo
  dsimp only
  rw [if_pos]
  unfold contextCount
  rw [List.length_eq_zero_iff, List.filter_eq_nil_iff]
  intro o _
  rw [decide_eq_true_iff, not_not]
  unfold occs
  have : (windowed W ((fed cs).take k)).length / 8 = 0 := by
    unfold windowed
    rw [List.length_drop, List.length_take]
    omega
  rw [this, Nat.zero_sub]
  rfl

theorem mapM_some {α β : Type} {f : α → Option β} : ∀ (l : List α),
    (l.mapM f).isSome = true ↔ ∀ a ∈ l, (f a).isSome = true := by
  intro l
  induction l with
  | nil => simp
  | cons a l ih =>
    rw [List.mapM_cons]
    cases hf : f a with
    | none => simp [hf]
    | some b =>
      rw [ob_some]
      cases hl : l.mapM f with
      | none =>
        rw [ob_none]
        rw [hl] at ih
        simp only [Option.isSome_none, Bool.false_eq_true, false_iff] at ih ⊢
        intro h
        exact ih fun x hx => h x (by simp [hx])
      | some bs =>
        rw [ob_some]
        rw [hl] at ih
        simp only [List.mem_cons, forall_eq_or_imp, hf, Option.isSome_some, true_and]
        exact ih

/-- **C42 (printing).** Printing the statistics by context type panics if and only if the maximal order is less than 4. -/
theorem C42_print {t : Tables} (ht : tablesNew = some t) (mode : Mode) {W maxOrder : Nat} (hW0 : 0 < W)
    (hW : W ≤ 2 ^ 31) (hM : maxOrder ≤ 8191) {p0 : Predictor} (h0 : predNew t mode W maxOrder = some p0)
    (cs : List Call) (hn : cs.length ≤ 2 ^ 40) {fs : List Nat} {p : Predictor}
    (h : calls t mode p0 cs = some (fs, p)) : (statsByContext p.stats).isSome = true ↔ 4 ≤ maxOrder := by
  obtain ⟨p0', e0, h1, h2⟩ := calls_new (tablesOk_of ht) hW hW0 hM mode cs hn
  rw [h0] at e0
  obtain rfl := Option.some.inj e0
  cases hp : phaseRun .idle cs with
  | none => rw [h1 hp] at h; cases h
  | some ph =>
    obtain ⟨fs', p', h3, -, h4⟩ := h2 ph hp
    rw [h3] at h
    obtain ⟨rfl, rfl⟩ := Prod.mk.inj (Option.some.inj h)
    obtain ⟨-, -, es, g1, g2, -, g3⟩ := h4.always
    unfold statsByContext
    rw [mapM_some]
    have hc := g2.countsLen
    have hk := g2.costsLen
    have ho := g2.occLen
    constructor
    · intro hall
      by_contra hlt
      have := hall 24 (by simp)
      rw [List.getElem?_eq_none (by omega)] at this
      cases this
    · intro h4 i hi
      rw [List.mem_range] at hi
      rw [List.getElem?_eq_getElem (show i < p'.stats.occurrences.length by omega), ob_some,
        List.getElem?_eq_getElem (show i < p'.stats.orderCounts.length by omega), ob_some,
        List.getElem?_eq_getElem (show i < p'.stats.orderCosts.length by omega), ob_some]
      rfl

/-- probability of a bit when a 0 has probability `p / 2^23` -/
noncomputable def chance (p : Nat) (b : Bool) : ℝ := if b then 1 - (p : ℝ) / 2 ^ 23 else (p : ℝ) / 2 ^ 23

/-- **C42 (total cost).** The total cost reported is, up to 2/2048 bit per bit, the information content of those bits
that had a context. -/
theorem C42_total_cost {t : Tables} (ht : tablesNew = some t) (mode : Mode) {W maxOrder : Nat} (hW0 : 0 < W)
    (hW : W ≤ 2 ^ 31) (hM : maxOrder ≤ 8191) {p0 : Predictor} (h0 : predNew t mode W maxOrder = some p0)
    (cs : List Call) (hn : cs.length ≤ 2 ^ 40) {fs : List Nat} {p : Predictor}
    (h : calls t mode p0 cs = some (fs, p)) :
    let charged := (List.range (fed cs).length).filter fun i => contextCount maxOrder (windowed W ((fed cs).take i)) ≠ 0
    |(p.stats.totalCost : ℝ) / 2048 -
      (charged.map fun i => -Real.logb 2 (chance (fs.getD i 0) ((fed cs).getD i false))).sum| ≤
      2 / 2048 * charged.length := by
  obtain ⟨-, -, h1, -⟩ := C42_statistics ht mode hW0 hW hM h0 cs hn h
  have hpr := (C44_predictions ht mode hW0 hW hM h0 cs hn h).2
  have hlen : (fed cs).length ≤ fs.length := by
    obtain ⟨p0', e0, k1, k2⟩ := calls_new (tablesOk_of ht) hW hW0 hM mode cs hn
    rw [h0] at e0
    obtain rfl := Option.some.inj e0
    cases hp : phaseRun .idle cs with
    | none => rw [k1 hp] at h; cases h
    | some ph =>
      obtain ⟨fs', p', h3, -, h4⟩ := k2 ph hp
      rw [h3] at h
      obtain ⟨rfl, rfl⟩ := Prod.mk.inj (Option.some.inj h)
      exact h4.preds
  dsimp only
  rw [h1]
  unfold infos
  rw [List.map_map]
  have key : ∀ l : List Nat, (∀ i ∈ l, i < (fed cs).length) →
      |(((l.map (BitInfo.cost ∘ fun i => bitInfo t W maxOrder ((fed cs).take i) ((fed cs).getD i false)
        (fs.getD i 0))).sum : Int) : ℝ) / 2048 -
      (((l.filter fun i => contextCount maxOrder (windowed W ((fed cs).take i)) ≠ 0).map fun i =>
        -Real.logb 2 (chance (fs.getD i 0) ((fed cs).getD i false))).sum)| ≤
      2 / 2048 * (l.filter fun i => contextCount maxOrder (windowed W ((fed cs).take i)) ≠ 0).length := by
    intro l
    induction l with
    | nil => intro _; simp
    | cons i l ih =>
      intro hl
      have ih := ih fun k hk => hl k (by simp [hk])
      have hi := hl i (by simp)
      rw [List.map_cons, List.sum_cons, List.filter_cons]
      by_cases hc : contextCount maxOrder (windowed W ((fed cs).take i)) = 0
      · rw [if_neg (by simpa using hc), Function.comp_apply, bitInfo]
        rw [if_pos hc]
        dsimp only
        rw [zero_add]
        exact ih
      · have hg : fs.getD i 0 ∈ fs := by
          rw [List.getD_eq_getElem?_getD, List.getElem?_eq_getElem (by omega)]
          exact List.getElem_mem _
        obtain ⟨q0, q1⟩ := hpr _ hg
        obtain ⟨c, e1, -, -, e2⟩ := Log2.C11_cost t.log2 (tablesOk_of ht).log2 (fs.getD i 0) ((fed cs).getD i false)
          (by omega) q1
        rw [if_pos (by simpa using hc), Function.comp_apply, bitInfo]
        rw [if_neg hc]
        dsimp only
        rw [e1, Option.getD_some, List.map_cons, List.sum_cons, List.length_cons]
        rw [Int.cast_add, Nat.cast_add, Nat.cast_one]
        change |(c : ℝ) / 2048 - -Real.logb 2 (chance (fs.getD i 0) ((fed cs).getD i false))| < 2 / 2048 at e2
        generalize -Real.logb 2 (chance (fs.getD i 0) ((fed cs).getD i false)) = y at *
        rw [abs_le] at ih ⊢
        rw [abs_lt] at e2
        constructor <;> linarith [e2.1, e2.2, ih.1, ih.2]
  exact key _ fun i hi => List.mem_range.mp hi

/-- the hypotheses of the statistics theorems hold for a history that ends within its third byte -/
example : ∃ t p0 fs p, tablesNew = some t ∧ predNew t .light 3 4 = some p0 ∧
    calls t .light p0 ([[false, true, true, false, false, false, false, true],
      [false, true, true, false, false, false, true, false]].flatMap byteCalls ++
      [.start, .predict, .update false, .predict]) = some (fs, p) := by
  obtain ⟨t, ht⟩ := C52_tables
  obtain ⟨p0, h0⟩ := C44_new ht .light (W := 3) (maxOrder := 4) (by omega) (by omega) (by omega)
  obtain ⟨⟨fs, p⟩, h⟩ := Option.isSome_iff_exists.mp
    ((C44_protocol ht .light (by omega) (by omega) (by omega) h0
      ([[false, true, true, false, false, false, false, true],
        [false, true, true, false, false, false, true, false]].flatMap byteCalls ++
        [.start, .predict, .update false, .predict]) (by decide)).mpr (by decide))
  exact ⟨t, p0, fs, p, ht, h0, h⟩

/-- within the second byte the order 0 context is known while it repeats the first byte (`a`, then `b`): in seven bits, always
with one bit that followed; the last bit has again no context -/
example : (List.range 16).map (fun i => let h := ([false, true, true, false, false, false, false, true] ++
      [false, true, true, false, false, false, true, false]).take i
    (contextCount 4 h, unaryCount 4 h)) =
    List.replicate 8 (0, 0) ++ List.replicate 7 (1, 1) ++ [(0, 0)] := by decide

end Verif.Pred
