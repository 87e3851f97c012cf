import Verif.Pred.Props
import Verif.Tree.WorkProps

/-! # The memory of the predictor (C96)

What a predictor stores is counted in numbers kept in its lists: estimators, inputs of mixers, entries of the maps,
counters, nodes of the tree, bytes of the window and states of contexts. -/

namespace Verif.Pred

open Verif Verif.Fixed Verif.Lut Verif.Mix Verif.Util Verif.History Verif.Tree Verif.Bits

attribute [local irreducible] squashTable stretchTable

/-! ## Spec -/

/-- inputs of a list of mixers -/
def mixersCells (ms : List Mixer) : Nat := (ms.map fun m => m.inputs.length).sum

/-- the predictors of one order: estimators and inputs of mixers -/
def orderCells (o : Order) : Nat :=
  o.single.edge.ests.length + o.single.node.ests.length + mixersCells o.edge.mixers + mixersCells o.node.mixers

/-- the final stage: entries of the maps and inputs of mixers -/
def finalizerCells (f : Finalizer) : Nat :=
  f.order0.mappings.length + f.order1.mappings.length + f.order2.mappings.length + f.order3.mappings.length +
    mixersCells f.mixers

/-- the statistics: counters -/
def statsCells (s : Stats) : Nat :=
  s.orderCounts.length + s.orderCosts.length + s.symbolCounts.length + s.symbolCosts.length + s.occurrences.length

/-- the history: nodes, bytes of the window and contexts -/
def treeCells (s : Src) : Nat := s.tree.nodes.items.length + s.tree.window.buffer.length + s.ctxs.length

/-- all that a predictor stores, apart from a fixed number of single numbers -/
def cells (p : Predictor) : Nat :=
  (p.chain.map orderCells).sum + finalizerCells p.finalizer + statsCells p.stats + treeCells p.tree + p.states.length

/-! ## Lemmas -/

theorem mixers_all {n : Nat} : ∀ {ms : List Mixer}, (∀ m ∈ ms, m.inputs.length = n) → mixersCells ms = ms.length * n := by
  intro ms
  induction ms with
  | nil => intro _; simp [mixersCells]
  | cons m ms ih =>
    intro h
    have := ih fun m hm => h m (List.mem_cons_of_mem _ hm)
    unfold mixersCells at this ⊢
    rw [List.map_cons, List.sum_cons, this, h m List.mem_cons_self, List.length_cons]
    ring

theorem mix_len {n limit : Nat} {m : Mixer} (c : Prop) [Decidable c]
    (h : if c then MixBusy n limit m else MixIdle n limit m) : m.inputs.length = n := by
  split at h
  · obtain ⟨S, idx, -, h, -⟩ := h; exact h.len
  · obtain ⟨idx, -, h⟩ := h; exact h.len

theorem kit_cells {t : Tables} {n limit : Nat} {dims : List Nat} {busy : Option Nat} {k : MixKit}
    (h : MixKitOk t n limit dims busy k) : mixersCells k.mixers = dims.prod * n := by
  rw [mixers_all (n := n), h.len]
  intro m hm
  obtain ⟨i, hi⟩ := List.mem_iff_getElem?.mp hm
  exact mix_len _ (h.mixers i m hi)

theorem order_cells {t : Tables} {b : Option Bool} {o : Order} (h : OrderOk t b o) : orderCells o = 19176 := by
  obtain ⟨i, -, h1⟩ := h.ke
  obtain ⟨j, -, h2⟩ := h.kn
  unfold orderCells
  rw [h.se.len, h.sn.len, kit_cells h1, kit_cells h2]
  rfl

theorem chain_cells {os : List Order} (h : ∀ o ∈ os, orderCells o = 19176) : (os.map orderCells).sum = 19176 * os.length := by
  induction os with
  | nil => rfl
  | cons o os ih =>
    rw [List.map_cons, List.sum_cons, ih fun o ho => h o (List.mem_cons_of_mem _ ho), h o List.mem_cons_self,
      List.length_cons]
    ring

theorem busy_cells {t : Tables} : ∀ {ss : List CtxState} {os : List Order}, ChainBusy t ss os →
    ∀ o ∈ os, orderCells o = 19176 := by
  intro ss
  induction ss with
  | nil => intro os h o ho; exact order_cells (h o ho)
  | cons s ss ih =>
    intro os h o ho
    cases os with
    | nil => cases ho
    | cons o' os =>
      rcases List.mem_cons.mp ho with rfl | ho
      · exact order_cells h.1
      · exact ih h.2 o ho

theorem final_mixers {t : Tables} {mode : Mode} {busy : Option Nat} {f : Finalizer} (h : FinOk t mode busy f) :
    mixersCells f.mixers = 14 := by
  have h4 := h.len
  have hm := h.mixers
  obtain ⟨a, b, c, d, e⟩ : ∃ a b c d, f.mixers = [a, b, c, d] := by
    match hf : f.mixers, h4 with
    | [a, b, c, d], _ => exact ⟨a, b, c, d, rfl⟩
  rw [e] at hm ⊢
  have h0 := mix_len _ (hm 0 a rfl)
  have h1 := mix_len _ (hm 1 b rfl)
  have h2 := mix_len _ (hm 2 c rfl)
  have h3 := mix_len _ (hm 3 d rfl)
  simp [mixersCells, h0, h1, h2, h3]

/-- entries of the maps by mode -/
def mapCells : Mode → Nat
  | .none => 0
  | _ => 25 * (256 + 3 * 65536)

/-- without refinement nothing touches the maps -/
theorem none_maps {t : Tables} {p p' : Predictor} {c : Call} {f : Option Nat} (h : call t .none p c = some (f, p')) :
    p'.finalizer = p.finalizer := by
  cases c with
  | start =>
    obtain ⟨q, h1, h2⟩ := Option.bind_eq_some_iff.mp h
    obtain ⟨-, rfl⟩ := Prod.mk.inj (Option.some.inj h2)
    unfold predStart at h1
    obtain ⟨_, -, h1⟩ := Option.bind_eq_some_iff.mp h1
    obtain ⟨_, -, h1⟩ := Option.bind_eq_some_iff.mp h1
    obtain ⟨_, -, h1⟩ := Option.bind_eq_some_iff.mp h1
    obtain ⟨_, -, h1⟩ := Option.bind_eq_some_iff.mp h1
    obtain rfl := Option.some.inj h1
    rfl
  | predict =>
    obtain ⟨⟨g, q⟩, h1, h2⟩ := Option.bind_eq_some_iff.mp h
    obtain ⟨-, rfl⟩ := Prod.mk.inj (Option.some.inj h2)
    unfold predPredict at h1
    obtain ⟨_, -, h1⟩ := Option.bind_eq_some_iff.mp h1
    obtain ⟨_, -, h1⟩ := Option.bind_eq_some_iff.mp h1
    obtain ⟨_, -, h1⟩ := Option.bind_eq_some_iff.mp h1
    obtain ⟨_, -, h1⟩ := Option.bind_eq_some_iff.mp h1
    obtain ⟨⟨_, _⟩, -, h1⟩ := Option.bind_eq_some_iff.mp h1
    obtain ⟨⟨g', f'⟩, h3, h1⟩ := Option.bind_eq_some_iff.mp h1
    obtain ⟨-, rfl⟩ := Prod.mk.inj (Option.some.inj h1)
    unfold finalizerRefine at h3
    obtain ⟨_, -, h3⟩ := Option.bind_eq_some_iff.mp h3
    obtain ⟨_, -, h3⟩ := Option.bind_eq_some_iff.mp h3
    exact (Prod.mk.inj (Option.some.inj h3)).2.symm
  | update b =>
    obtain ⟨q, h1, h2⟩ := Option.bind_eq_some_iff.mp h
    obtain ⟨-, rfl⟩ := Prod.mk.inj (Option.some.inj h2)
    unfold predUpdate at h1
    obtain ⟨_, -, h1⟩ := Option.bind_eq_some_iff.mp h1
    obtain ⟨⟨_, _⟩, -, h1⟩ := Option.bind_eq_some_iff.mp h1
    obtain ⟨_, -, h1⟩ := Option.bind_eq_some_iff.mp h1
    obtain ⟨f', h3, h1⟩ := Option.bind_eq_some_iff.mp h1
    obtain ⟨_, -, h1⟩ := Option.bind_eq_some_iff.mp h1
    obtain ⟨_, -, h1⟩ := Option.bind_eq_some_iff.mp h1
    obtain rfl := Option.some.inj h1
    exact (Option.some.inj h3).symm

/-- the states are those of the last prediction, and at most one per order -/
theorem call_states {t : Tables} {mode : Mode} {p p' : Predictor} {c : Call} {f : Option Nat}
    (h : call t mode p c = some (f, p')) (hs : p.states.length ≤ p.maxOrder + 1) :
    p'.maxOrder = p.maxOrder ∧ p'.states.length ≤ p'.maxOrder + 1 := by
  cases c with
  | start =>
    obtain ⟨q, h1, h2⟩ := Option.bind_eq_some_iff.mp h
    obtain ⟨-, rfl⟩ := Prod.mk.inj (Option.some.inj h2)
    unfold predStart at h1
    obtain ⟨_, -, h1⟩ := Option.bind_eq_some_iff.mp h1
    obtain ⟨_, -, h1⟩ := Option.bind_eq_some_iff.mp h1
    obtain ⟨_, -, h1⟩ := Option.bind_eq_some_iff.mp h1
    obtain ⟨_, -, h1⟩ := Option.bind_eq_some_iff.mp h1
    obtain rfl := Option.some.inj h1
    exact ⟨rfl, hs⟩
  | predict =>
    obtain ⟨⟨g, q⟩, h1, h2⟩ := Option.bind_eq_some_iff.mp h
    obtain ⟨-, rfl⟩ := Prod.mk.inj (Option.some.inj h2)
    unfold predPredict at h1
    obtain ⟨_, -, h1⟩ := Option.bind_eq_some_iff.mp h1
    obtain ⟨_, -, h1⟩ := Option.bind_eq_some_iff.mp h1
    obtain ⟨_, h3, h1⟩ := Option.bind_eq_some_iff.mp h1
    obtain ⟨_, -, h1⟩ := Option.bind_eq_some_iff.mp h1
    obtain ⟨⟨_, _⟩, -, h1⟩ := Option.bind_eq_some_iff.mp h1
    obtain ⟨⟨_, _⟩, -, h1⟩ := Option.bind_eq_some_iff.mp h1
    obtain ⟨-, rfl⟩ := Prod.mk.inj (Option.some.inj h1)
    exact ⟨rfl, check_eq_some.mp h3⟩
  | update b =>
    obtain ⟨q, h1, h2⟩ := Option.bind_eq_some_iff.mp h
    obtain ⟨-, rfl⟩ := Prod.mk.inj (Option.some.inj h2)
    unfold predUpdate at h1
    obtain ⟨_, -, h1⟩ := Option.bind_eq_some_iff.mp h1
    obtain ⟨⟨_, _⟩, -, h1⟩ := Option.bind_eq_some_iff.mp h1
    obtain ⟨_, -, h1⟩ := Option.bind_eq_some_iff.mp h1
    obtain ⟨_, -, h1⟩ := Option.bind_eq_some_iff.mp h1
    obtain ⟨_, -, h1⟩ := Option.bind_eq_some_iff.mp h1
    obtain ⟨_, -, h1⟩ := Option.bind_eq_some_iff.mp h1
    obtain rfl := Option.some.inj h1
    exact ⟨rfl, hs⟩

theorem calls_kept {t : Tables} {mode : Mode} {M : Nat} : ∀ (cs : List Call) {p p' : Predictor} {fs : List Nat},
    calls t mode p cs = some (fs, p') → p.maxOrder = M → p.states.length ≤ M + 1 →
    p'.states.length ≤ M + 1 ∧ (mode = .none → p'.finalizer = p.finalizer) := by
  intro cs
  induction cs with
  | nil =>
    intro p p' fs h _ hs
    obtain ⟨-, rfl⟩ := Prod.mk.inj (Option.some.inj h)
    exact ⟨hs, fun _ => rfl⟩
  | cons c cs ih =>
    intro p p' fs h hM hs
    obtain ⟨⟨f, q⟩, h1, h⟩ := Option.bind_eq_some_iff.mp h
    obtain ⟨⟨fs', q'⟩, h2, h⟩ := Option.bind_eq_some_iff.mp h
    obtain ⟨-, rfl⟩ := Prod.mk.inj (Option.some.inj h)
    subst hM
    obtain ⟨e1, e2⟩ := call_states h1 hs
    rw [e1] at e2
    obtain ⟨i1, i2⟩ := ih h2 e1 e2
    refine ⟨i1, fun hm => ?_⟩
    subst hm
    rw [i2 rfl, none_maps h1]

theorem pool_cells {luts : Luts} {x : Nat → Bool} {Pc : Str → List Bool → Costs → Prop} {Ic : Nat → Nat → Prop}
    {sh W maxOrder : Nat} {ex : Prop} {lo n L : Nat} {s : Src}
    (h : StateOk luts x Pc Ic sh W maxOrder ex lo n L s.tree s.ctxs) :
    treeCells s ≤ max 1 (W - 1) + W + (maxOrder + 1) := by
  have h1 : s.tree.nodes.items.length ≤ max 1 (W - 1) := by
    rcases h.cases with ⟨N, str, cnt, hT, -⟩ | ⟨-, -, -, N, hR, -⟩
    · obtain ⟨live, free, hI, -⟩ := hT.rep
      exact hI.len.2
    · obtain ⟨live, free, hI, -⟩ := hR
      exact hI.len.2
  have h2 := h.win.inv.len_le
  rw [h.win.max] at h2
  have h3 := ctxs_len h
  unfold treeCells
  omega

theorem src_cells {luts : Luts} {x : Nat → Bool} {Pc : Str → List Bool → Costs → Prop}
    {sh W maxOrder L : Nat} {s : Src} (h : SrcAt luts x Pc sh W maxOrder L s) :
    treeCells s ≤ max 1 (W - 1) + W + (maxOrder + 1) := by
  rcases h with ⟨-, h⟩ | ⟨n, j, -, -, -, h⟩
  · obtain ⟨N, ⟨live, free, hI, -⟩, -⟩ := h.pool
    have h1 := hI.len.2
    have h2 := h.win.inv.len_le
    rw [h.win.max] at h2
    unfold treeCells
    rw [h.ctxs, List.length_nil]
    omega
  · exact pool_cells h.state

/-! ## C96 -/

/-- **C96 (memory).** After any calls, however many bytes they fed: the tables of the predictor have the sizes they were
made with, and the history takes at most `W` bytes, `max 1 (W - 1)` nodes and `maxOrder + 1` contexts. -/
theorem C96_memory {t : Tables} (ht : tablesNew = some t) (mode : Mode) {W maxOrder : Nat} (hW0 : 0 < W)
    (hW : W ≤ 2 ^ 31) (hM : maxOrder ≤ 8191) {p0 : Predictor} (h0 : predNew t mode W maxOrder = some p0)
    (cs : List Call) (hn : cs.length ≤ 2 ^ 40) {fs : List Nat} {p : Predictor}
    (h : calls t mode p0 cs = some (fs, p)) :
    (p.chain.map orderCells).sum = 19176 * (maxOrder + 1) ∧ finalizerCells p.finalizer = mapCells mode + 14 ∧
      statsCells p.stats = 562 + 5 * (maxOrder + 1) ∧ treeCells p.tree ≤ max 1 (W - 1) + W + (maxOrder + 1) ∧
      p.states.length ≤ maxOrder + 1 := by
  obtain ⟨p0', e0, h1, h2⟩ := calls_new (tablesOk_of ht) hW hW0 hM mode cs hn
  rw [h0] at e0
  obtain rfl := Option.some.inj e0
  have hp0 : p0.maxOrder = maxOrder ∧ p0.states = [] ∧ ∃ f, finalizerNew t mode = some f ∧ p0.finalizer = f := by
    unfold predNew at h0
    obtain ⟨_, -, h0⟩ := Option.bind_eq_some_iff.mp h0
    obtain ⟨_, -, h0⟩ := Option.bind_eq_some_iff.mp h0
    obtain ⟨f, hf, h0⟩ := Option.bind_eq_some_iff.mp h0
    obtain rfl := Option.some.inj h0
    exact ⟨rfl, rfl, f, hf, rfl⟩
  obtain ⟨m1, m2, f0, m3, m4⟩ := hp0
  obtain ⟨k1, k2⟩ := calls_kept cs h m1 (by rw [m2]; simp)
  cases hp : phaseRun .idle cs with
  | none => rw [h1 hp] at h; cases h
  | some ph =>
    obtain ⟨fs', p', h3, -, h5⟩ := h2 ph hp
    rw [h3] at h
    obtain ⟨-, rfl⟩ := Prod.mk.inj (Option.some.inj h)
    have ha := h5.always
    have hstat : statsCells p'.stats = 562 + 5 * (maxOrder + 1) := by
      obtain ⟨es, -, hs, -⟩ := ha.told
      unfold statsCells
      rw [hs.countsLen, hs.costsLen, hs.symCountsLen, hs.symCostsLen, hs.occLen]
    have hfin : ∀ busy, FinOk t mode busy p'.finalizer → finalizerCells p'.finalizer = mapCells mode + 14 := by
      intro busy hf
      unfold finalizerCells
      rw [final_mixers hf]
      by_cases hm : mode = .none
      · subst hm
        have hq := k2 rfl
        rw [m4] at hq
        have e0 : apmNew 0 0 t.squash = some (newAt 0 0) := by rw [(tablesOk_of ht).squash]; exact apmNew_eq (by omega) 0
        unfold finalizerNew at m3
        obtain ⟨_, -, m3⟩ := Option.bind_eq_some_iff.mp m3
        obtain ⟨_, -, m3⟩ := Option.bind_eq_some_iff.mp m3
        obtain ⟨_, -, m3⟩ := Option.bind_eq_some_iff.mp m3
        obtain ⟨_, -, m3⟩ := Option.bind_eq_some_iff.mp m3
        rw [if_pos rfl, if_pos rfl, e0, ob_some, ob_some] at m3
        obtain rfl := Option.some.inj m3
        rw [hq]
        simp [newAt, mapCells]
      · rw [(hf.order0 hm).ok.len, (hf.order1 hm).ok.len, (hf.order2 hm).ok.len, (hf.order3 hm).ok.len]
        cases mode with
        | none => exact absurd rfl hm
        | light => rfl
        | adaptive => rfl
    have hlen := ha.len
    cases ph with
    | idle =>
      have h5 : IdleAt t mode W maxOrder _ _ _ _ p' := h5
      refine ⟨?_, hfin _ h5.quiet.fin, hstat, src_cells h5.src, k1⟩
      rw [chain_cells fun o ho => order_cells (h5.quiet.chain o ho), hlen]
    | ready j =>
      have h5 : ReadyAt t mode W maxOrder _ _ _ j _ p' := h5
      obtain ⟨n, -, -, -, -, h6⟩ := h5.pos
      refine ⟨?_, hfin _ h5.quiet.fin, hstat, pool_cells h6.state, k1⟩
      rw [chain_cells fun o ho => order_cells (h5.quiet.chain o ho), hlen]
    | pending j =>
      have h5 : PendingAt t mode W maxOrder _ _ _ j _ p' := h5
      obtain ⟨n, -, -, -, -, h6⟩ := h5.pos
      refine ⟨?_, hfin _ h5.fin, hstat, pool_cells h6.state, k1⟩
      rw [chain_cells (busy_cells h5.chain), hlen]

/-- **C96 (the program).** While the program runs over a file of up to 2^35 bytes, and at any point within a byte, its
predictor stores at most 25 325 018 numbers, whatever the file holds. -/
theorem C96_program {t : Tables} (ht : tablesNew = some t) {p0 : Predictor}
    (h0 : predNew t .light 10000000 20 = some p0) (bytes : List (List Bool)) (h8 : ∀ b ∈ bytes, b.length = 8)
    (hn : bytes.length ≤ 2 ^ 35) (k : Nat) :
    ∃ fs p, calls t .light p0 ((bytes.flatMap byteCalls).take k) = some (fs, p) ∧ cells p ≤ 25325018 := by
  have hlen := bytes_length bytes h8
  obtain ⟨fs, q, h1, -⟩ := C44_file ht .light (by omega) (by omega) (by omega) h0 bytes h8 hn
  rw [← List.take_append_drop k (bytes.flatMap byteCalls), calls_append] at h1
  obtain ⟨⟨fs', p⟩, h2, -⟩ := Option.bind_eq_some_iff.mp h1
  refine ⟨fs', p, h2, ?_⟩
  obtain ⟨a1, a2, a3, a4, a5⟩ := C96_memory ht .light (by omega) (by omega) (by omega) h0 _ (by
    rw [List.length_take]; omega) h2
  unfold cells
  rw [a1, a2, a3, show mapCells .light = 4921600 from rfl]
  omega

/-- the hypotheses hold for two bytes, at the end and after the first prediction of the second byte -/
example : ∃ t p0, tablesNew = some t ∧ predNew t .light 10000000 20 = some p0 ∧
    ∃ fs p, calls t .light p0 (([[false, true, true, false, false, false, false, true],
      [false, true, true, false, false, false, true, false]].flatMap byteCalls).take 19) = some (fs, p) ∧
      cells p ≤ 25325018 := by
  obtain ⟨t, ht⟩ := C52_tables
  obtain ⟨p0, h0⟩ := C44_new ht .light (W := 10000000) (maxOrder := 20) (by omega) (by omega) (by omega)
  exact ⟨t, p0, ht, h0, C96_program ht h0 _ (by decide) (by decide) 19⟩

end Verif.Pred
