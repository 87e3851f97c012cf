import Verif.Pred.Spec
import Verif.Pred.Stats
import Verif.Pred.Chain
import Verif.Tree.Feed

/-! # Invariant of the predictor -/

namespace Verif.Pred

open Verif Verif.Fixed Verif.Lut Verif.Mix Verif.Util Verif.History Verif.Tree Verif.Bits

/-! ## Context states -/

theorem costs_exist : Fresh (fun _ _ => CostsOk) := fun _ _ _ => ⟨(0, 0), by constructor <;> norm_num⟩

theorem usable_of {t : Tables} (ht : TablesOk t) {ex : Prop} {d : Nat} {bits : List Bool} {s : CtxState}
    (h : WindowState (fun _ => CostsOk) t.costs ex d bits s) : Usable s ∧ s.occurrenceCount < 1024 := by
  rcases h with ⟨-, -, q, c, hc, -, -, hs⟩ | ⟨b, C, -, -, -, -, rfl⟩
  · unfold specState at hs
    split at hs
    · cases hs
    split at hs
    · obtain rfl := Option.some.inj hs
      exact ⟨by unfold Usable; dsimp only; omega, by unfold CtxState.occurrenceCount; dsimp only; omega⟩
    · obtain ⟨e, he, e1, e2, e3⟩ := Est.C13_range (capRun q)
      have hcost : ∃ v, v < 2 ^ 16 ∧ Log2.costForNewNode t.costs (min (leadRun q) 1000) = some v := by
        obtain ⟨log2, l1, l2⟩ := ht.luts.costs
        obtain ⟨table, h1, h2⟩ := Log2.C45_cost_table log2 t.luts.rates l1 ht.luts.rates
        rw [l2] at h1
        obtain rfl := Option.some.inj h1
        obtain ⟨v, v1, v2, -⟩ := h2 (min (leadRun q) 1000)
        exact ⟨v, v1, v2⟩
      obtain ⟨v, v1, v2⟩ := hcost
      rw [he, ob_some, v2, ob_some] at hs
      obtain rfl := Option.some.inj hs
      refine ⟨⟨e1, e2, ?_, ?_⟩, by unfold CtxState.occurrenceCount; dsimp only; omega⟩
      · split
        · exact v1
        · exact hc.1
      · split
        · exact v1
        · exact hc.2
  · exact ⟨by unfold Usable; dsimp only; omega, by unfold CtxState.occurrenceCount; dsimp only; omega⟩

theorem gather_count {P : List Bool → List Bool → Costs → Prop} {table : List Nat} {ex : Prop} {hist : List Bool} : ∀ {l : List Nat} {states : List CtxState},
    List.Forall₂ (fun k s => WindowState (P (context hist k)) table ex (lastDist hist k) (following hist k) s) l states →
    (states.countP fun s => !s.isNode) =
      (l.filter fun k => ¬ (true ∈ following hist k ∧ false ∈ following hist k)).length := by
  intro l states h
  induction h with
  | nil => rfl
  | @cons k s l ss h _ ih =>
    rw [List.countP_cons, List.filter_cons, ih]
    have := h.isNode
    by_cases e : s.isNode = true
    · rw [if_neg (by simp [e]), if_neg (by rw [decide_eq_true_iff, not_not]; exact this.mp e), Nat.add_zero]
    · rw [if_pos (by simp [e]), if_pos (by rw [decide_eq_true_iff]; exact fun x => e (this.mpr x)), List.length_cons]

/-- what the statistics make of an event -/
def eventInfo (t : Tables) : StatEvent → Option BitInfo
  | .start _ => none
  | .bit b states p => some ⟨states.length, (StatEvent.bit b states p).cost t, (StatEvent.bit b states p).slot⟩

theorem info_of {t : Tables} {W maxOrder : Nat} {ex : Prop} {hist : List Bool} {states : List CtxState}
    (h : WindowGather (fun _ _ => CostsOk) t.costs ex maxOrder (windowed W hist) states) (b : Bool) (p : Nat) :
    eventInfo t (.bit b states p) = some (bitInfo t W maxOrder hist b p) := by
  have hlen : contextCount maxOrder (windowed W hist) = states.length := h.length_eq
  have hun : unaryCount maxOrder (windowed W hist) = states.countP fun s => !s.isNode := by
    rw [gather_count (P := fun _ _ => CostsOk) h]
    unfold unaryCount orders
    rw [List.filter_filter]
    congr 2
    funext k
    by_cases h1 : occs (windowed W hist) k = [] <;> simp [h1]
  unfold eventInfo bitInfo
  dsimp only
  rw [hlen, hun]
  cases states with
  | nil => rw [if_pos List.length_nil]; rfl
  | cons s ss =>
    rw [if_neg (by simp)]
    rfl

/-! ## Events told to the statistics -/

/-- the events told while feeding the first `L` bits of `x`, when `S` bytes have been started -/
structure Told (t : Tables) (W maxOrder : Nat) (x : Nat → Bool) (L S : Nat) (fs : List Nat) (es : List StatEvent) :
    Prop where
  starts : es.countP StatEvent.isStart = S
  infos : es.filterMap (eventInfo t) =
    (List.range L).map fun i => bitInfo t W maxOrder (seg x 0 i) (x i) (fs.getD i 0)
  since : 0 < S → costSinceStart t es = (((es.filterMap (eventInfo t)).map BitInfo.cost).drop (8 * (S - 1))).sum
  booked : booked t es = (List.range (S - 1)).map fun k =>
    (val (seg x k 8), ((((es.filterMap (eventInfo t)).map BitInfo.cost).drop (8 * k)).take 8).sum)

theorem Told.len {t : Tables} {W maxOrder : Nat} {x : Nat → Bool} {L S : Nat} {fs : List Nat} {es : List StatEvent}
    (h : Told t W maxOrder x L S fs es) : (es.filterMap (eventInfo t)).length = L := by
  rw [h.infos]; simp

theorem told_new (t : Tables) (W maxOrder : Nat) (x : Nat → Bool) : Told t W maxOrder x 0 0 [] [] :=
  ⟨rfl, rfl, fun h => absurd h (by omega), rfl⟩

theorem told_append {t : Tables} {W maxOrder : Nat} {x : Nat → Bool} {L S : Nat} {fs : List Nat} {es : List StatEvent}
    (h : Told t W maxOrder x L S fs es) (hL : L ≤ fs.length) (f : Nat) : Told t W maxOrder x L S (fs ++ [f]) es := by
  refine ⟨h.starts, ?_, h.since, h.booked⟩
  rw [h.infos]
  apply List.map_congr_left
  intro i hi
  rw [List.mem_range] at hi
  rw [List.getD_eq_getElem?_getD, List.getD_eq_getElem?_getD, List.getElem?_append_left (by omega)]

theorem told_start {t : Tables} {W maxOrder : Nat} {x : Nat → Bool} {S : Nat} {fs : List Nat} {es : List StatEvent}
    (h : Told t W maxOrder x (8 * S) S fs es) (hne : 0 < S ↔ 0 < es.length) {lb : LB}
    (hlb : 0 < S → lbPrev1 lb = some (val (seg x (S - 1) 8))) :
    Told t W maxOrder x (8 * S) (S + 1) fs (es ++ [.start lb]) := by
  have hf : (es ++ [StatEvent.start lb]).filterMap (eventInfo t) = es.filterMap (eventInfo t) := by
    rw [List.filterMap_append]
    exact List.append_nil _
  have hlen := h.len
  refine ⟨?_, by rw [hf]; exact h.infos, fun _ => ?_, ?_⟩
  · rw [List.countP_append, h.starts]; rfl
  · rw [since_start, hf, Nat.add_sub_cancel, List.drop_of_length_le (by rw [List.length_map, hlen])]
    rfl
  · rw [booked_append, hf, h.booked]
    dsimp only
    rw [Nat.add_sub_cancel]
    by_cases hS : 0 < S
    · obtain ⟨S, rfl⟩ : ∃ S', S = S' + 1 := ⟨S - 1, by omega⟩
      rw [if_pos (hne.mp hS), Nat.add_sub_cancel, List.range_succ, List.map_append, List.map_singleton, hlb hS,
        Option.getD_some, h.since hS, Nat.add_sub_cancel, List.take_of_length_le]
      rw [List.length_drop, List.length_map, hlen]
      omega
    · have : S = 0 := by omega
      subst this
      rw [if_neg (fun h => hS (hne.mpr h))]
      rfl

theorem told_bit {t : Tables} {W maxOrder : Nat} {x : Nat → Bool} {L S : Nat} {fs : List Nat} {es : List StatEvent}
    (h : Told t W maxOrder x L S fs es) (hS : 8 * S ≤ L + 8) {states : List CtxState} {p : Nat} (hp : fs[L]? = some p)
    (hi : eventInfo t (.bit (x L) states p) = some (bitInfo t W maxOrder (seg x 0 L) (x L) p)) :
    Told t W maxOrder x (L + 1) S fs (es ++ [.bit (x L) states p]) := by
  have hf : (es ++ [StatEvent.bit (x L) states p]).filterMap (eventInfo t) =
      es.filterMap (eventInfo t) ++ [bitInfo t W maxOrder (seg x 0 L) (x L) p] := by
    rw [List.filterMap_append, List.filterMap_cons, hi, List.filterMap_nil]
  have hc : (bitInfo t W maxOrder (seg x 0 L) (x L) p).cost = (StatEvent.bit (x L) states p).cost t := by
    rw [← Option.some.inj hi]
  have hlen := h.len
  refine ⟨?_, ?_, fun h0 => ?_, ?_⟩
  · rw [List.countP_append, h.starts]; rfl
  · rw [hf, h.infos, List.range_succ, List.map_append, List.map_singleton, List.getD_eq_getElem?_getD (i := L), hp,
      Option.getD_some]
  · rw [since_bit, h.since h0, hf, List.map_append, List.drop_append_of_le_length (by rw [List.length_map, hlen]; omega),
      List.sum_append, List.map_singleton, List.sum_singleton, hc]
  · rw [booked_append]
    dsimp only
    rw [List.append_nil, h.booked]
    apply List.map_congr_left
    intro k hk
    rw [List.mem_range] at hk
    rw [hf, List.map_append, List.drop_append_of_le_length (by rw [List.length_map, hlen]; omega),
      List.take_append_of_le_length (by rw [List.length_drop, List.length_map, hlen]; omega)]

/-! ## Bits and bytes -/

theorem seg_snoc (x : Nat → Bool) (n d : Nat) : seg x n (d + 1) = seg x n d ++ [x (8 * n + d)] := by
  unfold seg
  rw [List.range_succ, List.map_append, List.map_singleton]

theorem seg_join (x : Nat → Bool) (n d : Nat) : seg x 0 (8 * n) ++ seg x n d = seg x 0 (8 * n + d) := by
  induction d with
  | zero => simp [seg]
  | succ d ih =>
    rw [seg_snoc, ← List.append_assoc, ih, ← Nat.add_assoc, seg_snoc]
    simp

theorem seg_bytes (x : Nat → Bool) (n : Nat) : ((List.range n).map fun k => seg x k 8).flatten = seg x 0 (8 * n) := by
  induction n with
  | zero => rfl
  | succ n ih =>
    rw [List.range_succ, List.map_append, List.flatten_append, ih, List.map_singleton, List.flatten_singleton, seg_join]
    rfl

/-- the state of the byte cache within byte `n` after `j` bits -/
theorem lb_seg (x : Nat → Bool) (n : Nat) {j : Nat} (hj : j < 8) : LbOk (stateOf (seg x 0 (8 * n)) (seg x n j)) ∧
    lbUnfinished (stateOf (seg x 0 (8 * n)) (seg x n j)) = some (enc (seg x n j)) ∧
    lbPrev1 (stateOf (seg x 0 (8 * n)) (seg x n j)) = some (if n = 0 then 0 else val (seg x (n - 1) 8)) := by
  obtain ⟨h1, h2, h3⟩ := lb_ok (bytes := (List.range n).map fun k => seg x k 8) (ps := seg x n j) (by
    intro b hb
    obtain ⟨k, -, rfl⟩ := List.mem_map.mp hb
    simp) (by simpa using hj)
  rw [seg_bytes] at h1 h2 h3
  refine ⟨h1, h2, h3.trans ?_⟩
  unfold prevByte
  rw [List.length_map, List.length_range]
  by_cases h0 : n = 0
  · rw [if_neg (by omega), if_pos h0]
  · rw [if_pos (by omega), if_neg h0, List.getD_eq_getElem?_getD, List.getElem?_map, List.getElem?_range (by omega)]
    rfl

/-! ## Invariant -/

/-- in every phase -/
structure Always (t : Tables) (W maxOrder : Nat) (x : Nat → Bool) (L S : Nat) (fs : List Nat) (p : Predictor) : Prop where
  mo : p.maxOrder = maxOrder
  len : p.chain.length = maxOrder + 1
  told : ∃ es, EventsOk maxOrder es ∧ StatsAt t maxOrder es p.stats ∧ es.length ≤ L + S ∧ Told t W maxOrder x L S fs es

/-- without a pending prediction -/
structure Quiet (t : Tables) (mode : Mode) (p : Predictor) : Prop where
  final : p.final = none
  chain : ∀ o ∈ p.chain, OrderOk t none o
  fin : FinOk t mode none p.finalizer

structure IdleAt (t : Tables) (mode : Mode) (W maxOrder : Nat) (x : Nat → Bool) (L S : Nat) (fs : List Nat)
    (p : Predictor) : Prop where
  always : Always t W maxOrder x L S fs p
  quiet : Quiet t mode p
  pos : L = 8 * S
  preds : fs.length = L
  lb : p.lastBytes = idleOf (seg x 0 L)
  src : SrcAt t.luts x (fun _ _ => CostsOk) 0 W maxOrder L p.tree

structure ReadyAt (t : Tables) (mode : Mode) (W maxOrder : Nat) (x : Nat → Bool) (L S j : Nat) (fs : List Nat)
    (p : Predictor) : Prop where
  always : Always t W maxOrder x L S fs p
  quiet : Quiet t mode p
  pos : ∃ n, S = n + 1 ∧ L = 8 * n + j ∧ j < 8 ∧ p.lastBytes = stateOf (seg x 0 (8 * n)) (seg x n j) ∧
    SrcOk t.luts x (fun _ _ => CostsOk) 0 W maxOrder n j p.tree
  preds : fs.length = L

structure PendingAt (t : Tables) (mode : Mode) (W maxOrder : Nat) (x : Nat → Bool) (L S j : Nat) (fs : List Nat)
    (p : Predictor) : Prop where
  always : Always t W maxOrder x L S fs p
  pos : ∃ n, S = n + 1 ∧ L = 8 * n + j ∧ j < 8 ∧ p.lastBytes = stateOf (seg x 0 (8 * n)) (seg x n j) ∧
    SrcOk t.luts x (fun _ _ => CostsOk) 0 W maxOrder n j p.tree
  preds : fs.length = L + 1
  final : ∃ f, p.final = some f ∧ fs[L]? = some f ∧ 0 < f ∧ f < 2 ^ 23
  chain : ChainBusy t p.states p.chain
  fin : FinOk t mode (some (quantizeContexts p.states.length)) p.finalizer
  gather : WindowGather (fun _ _ => CostsOk) t.costs (L < 8 * W) maxOrder (windowed W (seg x 0 L)) p.states

/-- in a phase -/
def PhaseAt (t : Tables) (mode : Mode) (W maxOrder : Nat) (x : Nat → Bool) (L S : Nat) (fs : List Nat) :
    Phase → Predictor → Prop
  | .idle, p => IdleAt t mode W maxOrder x L S fs p
  | .ready j, p => ReadyAt t mode W maxOrder x L S j fs p
  | .pending j, p => PendingAt t mode W maxOrder x L S j fs p

section

variable {t : Tables} (ht : TablesOk t) {mode : Mode} {W maxOrder : Nat} (hW : W ≤ 2 ^ 31) (hW0 : 0 < W)
  (hM : maxOrder ≤ 8191) {x : Nat → Bool} {L S j : Nat} {fs : List Nat} {p : Predictor}

include ht hW hW0 hM

theorem predNew_at (mode : Mode) (x : Nat → Bool) :
    ∃ p, predNew t mode W maxOrder = some p ∧ IdleAt t mode W maxOrder x 0 0 [] p := by
  obtain ⟨s, e1, h1⟩ := srcNew_ok (x := x) (sh := 0) (maxOrder := maxOrder) hW hW0
  obtain ⟨os, e2, h2, h3⟩ := chainNew_ok ht maxOrder
  obtain ⟨f, e3, h4⟩ := finalizerNew_ok ht mode
  refine ⟨⟨lbNew, s, [], os, f, none, statsNew maxOrder, maxOrder⟩, by
    unfold predNew; rw [e1, ob_some, e2, ob_some, e3, ob_some], ?_⟩
  refine ⟨⟨rfl, h2, [], ⟨(fun e he => by cases he), (fun lb h => by cases h), (fun b ss q h => by cases h)⟩, new_at t maxOrder,
    Nat.le_refl _, told_new t W maxOrder x⟩, ⟨rfl, h3, h4⟩, rfl, rfl, rfl, Or.inl ⟨rfl, h1⟩⟩

theorem start_step (hn : L + S < 2 ^ 40) (h : IdleAt t mode W maxOrder x L S fs p) :
    ∃ p', predStart p = some p' ∧ ReadyAt t mode W maxOrder x L (S + 1) 0 fs p' := by
  obtain ⟨⟨h1, h2, es, h3, h4, h5, h6⟩, hq, rfl, hp, hlb, hs⟩ := h
  obtain ⟨s', e1, g1⟩ := src_ready hW hW0 hM hs
  unfold ready at e1
  rw [if_pos (by omega)] at e1
  have e1' : srcStart p.tree = some s' := e1
  rw [show 8 * S / 8 = S by omega, show 8 * S % 8 = 0 by omega] at g1
  obtain ⟨k1, k2, k3⟩ := lb_seg x S (j := 0) (by omega)
  have hseg0 : seg x S 0 = [] := rfl
  rw [hseg0] at k1 k2 k3
  have k2' : lbUnfinished (stateOf (seg x 0 (8 * S)) []) = some 1 := k2
  have hne : 0 < S ↔ 0 < es.length := by
    rw [← h6.starts]
    constructor
    · intro h; exact lt_of_lt_of_le h List.countP_le_length
    · intro h
      obtain ⟨a, l, rfl⟩ := List.exists_cons_of_ne_nil (List.ne_nil_of_length_pos h)
      rw [List.countP_cons, if_pos (h3.first a rfl)]
      omega
  have hev : EventsOk maxOrder (es ++ [.start (stateOf (seg x 0 (8 * S)) [])]) := by
    refine ⟨?_, ?_, ?_⟩
    · intro e he
      cases es with
      | nil => obtain rfl := Option.some.inj he; rfl
      | cons a es => exact h3.first e he
    · intro lb hl
      rcases List.mem_append.mp hl with hl | hl
      · exact h3.start lb hl
      · rw [List.mem_singleton, StatEvent.start.injEq] at hl
        subst hl
        refine ⟨k2', _, k3, ?_⟩
        split
        · omega
        · have := val_lt (seg x (S - 1) 8)
          simpa using this
    · intro b ss q hb
      rcases List.mem_append.mp hb with hb | hb
      · exact h3.bit b ss q hb
      · rw [List.mem_singleton] at hb; cases hb
  obtain ⟨st, e2, g2⟩ := start_at ht hev (by omega) h4
  unfold predStart
  rw [check_pos hq.final, ob_some, hlb, lbStart_state, ob_some, e1', ob_some, e2, ob_some]
  refine ⟨_, rfl, ⟨h1, h2, _, hev, g2, by rw [List.length_append, List.length_singleton]; omega, ?_⟩, ⟨hq.final, hq.chain, hq.fin⟩,
    ⟨S, rfl, rfl, by omega, rfl, g1⟩, hp⟩
  refine told_start h6 hne fun h0 => ?_
  rw [k3, if_neg (by omega)]

theorem predict_step (h : ReadyAt t mode W maxOrder x L S j fs p) :
    ∃ f p', predPredict t mode p = some (f, p') ∧ 0 < f ∧ f < 2 ^ 23 ∧
      PendingAt t mode W maxOrder x L S j (fs ++ [f]) p' := by
  obtain ⟨⟨h1, h2, es, h3, h4, h5, h6⟩, hq, ⟨n, rfl, hL, hj, hlb, hs⟩, hp⟩ := h
  obtain ⟨states, e1, g1, -⟩ := srcGather_ok hM hj hs (fun _ _ _ _ => trivial)
  have hdiv : L / 8 = n := by omega
  have g1' : WindowGather (fun _ _ => CostsOk) t.costs (L < 8 * W) maxOrder (windowed W (seg x 0 L)) states := by
    have hex : (n + 1 - W = 0) = (L < 8 * W) := by rw [eq_iff_iff]; omega
    rw [windowed_seg, hdiv, ← hex, hL]
    exact g1
  have hlen : states.length ≤ maxOrder + 1 := by
    by_contra hc
    have := (g1'.lt_length (maxOrder + 1)).mp (by omega)
    omega
  have hu : ∀ s ∈ states, Usable s := by
    intro s hs
    obtain ⟨i, hi, rfl⟩ := List.getElem_of_mem hs
    exact (usable_of ht (g1'.get (List.getElem?_eq_getElem hi)).2.2).1
  obtain ⟨k1, k2, -⟩ := lb_seg x n hj
  have henc : enc (seg x n j) < 256 := by
    have := enc_lt (seg x n j)
    have h2 : 2 ^ ((seg x n j).length + 1) ≤ 2 ^ 8 := Nat.pow_le_pow_right (by omega) (by simpa using hj)
    omega
  obtain ⟨r, os', e2, g2, g3, g4⟩ := chainPredict_ok ht henc hq.chain (by omega) hu
    (nodesFirst_of fun i s s' h1 h2 h3 => g1'.antitone h1 h2 h3)
  obtain ⟨f, f', e3, g5, g6, g7⟩ := finalizerRefine_ok ht g2 k1 hq.fin states.length
  refine ⟨f, { p with states := states, chain := os', finalizer := f', final := some f }, ?_, g5, g6, ?_⟩
  · unfold predPredict
    rw [check_pos hq.final, ob_some, e1, ob_some, check_pos (by omega), ob_some, hlb, k2, ob_some, e2, ob_some]
    dsimp only
    rw [e3, ob_some]
  · refine ⟨⟨h1, by rw [← h2]; exact g4, es, h3, h4, h5, told_append h6 (by omega) f⟩, ⟨n, rfl, hL, hj, hlb, hs⟩,
      by rw [List.length_append, List.length_singleton]; omega, ⟨f, rfl, ?_, g5, g6⟩, g3, g7, g1'⟩
    rw [← hp, List.getElem?_append_right (by omega), Nat.sub_self]
    rfl

theorem update_step (hn : L + S < 2 ^ 40) (h : PendingAt t mode W maxOrder x L S j fs p) :
    ∃ p', predUpdate t mode p (x L) = some p' ∧
      PhaseAt t mode W maxOrder x (L + 1) S fs (if j = 7 then .idle else .ready (j + 1)) p' := by
  obtain ⟨⟨h1, h2, es, h3, h4, h5, h6⟩, ⟨n, rfl, hL, hj, hlb, hs⟩, hp, ⟨f, hf, hfl, hf0, hf1⟩, hc, hfin, hg⟩ := h
  have hlen : p.states.length ≤ maxOrder + 1 := by
    by_contra hc
    have := (hg.lt_length (maxOrder + 1)).mp (by omega)
    omega
  have hu : ∀ s ∈ p.states, Usable s ∧ s.occurrenceCount < 1024 := by
    intro s hs
    obtain ⟨i, hi, rfl⟩ := List.getElem_of_mem hs
    exact usable_of ht (hg.get (List.getElem?_eq_getElem hi)).2.2
  obtain ⟨k1, k2, -⟩ := lb_seg x n hj
  obtain ⟨cs, os', e1, g1, g2, g3, g4⟩ := chainUpdate_ok ht (x L) p.states p.chain (fun s hs => (hu s hs).1) hc
  have hdiv : L / 8 = n := by omega
  obtain ⟨s', e2, g5⟩ := srcProcess_ok ht.luts costs_exist hW hM hj hs (allowed_const g4) (fun k => by
    rw [g3, hg.costs_line_up k, windowed_seg, hdiv, ← hL])
  rw [← hL] at e2
  obtain ⟨f', e3, g6⟩ := finalizerUpdate_ok ht k1 hfin (x L)
  have hne : es ≠ [] := by
    rintro rfl
    have := h6.starts
    simp at this
  have hev : EventsOk maxOrder (es ++ [.bit (x L) p.states f]) := by
    refine ⟨?_, ?_, ?_⟩
    · intro e he
      cases es with
      | nil => exact (hne rfl).elim
      | cons a es => exact h3.first e he
    · intro lb hl
      rcases List.mem_append.mp hl with hl | hl
      · exact h3.start lb hl
      · rw [List.mem_singleton] at hl; cases hl
    · intro b ss q hb
      rcases List.mem_append.mp hb with hb | hb
      · exact h3.bit b ss q hb
      · rw [List.mem_singleton, StatEvent.bit.injEq] at hb
        obtain ⟨rfl, rfl, rfl⟩ := hb
        exact ⟨hlen, fun s hs => (hu s hs).2, hf0, hf1⟩
  obtain ⟨st, e4, g7⟩ := bit_at ht hM hev (by omega) h4
  have e5 : lbNext p.lastBytes (x L) = some (stateOf (seg x 0 (8 * n)) (seg x n (j + 1))) := by
    rw [hlb, lbNext_state _ _ (by simpa using hj), seg_snoc, hL]
  refine ⟨⟨stateOf (seg x 0 (8 * n)) (seg x n (j + 1)), s', p.states, os', f', none, st, p.maxOrder⟩, ?_, ?_⟩
  · unfold predUpdate
    rw [hf, ob_some, e1, ob_some]
    dsimp only
    rw [e2, ob_some, hlb, e3, ob_some, e4, ob_some, ← hlb, e5, ob_some]
  · have htold := told_bit h6 (by omega) (states := p.states) hfl (info_of hg (x L) f)
    have hal : Always t W maxOrder x (L + 1) (n + 1) fs 
        ⟨stateOf (seg x 0 (8 * n)) (seg x n (j + 1)), s', p.states, os', f', none, st, p.maxOrder⟩ :=
      ⟨h1, by rw [← h2]; exact g2, _, hev, g7, by rw [List.length_append, List.length_singleton]; omega, htold⟩
    by_cases hj7 : j = 7
    · rw [if_pos hj7]
      subst hj7
      refine ⟨hal, ⟨rfl, g1, g6⟩, by omega, hp, ?_, Or.inr ⟨n, 8, by omega, by omega, by omega, g5⟩⟩
      show stateOf _ _ = _
      rw [stateOf_full _ _ (by simp), seg_join, hL]
    · rw [if_neg hj7]
      exact ⟨hal, ⟨rfl, g1, g6⟩, ⟨n, rfl, by omega, by omega, rfl, g5⟩, hp⟩

end

end Verif.Pred
