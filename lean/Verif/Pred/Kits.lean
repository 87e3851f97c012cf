import Verif.Pred.Tables
import Verif.Util.Props

/-! # Estimators and mixers selected by an index -/

namespace Verif.Pred

open Verif Verif.Fixed Verif.Lut Verif.Mix Verif.Util Verif.History Verif.Tree

attribute [local irreducible] squashTable stretchTable

/-! ## Estimators -/

/-- a reachable estimator -/
def EstOk (e : Nat) : Prop := ∃ p c, e = Est.pack p c ∧ Est.Ok p c

theorem EstOk.prediction {e : Nat} (h : EstOk e) : 0 < Est.decPrediction e ∧ Est.decPrediction e < 2 ^ 31 := by
  obtain ⟨p, c, rfl, h⟩ := h
  have hl := h.lt
  rw [Est.decPrediction_pack hl.2 (by have := h.1; omega)]
  omega

theorem EstOk.update {t : Tables} (ht : TablesOk t) {e : Nat} (h : EstOk e) (b : Bool) :
    ∃ e', Est.decUpdate t.rates e b = some e' ∧ EstOk e' := by
  obtain ⟨p, c, rfl, h⟩ := h
  obtain ⟨p', h1, h2, -⟩ := Est.decUpdate_step (Est.isDefault_of ht.rates) h b
  exact ⟨_, h1, p', _, rfl, h2⟩

/-- dimensions whose product is an array size -/
structure DimsOk (dims : List Nat) : Prop where
  pos : ∀ l ∈ dims, 0 < l
  lt : dims.prod < 2 ^ 64

theorem ready_size {dims : List Nat} (hd : DimsOk dims) {x : Idx} (h : Ready dims x) : idxSize x = some dims.prod :=
  (C21_size h).2 hd.pos hd.lt

/-- a kit of estimators -/
structure EstKitOk (dims : List Nat) (busy : Bool) (k : EstKit) : Prop where
  len : k.ests.length = dims.prod
  ests : ∀ e ∈ k.ests, EstOk e
  idx : Ready dims k.idx
  idle : busy = false → k.index = none
  busy : busy = true → ∃ i, k.index = some i ∧ i < k.ests.length

theorem estKit_new {dims : List Nat} (hd : DimsOk dims) {n : Nat} (hn : dims.length = n) :
    ∃ x k, idxNew n dims = some x ∧ estKitNew x = some k ∧ EstKitOk dims false k := by
  obtain ⟨x, h1, h2⟩ := (C21_new n dims).1 hn
  refine ⟨x, ⟨List.replicate dims.prod (Est.pack (2 ^ 21) 0), x, none⟩, h1, ?_, ?_⟩
  · unfold estKitNew
    rw [Est.decNew_eq, ob_some, ready_size hd h2, ob_some]
  · refine ⟨List.length_replicate, ?_, h2, fun _ => rfl, fun h => by cases h⟩
    intro e he
    obtain rfl := List.eq_of_mem_replicate he
    exact ⟨_, _, rfl, Est.ok_new⟩

theorem estKit_predict {t : Tables} (ht : TablesOk t) {dims subs : List Nat} (hd : DimsOk dims) {k : EstKit}
    (h : EstKitOk dims false k) (hv : Valid dims subs) :
    ∃ p k', estKitPredict t k subs = some (p, k') ∧ ProbOk p ∧ EstKitOk dims true k' := by
  obtain ⟨y, h1, h2⟩ := C21_query h.idx (ready_size hd h.idx) hv
  have hlt : rank dims subs < k.ests.length := by rw [h.len]; exact rank_lt hv
  have he := h.ests _ (List.getElem_mem hlt)
  obtain ⟨p1, p2⟩ := he.prediction
  obtain ⟨st, s1, s2⟩ := stretch_ok ht p1 p2
  refine ⟨(Est.decPrediction k.ests[rank dims subs], st), { k with idx := y, index := some (rank dims subs) }, ?_,
    ⟨p1, p2, s2⟩, h.len, h.ests, h2, (fun e => by cases e), fun _ => ⟨_, rfl, hlt⟩⟩
  unfold estKitPredict
  rw [check_pos (h.idle rfl), ob_some, h1, ob_some]
  dsimp only
  rw [List.getElem?_eq_getElem hlt, ob_some, s1, ob_some]

theorem estKit_update {t : Tables} (ht : TablesOk t) {dims : List Nat} {k : EstKit} (h : EstKitOk dims true k) (b : Bool) :
    ∃ k', estKitUpdate t k b = some k' ∧ EstKitOk dims false k' := by
  obtain ⟨i, h1, h2⟩ := h.busy rfl
  obtain ⟨e, e1, e2⟩ := (h.ests _ (List.getElem_mem h2)).update ht b
  refine ⟨{ k with ests := k.ests.set i e, index := none }, ?_, ?_, ?_, h.idx, fun _ => rfl, fun h => by cases h⟩
  · unfold estKitUpdate
    rw [h1, ob_some, List.getElem?_eq_getElem h2, ob_some, e1, ob_some]
  · dsimp only; rw [List.length_set]; exact h.len
  · intro x hx
    rcases List.mem_or_eq_of_mem_set hx with hx | rfl
    · exact h.ests x hx
    · exact e2

/-! ## Mixers -/

/-- a mixer waiting for inputs -/
def MixIdle (n limit : Nat) (m : Mixer) : Prop := ∃ idx ≤ limit, Inv n m [] idx

/-- a mixer with all inputs -/
def MixBusy (n limit : Nat) (m : Mixer) : Prop := ∃ S idx, idx ≤ limit ∧ Inv n m S idx ∧ ∀ i < n, i ∈ S

/-- a mixed probability -/
structure MixedOk (t : Tables) (r : Prob) : Prop where
  st : StOk r.2
  eq : squash t.squash r.2 = some r.1
  low : 2 ^ 14 ≤ r.1
  high : r.1 ≤ 2 ^ 31 - 2 ^ 14

theorem MixedOk.prob {t : Tables} {r : Prob} (h : MixedOk t r) : ProbOk r :=
  ⟨by have := h.low; omega, by have := h.high; omega, h.st⟩

/-- an input of a mixer: number, squashed and stretched probability -/
abbrev InputsOk (n : Nat) (inputs : List (Nat × Nat × Int)) : Prop := ∀ x ∈ inputs, x.1 < n ∧ ProbOk x.2

theorem setInputs_ok {n idx : Nat} : ∀ (inputs : List (Nat × Nat × Int)) {m : Mixer} {S : List Nat},
    Inv n m S idx → InputsOk n inputs → (inputs.map (·.1)).Nodup →
    (∀ x ∈ inputs, x.1 ∉ S) → ∃ m' S', setInputs m inputs = some m' ∧ Inv n m' S' idx ∧
      ∀ i, i ∈ S' ↔ i ∈ S ∨ i ∈ inputs.map (·.1) := by
  intro inputs
  induction inputs with
  | nil => intro m S h _ _ _; exact ⟨m, S, rfl, h, fun i => by simp⟩
  | cons x inputs ih =>
    intro m S h hx hn hS
    obtain ⟨i, sq, st⟩ := x
    obtain ⟨x1, x2⟩ := hx (i, sq, st) (by simp)
    dsimp only at x1
    have hi : i < m.inputs.length := by rw [h.len]; exact x1
    have e := (setInput_eq h.mask (i := i) sq st).2 hi (hS (i, sq, st) (by simp))
    rw [List.map_cons, List.nodup_cons] at hn
    obtain ⟨m', S', f1, f2, f3⟩ := ih (setTo_inv h hi x2.lt x2.st) (fun y hy => hx y (by simp [hy])) hn.2
      (by
        intro y hy hm
        rcases List.mem_cons.mp hm with e | hm
        · exact hn.1 (List.mem_map.mpr ⟨y, hy, e⟩)
        · exact hS y (by simp [hy]) hm)
    refine ⟨m', S', ?_, f2, fun j => ?_⟩
    · rw [setInputs, e, ob_some, f1]
    · rw [f3, List.mem_cons, List.map_cons, List.mem_cons]
      tauto

theorem mixAll_ok {t : Tables} (ht : TablesOk t) {n limit : Nat} {m : Mixer} (h : MixBusy n limit m) :
    ∃ r, mixAll t.squash m = some r ∧ MixedOk t r := by
  obtain ⟨S, idx, -, h, hS⟩ := h
  obtain ⟨r, hq, -, r1, r2⟩ := squashOk' ht _ (mixOut_ok m.inputs)
  refine ⟨(r, mixOut m.inputs), ?_, mixOut_ok _, hq, r1, r2⟩
  rw [mixAll_eq t.squash h.ok, if_pos ((mask_full h.mask).mpr (fun i hi => hS i (by rw [← h.len]; exact hi))), hq]
  rfl

theorem update_ok {t : Tables} (ht : TablesOk t) {n limit : Nat} (hl : limit ≤ 1000) {m : Mixer}
    (h : MixBusy n limit m) (bit : Bool) {sq : Nat} (h0 : 0 < sq) (h1 : sq < 2 ^ 31) :
    ∃ m', updateAndReset t.rates m bit sq limit = some m' ∧ MixIdle n limit m' := by
  obtain ⟨S, idx, hidx, h, hS⟩ := h
  obtain ⟨g1, g2⟩ := rates_get ht.rates (i := m.index) h.ok.index
  refine ⟨updated m (2 ^ 31 / (m.index + 2)) bit sq limit, ?_, min limit (idx + 1), by omega,
    updated_inv h _ bit sq hl⟩
  rw [update_eq bit h.ok g1 g2 h0 h1,
    if_pos ⟨(mask_full h.mask).mpr (fun i hi => hS i (by rw [← h.len]; exact hi)), by rw [h.index]; exact hidx, hl⟩]

/-- a kit of mixers; the index of the busy mixer, if any -/
structure MixKitOk (t : Tables) (n limit : Nat) (dims : List Nat) (busy : Option Nat) (k : MixKit) : Prop where
  len : k.mixers.length = dims.prod
  mixers : ∀ i m, k.mixers[i]? = some m → if busy = some i then MixBusy n limit m else MixIdle n limit m
  idx : Ready dims k.idx
  index : k.index = busy
  result : busy = none → k.result = none
  mixed : ∀ i, busy = some i → i < k.mixers.length ∧ ∃ r, k.result = some r ∧ MixedOk t r

theorem mixKit_new {t : Tables} {dims : List Nat} (hd : DimsOk dims) {N : Nat} (hN : dims.length = N) {n limit : Nat}
    {m : Mixer} (hm : MixIdle n limit m) :
    ∃ x k, idxNew N dims = some x ∧ mixKitNew (some m) x = some k ∧ MixKitOk t n limit dims none k := by
  obtain ⟨x, h1, h2⟩ := (C21_new N dims).1 hN
  refine ⟨x, ⟨List.replicate dims.prod m, x, none, none⟩, h1, ?_, ?_⟩
  · unfold mixKitNew
    rw [ready_size hd h2, ob_some, ob_some]
  · refine ⟨List.length_replicate, ?_, h2, rfl, fun _ => rfl, fun i h => by cases h⟩
    intro i m' hi
    rw [if_neg (by simp)]
    obtain rfl := List.eq_of_mem_replicate (List.mem_of_getElem? hi)
    exact hm

theorem idxSubs_append : ∀ (a b : List Nat) (x : Idx), idxSubs x (a ++ b) = (idxSubs x a >>= fun y => idxSubs y b) := by
  intro a
  induction a with
  | nil => intro b x; rfl
  | cons v a ih =>
    intro b x
    rw [List.cons_append, idxSubs, idxSubs]
    cases idxSub x v with
    | none => rfl
    | some y => rw [ob_some, ob_some, ih]

/-- a query in two parts -/
theorem query_split {dims s1 s2 : List Nat} (hd : DimsOk dims) {x : Idx} (h : Ready dims x) (hv : Valid dims (s1 ++ s2)) :
    ∃ y z, idxSubs x s1 = some y ∧ idxQuery y s2 = some (rank dims (s1 ++ s2), z) ∧ Ready dims z := by
  obtain ⟨z, h1, h2⟩ := C21_query h (ready_size hd h) hv
  unfold idxQuery at h1
  rw [idxSubs_append] at h1
  cases hs : idxSubs x s1 with
  | none => rw [hs] at h1; cases h1
  | some y =>
    rw [hs, ob_some] at h1
    exact ⟨y, z, rfl, h1, h2⟩

theorem mixKit_predict {t : Tables} (ht : TablesOk t) {n limit : Nat} {dims s1 s2 : List Nat} (hd : DimsOk dims)
    {k : MixKit} (h : MixKitOk t n limit dims none k) (hv : Valid dims (s1 ++ s2)) {inputs : List (Nat × Nat × Int)}
    (hi : InputsOk n inputs) (hp : (inputs.map (·.1)).Nodup) (hall : ∀ i < n, i ∈ inputs.map (·.1)) :
    ∃ k1 r k2, mixKitPre k s1 = some k1 ∧ mixKitPredict t k1 s2 inputs = some (r, k2) ∧ MixedOk t r ∧
      MixKitOk t n limit dims (some (rank dims (s1 ++ s2))) k2 := by
  obtain ⟨y, z, q1, q2, q3⟩ := query_split hd h.idx hv
  have hlt : rank dims (s1 ++ s2) < k.mixers.length := by rw [h.len]; exact rank_lt hv
  have hg := List.getElem?_eq_getElem hlt
  generalize rank dims (s1 ++ s2) = i at *
  have hm := h.mixers i _ hg
  rw [if_neg (by simp)] at hm
  obtain ⟨idx, i1, i2⟩ := hm
  obtain ⟨m', S', f1, f2, f3⟩ := setInputs_ok inputs i2 hi hp (by simp)
  have hb : MixBusy n limit m' := ⟨S', idx, i1, f2, fun j hj => (f3 j).mpr (Or.inr (hall j hj))⟩
  obtain ⟨r, r1, r2⟩ := mixAll_ok ht hb
  refine ⟨{ k with idx := y }, r, { mixers := k.mixers.set i m', idx := z, index := some i, result := some r }, ?_, ?_, r2,
    ?_, ?_, q3, rfl, (fun e => by cases e), ?_⟩
  · unfold mixKitPre
    rw [check_pos (h.result rfl), ob_some, check_pos h.index, ob_some, q1, ob_some]
  · unfold mixKitPredict
    dsimp only
    rw [check_pos (h.result rfl), ob_some, check_pos h.index, ob_some, q2, ob_some]
    dsimp only
    rw [hg, ob_some, f1, ob_some, r1, ob_some]
  · dsimp only; rw [List.length_set]; exact h.len
  · intro j m hj
    dsimp only at hj
    rw [List.getElem?_set] at hj
    by_cases e : i = j
    · subst e
      rw [if_pos rfl, if_pos hlt] at hj
      obtain rfl := Option.some.inj hj
      rw [if_pos rfl]
      exact hb
    · rw [if_neg e] at hj
      rw [if_neg (by simpa using e)]
      have := h.mixers j m hj
      rwa [if_neg (by simp)] at this
  · intro j hj
    obtain rfl := Option.some.inj hj
    dsimp only
    rw [List.length_set]
    exact ⟨hlt, r, rfl, r2⟩

theorem mixKit_update {t : Tables} (ht : TablesOk t) {n limit : Nat} (hl : limit ≤ 1000) {dims : List Nat}
    {k : MixKit} {i : Nat} (h : MixKitOk t n limit dims (some i) k) (bit : Bool) :
    ∃ k', mixKitUpdate t k bit limit = some k' ∧ MixKitOk t n limit dims none k' := by
  obtain ⟨hlt, r, r1, r2⟩ := h.mixed i rfl
  have hg := List.getElem?_eq_getElem hlt
  have hm := h.mixers i _ hg
  rw [if_pos rfl] at hm
  obtain ⟨m', f1, f2⟩ := update_ok ht hl hm bit r2.prob.pos r2.prob.lt
  refine ⟨{ k with mixers := k.mixers.set i m', index := none, result := none }, ?_, ?_, ?_, h.idx, rfl, fun _ => rfl,
    fun j hj => by cases hj⟩
  · unfold mixKitUpdate
    rw [h.index, ob_some, r1, ob_some, hg, ob_some, f1, ob_some]
  · dsimp only; rw [List.length_set]; exact h.len
  · intro j m hj
    rw [if_neg (by simp)]
    dsimp only at hj
    rw [List.getElem?_set] at hj
    by_cases e : i = j
    · subst e
      rw [if_pos rfl, if_pos hlt] at hj
      obtain rfl := Option.some.inj hj
      exact f2
    · rw [if_neg e] at hj
      have := h.mixers j m hj
      rwa [if_neg (by simpa using e)] at this

/-- the inputs of the busy mixer can be read back -/
theorem mixKit_current {t : Tables} {n limit : Nat} {dims : List Nat} {k : MixKit} {i : Nat}
    (h : MixKitOk t n limit dims (some i) k) :
    ∃ m, currentMixer k = some m ∧ ∀ j < n, ∃ sq, predictionSq m j = some sq ∧ sq < 2 ^ 31 := by
  obtain ⟨hlt, -⟩ := h.mixed i rfl
  have hg := List.getElem?_eq_getElem hlt
  have hm := h.mixers i _ hg
  rw [if_pos rfl] at hm
  obtain ⟨S, idx, -, h2, h3⟩ := hm
  refine ⟨_, by unfold currentMixer; rw [h.index, ob_some, hg], fun j hj => ?_⟩
  obtain ⟨hj', e, -⟩ := (read_eq h2 j).2 (h3 j hj)
  exact ⟨_, e, h2.sq _ (List.getElem_mem hj')⟩

end Verif.Pred
