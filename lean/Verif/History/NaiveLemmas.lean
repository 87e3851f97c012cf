import Verif.History.CtxLemmas
import Verif.History.Bridge

/-!
# Lemmas on occurrences and on the naive history source
-/

namespace Verif.History

open Verif Verif.Window

/-! ## occurrences -/

theorem substr_eq_iff {hist : List Bool} {a b L : Nat} (ha : a + L ≤ hist.length) (hb : b + L = hist.length) :
    (hist.drop a).take L = hist.drop b ↔ ∀ t < L, hist.getD (a + t) false = hist.getD (b + t) false := by
  constructor
  · intro h t ht
    have := congrArg (fun l => l.getD t false) h
    simp only [List.getD_eq_getElem?_getD, List.getElem?_take, List.getElem?_drop, if_pos ht] at this
    rw [List.getD_eq_getElem?_getD, List.getD_eq_getElem?_getD]
    exact this
  · intro h
    apply List.ext_getElem
    · rw [List.length_take, List.length_drop, List.length_drop]; omega
    · intro t h1 h2
      rw [List.length_take, List.length_drop] at h1
      have := h t (by omega)
      rw [List.getD_eq_getElem?_getD, List.getD_eq_getElem?_getD, List.getElem?_eq_getElem (by omega),
        List.getElem?_eq_getElem (by omega)] at this
      rw [List.getElem_take, List.getElem_drop, List.getElem_drop]
      exact this

/-- occurrences in terms of single bits -/
theorem mem_occs {hist : List Bool} {k i : Nat} : i ∈ occs hist k ↔ i + k < hist.length / 8 ∧
    ∀ t < ctxLen hist k, hist.getD (8 * i + t) false = hist.getD (8 * (hist.length / 8 - k) + t) false := by
  unfold occs
  rw [List.mem_filter, List.mem_range, decide_eq_true_iff]
  constructor
  · rintro ⟨h1, h2⟩
    refine ⟨by omega, ?_⟩
    unfold context at h2
    have hL : ctxLen hist k = 8 * k + hist.length % 8 := rfl
    rw [substr_eq_iff (by omega) (by omega)] at h2
    intro t ht
    rw [h2 t ht]
    congr 2
    omega
  · rintro ⟨h1, h2⟩
    refine ⟨by omega, ?_⟩
    unfold context
    have hL : ctxLen hist k = 8 * k + hist.length % 8 := rfl
    rw [substr_eq_iff (by omega) (by omega)]
    intro t ht
    rw [h2 t ht]
    congr 2
    omega

/-- an occurrence of a longer context contains one of the shorter context, followed by the same bit -/
theorem occs_succ {hist : List Bool} {k i : Nat} (h : i ∈ occs hist (k + 1)) :
    i + 1 ∈ occs hist k ∧ nextBit hist k (i + 1) = nextBit hist (k + 1) i := by
  rw [mem_occs] at h
  obtain ⟨h1, h2⟩ := h
  have hL : ctxLen hist (k + 1) = ctxLen hist k + 8 := by unfold ctxLen; omega
  constructor
  · rw [mem_occs]
    refine ⟨by omega, ?_⟩
    intro t ht
    have := h2 (t + 8) (by omega)
    rw [show 8 * i + (t + 8) = 8 * (i + 1) + t by omega,
      show 8 * (hist.length / 8 - (k + 1)) + (t + 8) = 8 * (hist.length / 8 - k) + t by omega] at this
    exact this
  · unfold nextBit
    rw [hL, show 8 * (i + 1) + ctxLen hist k = 8 * i + (ctxLen hist k + 8) by omega]

theorem occs_empty_succ {hist : List Bool} {k : Nat} (h : occs hist k = []) : occs hist (k + 1) = [] := by
  apply List.eq_nil_iff_forall_not_mem.mpr
  intro i hi
  have := (occs_succ hi).1
  rw [h] at this
  simp at this

theorem occs_empty_le {hist : List Bool} {k k' : Nat} (hk : k ≤ k') (h : occs hist k = []) :
    occs hist k' = [] := by
  induction k' with
  | zero => rw [show 0 = k by omega]; exact h
  | succ k' ih =>
    by_cases he : k = k' + 1
    · rw [← he]; exact h
    · exact occs_empty_succ (ih (by omega))

theorem occs_lt {hist : List Bool} {k : Nat} (h : occs hist k ≠ []) : k < hist.length / 8 := by
  obtain ⟨i, hi⟩ := List.exists_mem_of_ne_nil _ h
  rw [mem_occs] at hi
  omega

/-! ## comparison in the window -/

theorem match_ok {w : Win} {hist : List Bool} {n j : Nat} (h : Holds w hist (n + 1))
    (hl : hist.length = 8 * n + j) (hj : j < 8) {k i : Nat} (hik : i + k < n) :
    comparePrefix w (posOf w i) (posOf w (n - k)) (7 - j) k = some (decide (i ∈ occs hist k)) ∧
    comparePrefix w (posOf w (n - k)) (posOf w i) (7 - j) k = some (decide (i ∈ occs hist k)) := by
  have hsz := h.size
  have key : (∀ t < 8 * k + (7 - (7 - j)),
      bitAt (contents w) (8 * i + t) = bitAt (contents w) (8 * (n - k) + t)) ↔ i ∈ occs hist k := by
    have hL : ctxLen hist k = 8 * k + j := by unfold ctxLen; omega
    rw [mem_occs, hL, show hist.length / 8 = n by omega, show 7 - (7 - j) = j by omega]
    constructor
    · intro hh
      refine ⟨by omega, fun t ht => ?_⟩
      rw [← h.bits _ (by omega), ← h.bits _ (by omega)]
      exact hh t ht
    · rintro ⟨-, hh⟩ t ht
      rw [h.bits _ (by omega), h.bits _ (by omega)]
      exact hh t ht
  constructor
  · obtain ⟨r, e, hr⟩ := C25_compare h.inv (a := i) (b := n - k) (n := k) (bi := 7 - j) (by omega) (by omega)
      (by omega)
    rw [prefixEq_bits h.inv (by omega) (by omega) (by omega), key] at hr
    rw [e]
    congr 1
    cases r <;> simp_all
  · obtain ⟨r, e, hr⟩ := C25_compare h.inv (a := n - k) (b := i) (n := k) (bi := 7 - j) (by omega) (by omega)
      (by omega)
    rw [prefixEq_bits h.inv (by omega) (by omega) (by omega)] at hr
    have hr' : r = true ↔ i ∈ occs hist k := by
      rw [hr, ← key]
      constructor <;> intro hh t ht <;> exact (hh t ht).symm
    rw [e]
    congr 1
    cases r <;> simp_all

/-! ## the naive source -/

/-- a source ready for the next bit -/
structure NaiveReady (s : Naive) (hist : List Bool) (m maxOrder : Nat) : Prop where
  holds : Holds s.input hist (hist.length / 8 + 1)
  start : s.input.start = 0
  max : s.input.max = m
  order : s.maxOrder = maxOrder
  bit : s.bitIndex = 7 - ((hist.length % 8 : Nat) : Int)

/-- a source after a number of bits -/
structure NaiveInv (s : Naive) (hist : List Bool) (m maxOrder : Nat) : Prop where
  holds : Holds s.input hist ((hist.length + 7) / 8)
  start : s.input.start = 0
  max : s.input.max = m
  order : s.maxOrder = maxOrder
  bit : s.bitIndex = if hist.length % 8 = 0 then (-1 : Int) else 7 - ((hist.length % 8 : Nat) : Int)

theorem naive_new {m : Nat} (maxOrder : Nat) (h0 : 0 < m) (hm : m < 2 ^ 63) :
    ∃ s, naiveNew m maxOrder = some s ∧ NaiveInv s [] m maxOrder := by
  obtain ⟨w, e, h, hmax, hst⟩ := Holds.new hm h0
  unfold naiveNew
  rw [e, ob_some]
  exact ⟨_, rfl, h, hst, hmax, rfl, rfl⟩

theorem naive_ready (luts : Luts) {s : Naive} {hist : List Bool} {m maxOrder : Nat}
    (h : NaiveInv s hist m maxOrder)
    (hn : hist.length / 8 < m) :
    ∃ s', ready (naiveSource luts) hist.length s = some s' ∧ NaiveReady s' hist m maxOrder := by
  unfold ready
  have hb := h.bit
  have hh := h.holds
  by_cases hj : hist.length % 8 = 0
  · rw [if_pos hj] at hb ⊢
    rw [show (hist.length + 7) / 8 = hist.length / 8 by omega] at hh
    obtain ⟨w', e, h', hmax, hst, -⟩ := hh.advance (by rw [h.max]; exact hn)
    change ∃ s', naiveStart s = some s' ∧ _
    unfold naiveStart
    rw [check_pos hb, ob_some, check_pos (by rw [h.max, hh.size]; omega), ob_some, e, ob_some]
    refine ⟨_, rfl, h', ?_, ?_, h.order, ?_⟩
    · dsimp only; rw [hst]; exact h.start
    · dsimp only; rw [hmax]; exact h.max
    · dsimp only; omega
  · rw [if_neg hj] at hb ⊢
    rw [show (hist.length + 7) / 8 = hist.length / 8 + 1 by omega] at hh
    exact ⟨s, rfl, hh, h.start, h.max, h.order, hb⟩

theorem i32AsUsize_bit {hist : List Bool} {z : Int} (h : z = 7 - (hist.length % 8 : Nat)) :
    i32AsUsize z = 7 - hist.length % 8 := by
  unfold i32AsUsize
  omega

theorem naive_process {s : Naive} {hist : List Bool} {m maxOrder : Nat}
    (h : NaiveReady s hist m maxOrder) (b : Bool)
    {costs : List Costs} (hc : ∀ c ∈ costs, c = costsDefault) :
    ∃ s', naiveProcess s b costs = some s' ∧ NaiveInv s' (hist ++ [b]) m maxOrder := by
  unfold naiveProcess
  obtain ⟨w', e, h', hmax, hst⟩ := h.holds.setBit (j := hist.length % 8) (by omega) (by omega) b
  rw [check_pos hc, ob_some, i32AsUsize_bit h.bit, e, ob_some]
  refine ⟨_, rfl, ?_, ?_, ?_, h.order, ?_⟩
  · rw [List.length_append, List.length_singleton, show (hist.length + 1 + 7) / 8 = hist.length / 8 + 1 by omega]
    exact h'
  · dsimp only; rw [hst]; exact h.start
  · dsimp only; rw [hmax]; exact h.max
  · dsimp only
    rw [h.bit, List.length_append, List.length_singleton]
    split <;> omega

theorem posOf_zero {w : Win} (h : Inv w) (hst : w.start = 0) {a : Nat} (ha : a < w.size) : posOf w a = a := by
  have h2 := h.size_le
  rw [posOf_eq h (by omega), hst, if_pos (by omega), Nat.zero_add]

/-- the observations made by the scan of order `k` over the positions `is` -/
def naiveEvents (hist : List Bool) (k : Nat) (is : List Nat) : List Event :=
  (is.filter (· ∈ occs hist k)).map fun i => (hist.length / 8 - k - i, nextBit hist k i, costsDefault)

theorem naive_scan {luts : Luts} {s : Naive} {hist : List Bool} {m maxOrder : Nat}
    (h : NaiveReady s hist m maxOrder) {k : Nat} (hk : k ≤ hist.length / 8) (is : List Nat)
    (his : ∀ i ∈ is, i + k < hist.length / 8) : ∀ last, naiveScan luts s k is last =
      observeAll luts last (naiveEvents hist k is) := by
  have hinv := h.holds.inv
  have hsz := h.holds.size
  have hcur : s.input.cursor = posOf s.input (hist.length / 8) := by
    rw [cursor_eq hinv (by omega), hsz]; rfl
  have hsub : indexSubtract s.input s.input.cursor k = some (posOf s.input (hist.length / 8 - k)) := by
    have := (C26_add_sub hinv (a := hist.length / 8 - k) (n := k) (by omega)).2.1
    rwa [show hist.length / 8 - k + k = hist.length / 8 by omega, ← hcur] at this
  induction is with
  | nil => intro last; rfl
  | cons i is ih =>
    intro last
    have hi := his i (by simp)
    have ih := ih (fun i hi => his i (by simp [hi]))
    have hone : naiveScanOne luts s k last i = if i ∈ occs hist k then
        observeOne luts last (hist.length / 8 - k - i, nextBit hist k i, costsDefault) else some last := by
      unfold naiveScanOne
      have hpos : posOf s.input i = i := posOf_zero hinv h.start (by omega)
      have hm := (match_ok h.holds (j := hist.length % 8) (by omega) (by omega) (k := k) (i := i) hi).1
      rw [hpos] at hm
      rw [hsub, ob_some, i32AsUsize_bit h.bit, hm, ob_some]
      by_cases hmem : i ∈ occs hist k
      · rw [if_pos (decide_eq_true hmem), if_pos hmem]
        have ha := (C26_add_sub hinv (a := i) (n := k) (by omega)).1
        have hd := (C26_add_sub hinv (a := i) (n := hist.length / 8 - k - i) (by omega)).2.2
        rw [hpos] at ha hd
        rw [show i + (hist.length / 8 - k - i) = hist.length / 8 - k by omega] at hd
        have hb : bitAt (contents s.input) (8 * (i + k) + (7 - (7 - hist.length % 8))) = nextBit hist k i := by
          rw [h.holds.bits _ (by omega)]
          unfold nextBit ctxLen
          congr 1; omega
        rw [ha, ob_some, getBit_ok hinv (by omega) (by omega), ob_some, hd, ob_some, hb]
        unfold observeOne
        cases last with
        | none => rfl
        | some c =>
          dsimp only
          cases nextState luts c (hist.length / 8 - k - i) (nextBit hist k i)
            (if c.isNode = true then some costsDefault else none) <;> rfl
      · rw [if_neg (by simpa using hmem), if_neg hmem]
    rw [naiveScan, hone]
    unfold naiveEvents
    rw [List.filter_cons]
    by_cases hmem : i ∈ occs hist k
    · rw [if_pos hmem, if_pos (decide_eq_true hmem), List.map_cons]
      unfold observeAll
      rw [List.foldlM_cons]
      cases observeOne luts last (hist.length / 8 - k - i, nextBit hist k i, costsDefault) with
      | none => rfl
      | some x =>
        rw [ob_some, ob_some, ih]
        rfl
    · rw [if_neg hmem, if_neg (by simpa using hmem), ob_some, ih]
      rfl

theorem filter_occs (hist : List Bool) (k : Nat) :
    (List.range (hist.length / 8 - k)).filter (· ∈ occs hist k) = occs hist k := by
  unfold occs
  apply List.filter_congr
  intro i hi
  simp only [List.mem_filter, decide_eq_true_eq, hi, true_and]

/-- the result of a whole scan -/
theorem naive_scan_all {luts : Luts} (hL : LutsOk luts) {s : Naive} {hist : List Bool} {m maxOrder : Nat}
    (h : NaiveReady s hist m maxOrder) {k : Nat} (hk : k ≤ hist.length / 8) :
    naiveScan luts s k (List.range (hist.length / 8 - k)) none =
      some (specState luts.costs (lastDist hist k) (following hist k) costsDefault) ∧
    (occs hist k ≠ [] → ∃ c, specState luts.costs (lastDist hist k) (following hist k) costsDefault = some c) := by
  rw [naive_scan h hk _ (by intro i hi; rw [List.mem_range] at hi; omega)]
  obtain ⟨h1, h2⟩ := observeAll_spec hL (naiveEvents hist k (List.range (hist.length / 8 - k)))
  have hev : naiveEvents hist k (List.range (hist.length / 8 - k)) =
      (occs hist k).map fun i => (hist.length / 8 - k - i, nextBit hist k i, costsDefault) := by
    unfold naiveEvents
    rw [filter_occs]
  have hmap : (naiveEvents hist k (List.range (hist.length / 8 - k))).map (fun e => e.2.1) = following hist k := by
    rw [hev, List.map_map]; rfl
  by_cases he : occs hist k = []
  · rw [h1, hmap]
    have hf : following hist k = [] := by unfold following; rw [he]; rfl
    refine ⟨?_, fun h => absurd he h⟩
    rw [hf]
    unfold specState
    rw [if_pos rfl, if_pos rfl]
  · obtain ⟨i, l, hil⟩ : ∃ l i, occs hist k = l ++ [i] :=
      ⟨(occs hist k).dropLast, (occs hist k).getLast he, (List.dropLast_append_getLast he).symm⟩
    obtain ⟨c, hc⟩ := h2 (by rw [hev]; simpa using he)
    have hlast : (naiveEvents hist k (List.range (hist.length / 8 - k))).getLastD (0, false, costsDefault) =
        (lastDist hist k, nextBit hist k l, costsDefault) := by
      rw [hev, hil, List.map_append, List.map_singleton, List.getLastD_concat]
      unfold lastDist
      rw [hil, List.getLastD_concat]
    rw [hlast, hmap] at h1
    refine ⟨h1, fun _ => ⟨c, ?_⟩⟩
    rw [hc, Option.some.injEq] at h1
    exact h1.symm

theorem naive_orders {luts : Luts} (hL : LutsOk luts) {s : Naive} {hist : List Bool} {m maxOrder : Nat}
    (h : NaiveReady s hist m maxOrder) : ∀ (n k : Nat), (0 < n → k ≤ hist.length / 8) →
    naiveOrders luts s (List.range' k n) =
      ((List.range' k n).filter fun k => occs hist k ≠ []).mapM (fun k =>
        specState luts.costs (lastDist hist k) (following hist k) costsDefault) ∧
    (naiveOrders luts s (List.range' k n)).isSome := by
  have hinv := h.holds.inv
  have hsz := h.holds.size
  have hcur : s.input.cursor = posOf s.input (hist.length / 8) := by
    rw [cursor_eq hinv (by omega), hsz]; rfl
  intro n
  induction n with
  | zero => intro k _; exact ⟨rfl, rfl⟩
  | succ n ih =>
    intro k hk
    have hk := hk (by omega)
    have hsub : indexSubtract s.input s.input.cursor k = some (hist.length / 8 - k) := by
      have := (C26_add_sub hinv (a := hist.length / 8 - k) (n := k) (by omega)).2.1
      rw [show hist.length / 8 - k + k = hist.length / 8 by omega, ← hcur] at this
      rw [this, posOf_zero hinv h.start (by omega)]
    obtain ⟨hs1, hs2⟩ := naive_scan_all hL h hk
    rw [List.range'_succ, naiveOrders, hsub, ob_some, hs1, ob_some]
    by_cases he : occs hist k = []
    · have hf : following hist k = [] := by unfold following; rw [he]; rfl
      have hall : (k :: List.range' (k + 1) n).filter (fun k => decide (occs hist k ≠ [])) = [] := by
        rw [List.filter_eq_nil_iff]
        intro k' hk'
        have : k ≤ k' := by
          rcases List.mem_cons.mp hk' with rfl | hk'
          · omega
          · have := (List.mem_range'_1.mp hk').1; omega
        simp [occs_empty_le this he]
      rw [hall, hf]
      unfold specState
      rw [if_pos rfl]
      exact ⟨rfl, rfl⟩
    · obtain ⟨c, hc⟩ := hs2 he
      have hlt := occs_lt he
      obtain ⟨ih1, ih2⟩ := ih (k + 1) (by omega)
      obtain ⟨r, hr⟩ := Option.isSome_iff_exists.mp ih2
      rw [hc, List.filter_cons, if_pos (by simpa using he), List.mapM_cons, hc, ob_some, ← ih1, hr]
      exact ⟨rfl, rfl⟩

theorem naive_gather {luts : Luts} (hL : LutsOk luts) {s : Naive} {hist : List Bool} {m maxOrder : Nat}
    (h : NaiveReady s hist m maxOrder) :
    naiveGather luts s = specGather luts.costs maxOrder hist ∧
    ∃ states, specGather luts.costs maxOrder hist = some states := by
  unfold naiveGather specGather
  rw [h.order, List.range_eq_range']
  obtain ⟨h1, h2⟩ := naive_orders hL h (maxOrder + 1) 0 (by omega)
  refine ⟨h1, ?_⟩
  rw [← h1]
  exact Option.isSome_iff_exists.mp h2

/-- feeding bits to the naive source -/
theorem naive_feed {luts : Luts} (hL : LutsOk luts) {m maxOrder : Nat}
    {upd : List CtxState → Bool → List Costs} (hu : ∀ l b, ∀ c ∈ upd l b, c = costsDefault) (bits : List Bool) :
    ∀ (s : Naive) (hist : List Bool), NaiveInv s hist m maxOrder → (hist.length + bits.length) ≤ 8 * m →
    ∃ s', feed (naiveSource luts) upd hist.length s bits = some s' ∧ NaiveInv s' (hist ++ bits) m maxOrder := by
  induction bits with
  | nil => intro s hist h _; exact ⟨s, rfl, by rw [List.append_nil]; exact h⟩
  | cons b bits ih =>
    intro s hist h hlen
    rw [List.length_cons] at hlen
    obtain ⟨s1, e1, h1⟩ := naive_ready luts h (by omega)
    obtain ⟨e2, states, hst⟩ := naive_gather hL h1
    obtain ⟨s2, e3, h2⟩ := naive_process h1 b (hu states b)
    obtain ⟨s3, e4, h3⟩ := ih s2 (hist ++ [b]) h2 (by simp; omega)
    refine ⟨s3, ?_, by rw [List.append_assoc] at h3; exact h3⟩
    rw [feed, e1, ob_some]
    change (naiveGather luts s1 >>= _) = _
    rw [e2, hst, ob_some]
    change (naiveProcess s1 b (upd states b) >>= _) = _
    rw [e3, ob_some]
    rw [List.length_append, List.length_singleton] at e4
    exact e4

end Verif.History
