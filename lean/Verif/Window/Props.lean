import Verif.Window.Lemmas

/-!
# C24 to C26: the input window
-/

namespace Verif.Window

open Verif

/-! ## C24 -/

/-- **C24.** For every maximum size, every initial shift below it and every sequence of operations that is
legal for a bounded queue, the window performs them without a panic (so its internal invariant checks never
fire) and holds exactly the bytes of the queue. It satisfies the invariant assumed by C25 and C26. -/
theorem C24_queue {m s : Nat} (hm : m < 2 ^ 63) (hs : s < m) (os : List Op) (q : List Nat)
    (h : specRun m [] os = some q) :
    ∃ w, (winNew m s).bind (fun w => run w os) = some w ∧ contents w = q ∧ w.size = q.length ∧
      Inv w := by
  obtain ⟨w, e, i, c, hmax, _⟩ := new_ok hm hs
  obtain ⟨w', e', i', c', _⟩ := run_ok os w q i (by rw [c, hmax]; exact h)
  exact ⟨w', by rw [e, Option.bind_some, e'], c', by rw [← c', contents_length], i'⟩

/-- **C24 (illegal operations).** In every reachable window, advancing the cursor of a full window and
advancing the start of an empty one panic. -/
theorem C24_panics {m s : Nat} (hm : m < 2 ^ 63) (hs : s < m) (os : List Op) (q : List Nat)
    (h : specRun m [] os = some q) {w : Win} (hw : (winNew m s).bind (fun w => run w os) = some w) :
    (q.length = m → advanceCursor w = none) ∧ (q = [] → advanceStart w = none) := by
  obtain ⟨w0, e, i, c, hmax, _⟩ := new_ok hm hs
  obtain ⟨w', e', i', c', hmax'⟩ := run_ok os w0 q i (by rw [c, hmax]; exact h)
  rw [e, Option.bind_some, e', Option.some.injEq] at hw
  subst hw
  have hsz : w'.size = q.length := by rw [← c', contents_length]
  constructor
  · intro hq
    unfold advanceCursor
    rw [check_neg (by rw [hsz, hq, hmax', hmax]; omega), ob_none]
  · intro hq
    unfold advanceStart
    rw [check_neg (by rw [hsz, hq]; simp), ob_none]

/-- **C24 (construction).** A zero maximum size or a shift beyond the maximum panics at construction; a shift
equal to the maximum is accepted but the first advance panics. -/
theorem C24_bad_shift (m s : Nat) :
    (m = 0 → winNew m s = none) ∧ (m < s → winNew m s = none) ∧
    (0 < m → m < 2 ^ 63 → s = m → ∃ w, winNew m s = some w ∧ advanceCursor w = none) := by
  unfold winNew
  refine ⟨fun h => ?_, fun h => ?_, fun h0 hm h => ?_⟩
  · rw [check_neg (by omega), ob_none]
  · by_cases h0 : m > 0
    · rw [check_pos h0, ob_some, check_neg (by omega), ob_none]
    · rw [check_neg h0, ob_none]
  · subst h
    rw [check_pos h0, ob_some, check_pos le_rfl, ob_some, if_pos h0]
    refine ⟨_, rfl, ?_⟩
    unfold advanceCursor
    dsimp only
    rw [check_pos h0, ob_some, List.length_replicate, if_pos rfl]
    unfold indexIncrement indexAdd
    rw [usize_eq (by omega), ob_some]
    dsimp only
    rw [if_pos (by omega), List.length_replicate, check_pos rfl, ob_some, ob_some]
    unfold setByteAtCursor bufSet
    dsimp only
    rw [List.length_replicate, check_pos (by omega), ob_some, ob_some, List.length_set,
      List.length_replicate, check_pos rfl, ob_some, ob_some, usize_eq (by dsimp only; omega), ob_some]
    unfold checkSize
    dsimp only
    rw [check_pos (by omega), ob_some, if_neg (by omega), if_pos (by omega), check_neg (by omega), ob_none]

example : (specRun 3 [] [.advanceCursor, .setByte 7, .advanceCursor, .setBit true 3, .advanceCursor,
    .advanceStart, .advanceCursor, .setByte 9]) = some [8, 0, 9] ∧
    ((winNew 3 2).bind (fun w => run w [.advanceCursor, .setByte 7, .advanceCursor, .setBit true 3,
      .advanceCursor, .advanceStart, .advanceCursor, .setByte 9])).map (fun w => (contents w, w.start)) =
      some ([8, 0, 9], 0) := by decide +kernel

/-! ## C26 -/

/-- **C26 (add and subtract).** Moving forward or backward from the position of a stored byte by a distance
that stays within the window gives the position of the byte that much younger or older. -/
theorem C26_add_sub {w : Win} (h : Inv w) {a n : Nat} (hn : a + n < w.size) :
    indexAdd w (posOf w a) n = some (posOf w (a + n)) ∧
    indexSubtract w (posOf w (a + n)) n = some (posOf w a) ∧
    indexDiff w (posOf w (a + n)) (posOf w a) = some n := by
  have h1 := h.start_lt; have h2 := h.size_le; have h5 := h.part; have h6 := h.len_le; have h7 := h.max_lt
  have e1 := posOf_eq h (show a ≤ w.size by omega)
  have e2 := posOf_eq h (show a + n ≤ w.size by omega)
  have hsub : indexSubtract w (posOf w (a + n)) n = some (posOf w a) ∧
      indexSubtract w (posOf w (a + n)) (posOf w a) = some n := by
    unfold indexSubtract
    rw [e1, e2]
    by_cases c2 : w.start + (a + n) < w.max
    · have c1 : w.start + a < w.max := by omega
      rw [if_pos c1, if_pos c2]
      constructor
      · rw [if_pos (by omega)]; congr 1; omega
      · rw [if_pos (by omega)]; congr 1; omega
    · rw [if_neg c2]
      by_cases c1 : w.start + a < w.max
      · rw [if_pos c1]
        constructor
        · rw [if_neg (by omega), check_pos (by omega), ob_some, usize_eq (by omega), ob_some,
            subU_eq (by omega)]
          congr 1; omega
        · rw [if_neg (by omega), check_pos (by omega), ob_some, usize_eq (by omega), ob_some,
            subU_eq (by omega)]
          congr 1; omega
      · rw [if_neg c1]
        constructor
        · rw [if_pos (by omega)]; congr 1; omega
        · rw [if_pos (by omega)]; congr 1; omega
  refine ⟨?_, hsub⟩
  unfold indexAdd
  rw [usize_eq (by rw [e1]; split <;> omega), ob_some, e1, e2]
  by_cases c1 : w.start + a < w.max
  · rw [if_pos c1]
    by_cases c2 : w.start + (a + n) < w.max
    · rw [if_neg (by omega), if_pos c2]; congr 1; omega
    · rw [if_pos (by omega), check_pos (by omega), ob_some, if_neg c2]; congr 1; omega
  · rw [if_neg c1, if_neg (by omega), if_neg (by omega)]; congr 1; omega

/-- **C26 (order).** Comparing two positions compares the ages of the bytes. -/
theorem C26_order {w : Win} (h : Inv w) {a b : Nat} (ha : a < w.size) (hb : b < w.size) :
    indexIsSmaller w (posOf w a) (posOf w b) = some (decide (a < b)) ∧
    indexIsSmallerOrEqual w (posOf w a) (posOf w b) = some (decide (a ≤ b)) := by
  have h1 := h.start_lt; have h2 := h.size_le; have h5 := h.part; have h6 := h.len_le; have h7 := h.max_lt
  have key : ∀ a b, a < w.size → b < w.size →
      indexIsSmaller w (posOf w a) (posOf w b) = some (decide (a < b)) := by
    intro a b ha hb
    have norm : ∀ a < w.size, ageKey w (posOf w a) = some (w.start + a) := by
      intro a ha
      unfold ageKey
      rw [posOf_eq h (by omega)]
      split
      · rw [if_neg (by omega)]
      · rw [if_pos (by omega), usize_eq (by omega)]; congr 1; omega
    unfold indexIsSmaller
    rw [norm a ha, ob_some, norm b hb, ob_some]
    congr 1
    exact decide_eq_decide.mpr (by omega)
  refine ⟨key a b ha hb, ?_⟩
  unfold indexIsSmallerOrEqual
  rw [key b a hb ha, ob_some]
  congr 1
  by_cases hc : b < a
  · rw [decide_eq_true hc, decide_eq_false (by omega)]; rfl
  · rw [decide_eq_false hc, decide_eq_true (by omega)]; rfl

/-- **C26 (enumeration).** For every non-empty window the suffix enumeration lists the positions of all bytes
from the oldest to the newest. -/
theorem C26_suffixes {w : Win} (h : Inv w) (hs : 0 < w.size) :
    forEachSuffix w = some ((List.range w.size).map (posOf w)) := by
  have h1 := h.start_lt; have h2 := h.size_le; have h3 := h.rel; have h4 := h.cursor_lt
  have h5 := h.part; have h6 := h.len_le; have h7 := h.max_lt
  unfold forEachSuffix
  rw [usize_eq (by omega), ob_some]
  dsimp only
  by_cases hc : w.start ≤ w.cursor
  · rw [if_pos (Or.inr hc)]
    have e : (List.range (w.cursor + 1)).drop w.start = (List.range w.size).map (posOf w) := by
      apply List.ext_getElem
      · simp; omega
      · intro i hi hj
        simp only [List.length_map, List.length_range] at hj
        simp only [List.getElem_drop, List.getElem_range, List.getElem_map]
        rw [posOf_eq h (by omega), if_pos (by omega)]
    rw [e, check_pos (by simp), ob_some]
  · rw [if_neg (by omega)]
    have e : (List.range w.max).drop w.start ++ List.range (w.cursor + 1) =
        (List.range w.size).map (posOf w) := by
      apply List.ext_getElem
      · simp; omega
      · intro i hi hj
        simp only [List.length_map, List.length_range] at hj
        simp only [List.getElem_map, List.getElem_range]
        rw [posOf_eq h (by omega)]
        by_cases hw : w.start + i < w.max
        · rw [if_pos hw, List.getElem_append_left (by simp; omega)]
          simp
        · rw [if_neg hw, List.getElem_append_right (by simp; omega)]
          simp
          omega
    rw [e, check_pos (by simp), ob_some]

/-- **C26 (a defect).** On a fresh empty window with no shift the suffix enumeration panics instead of
visiting nothing, whatever the maximum size. -/
theorem C26_empty_suffixes_panics {m : Nat} (h0 : 0 < m) (hm : m < 2 ^ 63) :
    ∃ w, winNew m 0 = some w ∧ contents w = [] ∧ forEachSuffix w = none := by
  unfold winNew
  rw [check_pos h0, ob_some, check_pos (by omega), ob_some, if_neg (by omega)]
  refine ⟨_, rfl, by simp [contents], ?_⟩
  unfold forEachSuffix
  dsimp only
  rw [usize_eq (by omega), ob_some, if_pos (Or.inl rfl), check_neg (by simp), ob_none]

example : ∃ w, Inv w ∧ w.size = 3 ∧ w.start = 2 ∧ w.cursor = 0 ∧ posOf w 2 = 0 := by
  refine ⟨⟨[1, 2, 3, 4], 2, 0, 3, 4⟩, ⟨by decide, by decide, by decide, by decide, by decide, by decide,
    by decide, by decide, by decide⟩, rfl, rfl, rfl, by decide⟩

/-! ## C25 -/

/-- bit `i` of a byte, specification -/
def bitOf (x i : Nat) : Bool := x.testBit i

/-- the bytes from the `a`-th and `b`-th on agree on `n` full bytes and on the bits above `bitIndex` of the
next byte -/
def PrefixEq (q : List Nat) (a b bitIndex n : Nat) : Prop :=
  (∀ k < n, q[a + k]? = q[b + k]?) ∧
  ∀ i, bitIndex < i → i ≤ 7 → bitOf (q.getD (a + n) 0) i = bitOf (q.getD (b + n) 0) i

theorem getBit_eq (x i : Nat) : getBit x i = x.testBit i := by
  unfold getBit
  rw [Nat.testBit_eq_decide_div_mod_eq]

theorem bytesDiffer_ok {w : Win} {i1 i2 bp : Nat} (h1 : i1 < w.buffer.length) (h2 : i2 < w.buffer.length)
    (hb : bp < 8) : bytesDifferOn w i1 i2 bp =
      some (bitOf (w.buffer.getD i1 0) bp != bitOf (w.buffer.getD i2 0) bp) := by
  unfold bytesDifferOn bitOf
  rw [List.getElem?_eq_getElem h1, ob_some, List.getElem?_eq_getElem h2, ob_some, check_pos hb, ob_some,
    getBit_eq, Nat.testBit_xor, List.getD_eq_getElem?_getD, List.getD_eq_getElem?_getD,
    List.getElem?_eq_getElem h1, List.getElem?_eq_getElem h2]
  rfl

theorem straightBits_ok {w : Win} {i1 i2 : Nat} (h1 : i1 < w.buffer.length) (h2 : i2 < w.buffer.length) :
    ∀ (k bp : Nat), k ≤ bp → bp < 8 → ∃ r, straightBits w i1 i2 k bp = some r ∧
      (r = true ↔ ∀ i, bp - k < i → i ≤ bp →
        bitOf (w.buffer.getD i1 0) i = bitOf (w.buffer.getD i2 0) i) := by
  intro k
  induction k with
  | zero =>
    intro bp _ _
    exact ⟨true, rfl, by simp; intro i _ _; omega⟩
  | succ k ih =>
    intro bp hk hb
    rw [straightBits, bytesDiffer_ok h1 h2 hb, ob_some]
    by_cases hd : bitOf (w.buffer.getD i1 0) bp = bitOf (w.buffer.getD i2 0) bp
    · rw [hd]
      simp only [bne_self_eq_false, Bool.false_eq_true, if_false]
      rw [subU_eq (by omega), ob_some]
      obtain ⟨r, e, hr⟩ := ih (bp - 1) (by omega) (by omega)
      refine ⟨r, e, ?_⟩
      rw [hr]
      constructor
      · intro hh i hi1 hi2
        rcases Nat.lt_or_eq_of_le hi2 with hlt | heq
        · exact hh i (by omega) (by omega)
        · rw [heq]; exact hd
      · intro hh i hi1 hi2
        exact hh i (by omega) (by omega)
    · have : (bitOf (w.buffer.getD i1 0) bp != bitOf (w.buffer.getD i2 0) bp) = true := by
        rw [bne_iff_ne]; exact hd
      rw [if_pos this]
      refine ⟨false, rfl, ?_⟩
      simp only [Bool.false_eq_true, false_iff, not_forall]
      exact ⟨bp, by omega, le_rfl, hd⟩

theorem getElem?_of_lt {l : List Nat} {i : Nat} (h : i < l.length) : l[i]? = some (l.getD i 0) := by
  rw [List.getD_eq_getElem?_getD, List.getElem?_eq_getElem h]; rfl

theorem straightBytes_ok {w : Win} {i1 i2 : Nat} (hlen : w.buffer.length < 2 ^ 63) : ∀ (k p : Nat),
    i1 + p + k ≤ w.buffer.length → i2 + p + k ≤ w.buffer.length →
    ∃ r, straightBytes w i1 i2 k p = some r ∧
      (r = true ↔ ∀ j < k, w.buffer.getD (i1 + p + j) 0 = w.buffer.getD (i2 + p + j) 0) := by
  intro k
  induction k with
  | zero => intro p _ _; exact ⟨true, rfl, by simp⟩
  | succ k ih =>
    intro p h1 h2
    rw [straightBytes, usize_eq (by omega), ob_some, getElem?_of_lt (by omega), ob_some, usize_eq (by omega),
      ob_some, getElem?_of_lt (by omega), ob_some]
    by_cases hc : w.buffer.getD (i1 + p) 0 = w.buffer.getD (i2 + p) 0
    · rw [if_pos hc]
      obtain ⟨r, e, hr⟩ := ih (p + 1) (by omega) (by omega)
      refine ⟨r, e, ?_⟩
      rw [hr]
      constructor
      · intro hh j hj
        cases j with
        | zero => exact hc
        | succ j =>
          have := hh j (by omega)
          rw [show i1 + p + (j + 1) = i1 + (p + 1) + j by omega,
            show i2 + p + (j + 1) = i2 + (p + 1) + j by omega]
          exact this
      · intro hh j hj
        have := hh (j + 1) (by omega)
        rw [show i1 + (p + 1) + j = i1 + p + (j + 1) by omega,
          show i2 + (p + 1) + j = i2 + p + (j + 1) by omega]
        exact this
    · rw [if_neg hc]
      refine ⟨false, rfl, ?_⟩
      simp only [Bool.false_eq_true, false_iff, not_forall]
      exact ⟨0, by omega, hc⟩

theorem compareStraight_ok {w : Win} {i1 i2 bi n : Nat} (hlen : w.buffer.length < 2 ^ 63)
    (h1 : i1 + n < w.buffer.length) (h2 : i2 + n < w.buffer.length) (hbi : bi ≤ 7) :
    ∃ r, compareStraight w i1 i2 bi n = some r ∧
      (r = true ↔ (∀ j < n, w.buffer.getD (i1 + j) 0 = w.buffer.getD (i2 + j) 0) ∧
        ∀ i, bi < i → i ≤ 7 →
          bitOf (w.buffer.getD (i1 + n) 0) i = bitOf (w.buffer.getD (i2 + n) 0) i) := by
  obtain ⟨r, e, hr⟩ := straightBytes_ok (w := w) (i1 := i1) (i2 := i2) hlen n 0 (by omega) (by omega)
  simp only [Nat.add_zero] at hr
  unfold compareStraight
  rw [e, ob_some]
  cases r with
  | false =>
    refine ⟨false, rfl, ?_⟩
    simp only [Bool.false_eq_true, false_iff] at hr ⊢
    intro hh; exact hr hh.1
  | true =>
    rw [if_pos rfl]
    have hr := hr.mp rfl
    by_cases h7 : 7 > bi
    · rw [if_pos h7, usize_eq (by omega), ob_some, usize_eq (by omega), ob_some]
      obtain ⟨s, e', hs⟩ := straightBits_ok h1 h2 (7 - bi) 7 (by omega) (by omega)
      refine ⟨s, e', ?_⟩
      rw [hs]
      constructor
      · intro hh; exact ⟨hr, fun i hi hi' => hh i (by omega) hi'⟩
      · intro hh i hi hi'; exact hh.2 i (by omega) hi'
    · rw [if_neg h7]
      exact ⟨true, rfl, by simp only [true_iff]; exact ⟨hr, fun i hi hi' => by omega⟩⟩

theorem wrappedBytes_ok {w : Win} (h : Inv w) : ∀ (k a b : Nat), a + k < w.size → b + k < w.size →
    ∃ r a' b', wrappedBytes w k (posOf w a) (posOf w b) = some (r, posOf w a', posOf w b') ∧
      a' < w.size ∧ b' < w.size ∧
      (r = true ↔ ∀ j < k, w.buffer.getD (posOf w (a + j)) 0 = w.buffer.getD (posOf w (b + j)) 0) ∧
      (r = true → a' = a + k ∧ b' = b + k) := by
  intro k
  induction k with
  | zero =>
    intro a b ha hb
    exact ⟨true, a, b, rfl, ha, hb, by simp, fun _ => ⟨rfl, rfl⟩⟩
  | succ k ih =>
    intro a b ha hb
    have pa := posOf_lt h (show a < w.size by omega)
    have pb := posOf_lt h (show b < w.size by omega)
    rw [wrappedBytes, getElem?_of_lt pa, ob_some, getElem?_of_lt pb, ob_some]
    by_cases hc : w.buffer.getD (posOf w a) 0 = w.buffer.getD (posOf w b) 0
    · rw [if_pos hc]
      unfold indexIncrement
      rw [(C26_add_sub h (show a + 1 < w.size by omega)).1, ob_some,
        (C26_add_sub h (show b + 1 < w.size by omega)).1, ob_some]
      obtain ⟨r, a', b', e, h1, h2, hr, hr'⟩ := ih (a + 1) (b + 1) (by omega) (by omega)
      refine ⟨r, a', b', e, h1, h2, ?_, fun hh => ?_⟩
      · rw [hr]
        constructor
        · intro hh j hj
          cases j with
          | zero => exact hc
          | succ j =>
            have := hh j (by omega)
            rw [show a + (j + 1) = a + 1 + j by omega, show b + (j + 1) = b + 1 + j by omega]
            exact this
        · intro hh j hj
          have := hh (j + 1) (by omega)
          rw [show a + 1 + j = a + (j + 1) by omega, show b + 1 + j = b + (j + 1) by omega]
          exact this
      · obtain ⟨g1, g2⟩ := hr' hh
        exact ⟨by omega, by omega⟩
    · rw [if_neg hc]
      refine ⟨false, a, b, rfl, by omega, by omega, ?_, by simp⟩
      simp only [Bool.false_eq_true, false_iff, not_forall]
      exact ⟨0, by omega, hc⟩

/-- **C25.** In every window, straight or wrapped, comparing from two stored bytes with enough bytes after
them never panics and returns true exactly when the stated number of full bytes and the bits above the given
bit index of the next byte agree. -/
theorem C25_compare {w : Win} (h : Inv w) {a b n bi : Nat} (ha : a + n < w.size) (hb : b + n < w.size)
    (hbi : bi ≤ 7) :
    ∃ r, comparePrefix w (posOf w a) (posOf w b) bi n = some r ∧
      (r = true ↔ PrefixEq (contents w) a b bi n) := by
  have h1 := h.start_lt; have h2 := h.size_le; have h5 := h.part; have h6 := h.len_le; have h7 := h.max_lt
  have hget : ∀ k < w.size, (contents w)[k]? = some (w.buffer.getD (posOf w k) 0) := by
    intro k hk
    rw [List.getElem?_eq_getElem (by rw [contents_length]; exact hk), contents_getElem]
  have hgetD : ∀ k < w.size, (contents w).getD k 0 = w.buffer.getD (posOf w k) 0 := by
    intro k hk
    rw [List.getD_eq_getElem?_getD, hget k hk]; rfl
  have hspec : PrefixEq (contents w) a b bi n ↔
      (∀ j < n, w.buffer.getD (posOf w (a + j)) 0 = w.buffer.getD (posOf w (b + j)) 0) ∧
      ∀ i, bi < i → i ≤ 7 →
        bitOf (w.buffer.getD (posOf w (a + n)) 0) i = bitOf (w.buffer.getD (posOf w (b + n)) 0) i := by
    unfold PrefixEq
    rw [hgetD _ ha, hgetD _ hb]
    refine and_congr ?_ Iff.rfl
    constructor
    · intro hh k hk
      have := hh k hk
      rw [hget _ (by omega), hget _ (by omega), Option.some.injEq] at this
      exact this
    · intro hh k hk
      rw [hget _ (by omega), hget _ (by omega), hh k hk]
  have pa := posOf_eq h (show a ≤ w.size by omega)
  have pb := posOf_eq h (show b ≤ w.size by omega)
  have hpa : posOf w a < w.max := by rw [pa]; split <;> omega
  have hpb : posOf w b < w.max := by rw [pb]; split <;> omega
  unfold comparePrefix
  rw [usize_eq (by omega), ob_some]
  by_cases hm : max (posOf w a) (posOf w b) + n < w.max
  · rw [if_pos hm]
    have hshift : ∀ c, c + n < w.size → posOf w c + n < w.max → ∀ j ≤ n, posOf w (c + j) = posOf w c + j := by
      intro c hc hcm j hj
      have e1 := posOf_eq h (show c ≤ w.size by omega)
      have e2 := posOf_eq h (show c + j ≤ w.size by omega)
      rw [e1] at hcm ⊢
      rw [e2]
      split at hcm
      · rw [if_pos (by omega)]
        rw [if_pos (by omega)]; omega
      · rw [if_neg (by omega), if_neg (by omega)]; omega
    have sa := hshift a ha (by omega)
    have sb := hshift b hb (by omega)
    have la := posOf_lt h ha
    have lb := posOf_lt h hb
    rw [sa n le_rfl] at la
    rw [sb n le_rfl] at lb
    obtain ⟨r, e, hr⟩ := compareStraight_ok (by omega) la lb hbi
    refine ⟨r, e, ?_⟩
    rw [hr, hspec, sa n le_rfl, sb n le_rfl]
    refine and_congr ?_ Iff.rfl
    constructor
    · intro hh j hj; rw [sa j (by omega), sb j (by omega)]; exact hh j hj
    · intro hh j hj
      have := hh j hj
      rwa [sa j (by omega), sb j (by omega)] at this
  · rw [if_neg hm]
    obtain ⟨r, a', b', e, ha', hb', hr, hr'⟩ := wrappedBytes_ok h n a b ha hb
    rw [e, ob_some]
    dsimp only
    obtain ⟨s, e', hs⟩ := compareStraight_ok (w := w) (i1 := posOf w a') (i2 := posOf w b') (bi := bi) (n := 0)
      (by omega) (posOf_lt h ha') (posOf_lt h hb') hbi
    rw [e', ob_some]
    refine ⟨_, rfl, ?_⟩
    rw [hspec, Bool.and_eq_true]
    constructor
    · rintro ⟨g1, g2⟩
      obtain ⟨q1, q2⟩ := hr' g1
      subst q1; subst q2
      exact ⟨hr.mp g1, (hs.mp g2).2⟩
    · rintro ⟨g1, g2⟩
      have hrt := hr.mpr g1
      obtain ⟨q1, q2⟩ := hr' hrt
      subst q1; subst q2
      exact ⟨hrt, hs.mpr ⟨by simp, g2⟩⟩

example : comparePrefix ⟨[5, 96, 7, 7, 5, 127], 2, 1, 6, 6⟩ 3 5 4 0 = some false ∧
    comparePrefix ⟨[5, 96, 7, 7, 5, 127], 2, 1, 6, 6⟩ 4 0 4 1 = some true := by decide +kernel

end Verif.Window
