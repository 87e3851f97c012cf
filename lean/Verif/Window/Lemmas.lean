import Verif.Window.Spec
import Verif.Bits

/-!
# Input window: invariant and the effect of each operation
-/

namespace Verif.Window

open Verif

theorem mod2 {x m : Nat} (h : x < 2 * m) : x % m = if x < m then x else x - m := by
  split
  · rename_i hc; exact Nat.mod_eq_of_lt hc
  · rename_i hc
    rw [Nat.mod_eq_sub_mod (by omega), Nat.mod_eq_of_lt (by omega)]

/-- the invariant of a window -/
structure Inv (w : Win) : Prop where
  max_pos : 0 < w.max
  max_lt : w.max < 2 ^ 63
  start_lt : w.start < w.max
  cursor_lt : w.cursor < w.max
  size_le : w.size ≤ w.max
  len_le : w.buffer.length ≤ w.max
  rel : w.start + w.size = w.cursor + 1 ∨ w.start + w.size = w.cursor + 1 + w.max ∨
    (w.size = 0 ∧ w.start = 0 ∧ w.cursor + 1 = w.max)
  part : w.buffer.length < w.max → w.start + w.size = w.buffer.length
  bytes : ∀ b ∈ w.buffer, b < 256

theorem posOf_eq {w : Win} (h : Inv w) {a : Nat} (ha : a ≤ w.size) :
    posOf w a = if w.start + a < w.max then w.start + a else w.start + a - w.max := by
  have := h.start_lt; have := h.size_le
  exact mod2 (by omega)

theorem posOf_lt {w : Win} (h : Inv w) {a : Nat} (ha : a < w.size) : posOf w a < w.buffer.length := by
  rw [posOf_eq h (by omega)]
  have h1 := h.start_lt; have h2 := h.size_le; have h3 := h.part; have h4 := h.len_le
  split <;> omega

theorem posOf_inj {w : Win} (h : Inv w) {a b : Nat} (ha : a ≤ w.size) (hb : b ≤ w.size) (hab : a ≠ b)
    (hd : a < b + w.max) (hd' : b < a + w.max) : posOf w a ≠ posOf w b := by
  rw [posOf_eq h ha, posOf_eq h hb]
  have h1 := h.start_lt; have h2 := h.size_le
  split <;> split <;> omega

theorem cursor_eq {w : Win} (h : Inv w) (hs : 0 < w.size) : w.cursor = posOf w (w.size - 1) := by
  rw [posOf_eq h (by omega)]
  have h1 := h.start_lt; have h2 := h.size_le; have h3 := h.rel; have h4 := h.cursor_lt
  split <;> omega

theorem checkSize_ok {w : Win} (h : Inv w) : checkSize w = some () := by
  have h1 := h.start_lt; have h2 := h.size_le; have h3 := h.rel; have h4 := h.cursor_lt
  have h5 := h.part; have h6 := h.len_le; have h7 := h.max_lt
  unfold checkSize
  rw [check_pos h2, ob_some]
  by_cases hs : w.size > 1
  · rw [if_pos hs]
    have e1 : indexAdd w w.start (w.size - 1) = some w.cursor := by
      unfold indexAdd
      rw [usize_eq (by omega), ob_some]
      by_cases hc : w.start + (w.size - 1) ≥ w.max
      · rw [if_pos hc, check_pos (by omega), ob_some]; congr 1; omega
      · rw [if_neg hc]; congr 1; omega
    have e2 : indexDiff w w.cursor w.start = some (w.size - 1) := by
      unfold indexDiff indexSubtract
      by_cases hc : w.cursor ≥ w.start
      · rw [if_pos hc]; congr 1; omega
      · rw [if_neg hc, check_pos (by omega), ob_some, usize_eq (by omega), ob_some, subU_eq (by omega)]
        congr 1; omega
    rw [e1, ob_some, check_pos rfl, ob_some, e2, ob_some, check_pos rfl]
  · rw [if_neg hs]
    by_cases hs1 : w.size = 1
    · rw [if_pos hs1, check_pos (by omega)]
    · rw [if_neg hs1, check_pos (by omega)]

theorem contents_length (w : Win) : (contents w).length = w.size := by simp [contents]

theorem contents_getElem (w : Win) (a : Nat) (ha : a < (contents w).length) :
    (contents w)[a] = w.buffer.getD (posOf w a) 0 := by
  simp [contents]

theorem getD_set_ne {l : List Nat} {i j v d : Nat} (h : i ≠ j) : (l.set i v).getD j d = l.getD j d := by
  rw [List.getD_eq_getElem?_getD, List.getD_eq_getElem?_getD, List.getElem?_set_ne h]

theorem getD_set_eq {l : List Nat} {i v d : Nat} (h : i < l.length) : (l.set i v).getD i d = v := by
  rw [List.getD_eq_getElem?_getD, List.getElem?_set_self h, Option.getD_some]

/-- advancing the cursor appends a zero byte -/
theorem advanceCursor_ok {w : Win} (h : Inv w) (hs : w.size < w.max) :
    ∃ w', advanceCursor w = some w' ∧ Inv w' ∧ contents w' = contents w ++ [0] ∧ w'.max = w.max ∧
      w'.start = w.start := by
  have h1 := h.start_lt; have h2 := h.size_le; have h3 := h.rel; have h4 := h.cursor_lt
  have h5 := h.part; have h6 := h.len_le; have h7 := h.max_lt; have h8 := h.max_pos
  -- the new cursor
  have hmain : ∀ buf, buf.length ≤ w.max → (buf.length < w.max → w.start + (w.size + 1) = buf.length) →
      (∀ b ∈ buf, b < 256) →
      (∀ a < w.size, buf.getD (posOf w a) 0 = w.buffer.getD (posOf w a) 0) →
      buf.getD (posOf w w.size) 0 = 0 →
      let w' : Win := ⟨buf, w.start, posOf w w.size, w.size + 1, w.max⟩
      Inv w' ∧ contents w' = contents w ++ [0] := by
    intro buf g1 g2 g3 g4 g5
    have hp := posOf_eq h (le_refl w.size)
    refine ⟨⟨h8, h7, h1, ?_, by simp; omega, g1, ?_, g2, g3⟩, ?_⟩
    · show posOf w w.size < w.max
      rw [hp]; split <;> omega
    · show w.start + (w.size + 1) = posOf w w.size + 1 ∨ _
      rw [hp]
      split <;> dsimp only <;> omega
    · unfold contents
      dsimp only
      rw [List.range_succ, List.map_append, List.map_singleton]
      congr 1
      · apply List.map_congr_left
        intro a ha
        exact g4 a (List.mem_range.mp ha)
      · congr 1
  unfold advanceCursor
  rw [check_pos hs, ob_some]
  by_cases hf : w.buffer.length = w.max
  · rw [if_pos hf]
    have hc : indexIncrement w w.cursor = some (posOf w w.size) := by
      rw [posOf_eq h le_rfl]
      unfold indexIncrement indexAdd
      rw [usize_eq (by omega), ob_some]
      by_cases hm : w.cursor + 1 ≥ w.max
      · rw [if_pos hm, check_pos hf, ob_some]; congr 1; split <;> omega
      · rw [if_neg hm]; congr 1; split <;> omega
    have hlt : posOf w w.size < w.buffer.length := by
      rw [posOf_eq h le_rfl]; split <;> omega
    rw [hc, ob_some]
    unfold setByteAtCursor bufSet
    dsimp only
    rw [check_pos hlt, ob_some, ob_some, List.length_set, check_pos hf, ob_some, ob_some,
      usize_eq (by dsimp only; omega), ob_some]
    dsimp only
    obtain ⟨k1, k2⟩ := hmain (w.buffer.set (posOf w w.size) 0) (by rw [List.length_set]; omega)
      (by rw [List.length_set]; omega)
      (by
        intro b hb
        rcases List.mem_or_eq_of_mem_set hb with hb | hb
        · exact h.bytes b hb
        · omega)
      (by
        intro a ha
        exact getD_set_ne (posOf_inj h le_rfl (by omega) (by omega) (by omega) (by omega)))
      (getD_set_eq hlt)
    rw [checkSize_ok k1, ob_some]
    exact ⟨_, rfl, k1, k2, rfl, rfl⟩
  · rw [if_neg hf, check_pos (by omega), ob_some]
    dsimp only
    rw [usize_eq (by omega), ob_some]
    have hlen := h5 (by omega)
    have hp : posOf w w.size = w.buffer.length := by
      rw [posOf_eq h le_rfl, if_pos (by omega)]; omega
    have hc : (if w.cursor + 1 = w.max then 0 else w.cursor + 1) = posOf w w.size := by
      rw [hp]; split <;> omega
    rw [hc, ob_some, usize_eq (by dsimp only; omega), ob_some]
    dsimp only
    obtain ⟨k1, k2⟩ := hmain (w.buffer ++ [0]) (by simp; omega)
      (by intro _; simp; omega)
      (by
        intro b hb
        rcases List.mem_append.mp hb with hb | hb
        · exact h.bytes b hb
        · simp at hb; omega)
      (by
        intro a ha
        have := posOf_lt h ha
        rw [List.getD_eq_getElem?_getD, List.getD_eq_getElem?_getD, List.getElem?_append_left this])
      (by rw [hp, List.getD_eq_getElem?_getD, List.getElem?_append_right le_rfl]; simp)
    rw [checkSize_ok k1, ob_some]
    exact ⟨_, rfl, k1, k2, rfl, rfl⟩

/-- advancing the start drops the oldest byte -/
theorem advanceStart_ok {w : Win} (h : Inv w) (hs : w.size ≠ 0) :
    ∃ w', advanceStart w = some w' ∧ Inv w' ∧ contents w' = (contents w).tail ∧ w'.max = w.max ∧
      w'.start = posOf w 1 ∧ w'.buffer = w.buffer.set w.start 0 ∧ w'.cursor = w.cursor ∧
      w.start < w.buffer.length := by
  have h1 := h.start_lt; have h2 := h.size_le; have h3 := h.rel; have h4 := h.cursor_lt
  have h5 := h.part; have h6 := h.len_le; have h7 := h.max_lt; have h8 := h.max_pos
  have hp0 : posOf w 0 = w.start := by rw [posOf_eq h (by omega), if_pos (by omega)]; rfl
  have hlt : w.start < w.buffer.length := by rw [← hp0]; exact posOf_lt h (by omega)
  have hc : indexIncrement { w with buffer := w.buffer.set w.start 0 } w.start = some (posOf w 1) := by
    rw [posOf_eq h (by omega)]
    unfold indexIncrement indexAdd
    rw [usize_eq (by omega), ob_some]
    dsimp only
    by_cases hm : w.start + 1 ≥ w.max
    · rw [if_pos hm, check_pos (by rw [List.length_set]; omega), ob_some, if_neg (by omega)]
    · rw [if_neg hm, if_pos (by omega)]
  have hp1 := posOf_eq h (a := 1) (by omega)
  have hinv : Inv ⟨w.buffer.set w.start 0, posOf w 1, w.cursor, w.size - 1, w.max⟩ := by
    refine ⟨h8, h7, ?_, h4, by simp; omega, by simp; omega, ?_, ?_, ?_⟩
    · show posOf w 1 < w.max
      rw [hp1]; split <;> omega
    · show posOf w 1 + (w.size - 1) = w.cursor + 1 ∨ posOf w 1 + (w.size - 1) = w.cursor + 1 + w.max ∨ _
      rw [hp1]; split <;> dsimp only <;> omega
    · show (w.buffer.set w.start 0).length < w.max → posOf w 1 + (w.size - 1) = _
      rw [List.length_set, hp1]
      intro hl
      have := h5 hl
      rw [if_pos (by omega)]; omega
    · intro b hb
      rcases List.mem_or_eq_of_mem_set hb with hb | hb
      · exact h.bytes b hb
      · omega
  refine ⟨_, ?_, hinv, ?_, rfl, rfl, rfl, rfl, hlt⟩
  · unfold advanceStart bufSet
    rw [check_pos hs, ob_some, check_pos hlt, ob_some, ob_some, hc, ob_some]
    dsimp only
    rw [subU_eq (by omega), ob_some, checkSize_ok hinv, ob_some]
  · apply List.ext_getElem
    · rw [contents_length, List.length_tail, contents_length]
    · intro a ha hb
      rw [contents_length] at ha
      dsimp only at ha
      rw [contents_getElem, List.getElem_tail, contents_getElem]
      have e : posOf ⟨w.buffer.set w.start 0, posOf w 1, w.cursor, w.size - 1, w.max⟩ a = posOf w (a + 1) := by
        rw [posOf_eq hinv (by dsimp only; omega), posOf_eq h (show a + 1 ≤ w.size by omega)]
        dsimp only
        rw [hp1]
        split <;> split <;> (try split) <;> omega
      rw [e]
      exact getD_set_ne (by
        rw [← hp0]
        exact posOf_inj h (by omega) (by omega) (by omega) (by omega) (by omega))

/-- writing the newest byte -/
theorem bufSet_cursor {w : Win} (h : Inv w) (hs : 0 < w.size) {v : Nat} (hv : v < 256) :
    ∃ w', bufSet w w.cursor v = some w' ∧ Inv w' ∧ contents w' = (contents w).dropLast ++ [v] ∧
      w'.max = w.max ∧ w'.start = w.start ∧ w'.size = w.size ∧ w'.cursor = w.cursor := by
  have hc := cursor_eq h hs
  have hlt : w.cursor < w.buffer.length := by rw [hc]; exact posOf_lt h (by omega)
  unfold bufSet
  rw [check_pos hlt, ob_some]
  refine ⟨_, rfl, ?_, ?_, rfl, rfl, rfl, rfl⟩
  · exact ⟨h.max_pos, h.max_lt, h.start_lt, h.cursor_lt, h.size_le, by simp [h.len_le], h.rel,
      by simpa using h.part, by
        intro b hb
        rcases List.mem_or_eq_of_mem_set hb with hb | hb
        · exact h.bytes b hb
        · omega⟩
  · obtain ⟨n, hn⟩ : ∃ n, w.size = n + 1 := ⟨w.size - 1, by omega⟩
    unfold contents
    dsimp only
    rw [hn, List.range_succ, List.map_append, List.map_singleton, List.map_append, List.map_singleton,
      List.dropLast_concat]
    congr 1
    · apply List.map_congr_left
      intro a ha
      have ha := List.mem_range.mp ha
      have : w.cursor ≠ posOf w a := by
        rw [hc]
        have := h.size_le
        exact posOf_inj h (by omega) (by omega) (by omega) (by omega) (by omega)
      exact getD_set_ne this
    · congr 1
      have e : posOf { w with buffer := w.buffer.set w.cursor v } n = w.cursor := by
        rw [hc, hn]; rfl
      rw [hn] at e
      rw [e]
      exact getD_set_eq hlt

theorem and_clear {x i : Nat} (hx : x < 256) (hi : i < 8) :
    x &&& (255 - 2 ^ i) = x / 2 ^ (i + 1) * 2 ^ (i + 1) + x % 2 ^ i := by
  have h : ∀ x < 256, ∀ i < 8, x &&& (255 - 2 ^ i) = x / 2 ^ (i + 1) * 2 ^ (i + 1) + x % 2 ^ i := by
    decide +kernel
  exact h x hx i hi

theorem setBit_value {x i : Nat} (b : Bool) (hx : x < 256) (hi : i < 8) :
    (x &&& (255 - 2 ^ i)) ||| wrapU8 (b.toNat * 2 ^ i) = replaceBit x b i ∧ replaceBit x b i < 256 := by
  have h : ∀ x < 256, ∀ i < 8, ∀ b : Bool,
      (x &&& (255 - 2 ^ i)) ||| wrapU8 (b.toNat * 2 ^ i) = replaceBit x b i ∧ replaceBit x b i < 256 := by
    decide +kernel
  exact h x hx i hi b

theorem contents_last {w : Win} (h : Inv w) (hs : 0 < w.size) :
    (contents w).getLast? = w.buffer[w.cursor]? ∧ ∃ x, w.buffer[w.cursor]? = some x ∧ x < 256 := by
  have hc := cursor_eq h hs
  have hlt : w.cursor < w.buffer.length := by rw [hc]; exact posOf_lt h (by omega)
  have hg : w.buffer[w.cursor]? = some w.buffer[w.cursor] := List.getElem?_eq_getElem hlt
  refine ⟨?_, _, hg, h.bytes _ (List.getElem_mem hlt)⟩
  rw [List.getLast?_eq_getElem?, contents_length, List.getElem?_eq_getElem (by rw [contents_length]; omega),
    contents_getElem, ← hc, List.getD_eq_getElem?_getD, hg]
  rfl

theorem step_ok {w : Win} (h : Inv w) {o : Op} {q : List Nat} (hq : specStep w.max (contents w) o = some q) :
    ∃ w', step w o = some w' ∧ Inv w' ∧ contents w' = q ∧ w'.max = w.max := by
  cases o with
  | advanceCursor =>
    unfold specStep at hq
    rw [contents_length] at hq
    by_cases hc : w.size < w.max
    · dsimp only at hq
      rw [if_pos hc, Option.some.injEq] at hq
      obtain ⟨w', e, i, c, m, _⟩ := advanceCursor_ok h hc
      exact ⟨w', e, i, by rw [c, hq], m⟩
    · dsimp only at hq
      rw [if_neg hc] at hq; simp at hq
  | advanceStart =>
    unfold specStep at hq
    dsimp only at hq
    by_cases hc : contents w = []
    · rw [if_pos hc] at hq; simp at hq
    · rw [if_neg hc, Option.some.injEq] at hq
      have hs : w.size ≠ 0 := by
        intro h0; apply hc; rw [← List.length_eq_zero_iff, contents_length, h0]
      obtain ⟨w', e, i, c, m, -⟩ := advanceStart_ok h hs
      exact ⟨w', e, i, by rw [c, hq], m⟩
  | setByte v =>
    unfold specStep at hq
    dsimp only at hq
    by_cases hv : v < 256
    · rw [if_pos hv] at hq
      unfold setLast at hq
      by_cases hs : 0 < w.size
      · obtain ⟨hl, x, hx, _⟩ := contents_last h hs
        rw [hl, hx] at hq
        simp only [Option.some.injEq] at hq
        obtain ⟨w', e, i, c, m, _⟩ := bufSet_cursor h hs hv
        exact ⟨w', e, i, by rw [c, hq], m⟩
      · have : contents w = [] := by rw [← List.length_eq_zero_iff, contents_length]; omega
        rw [this] at hq; simp at hq
    · rw [if_neg hv] at hq; simp at hq
  | setBit b i =>
    unfold specStep at hq
    dsimp only at hq
    by_cases hi : i < 8
    · rw [if_pos hi] at hq
      unfold setLast at hq
      by_cases hs : 0 < w.size
      · obtain ⟨hl, x, hx, hx'⟩ := contents_last h hs
        rw [hl, hx] at hq
        simp only [Option.some.injEq] at hq
        obtain ⟨hv1, hv2⟩ := setBit_value b hx' hi
        obtain ⟨w', e, i', c, m, _⟩ := bufSet_cursor h hs hv2
        refine ⟨w', ?_, i', by rw [c, hq], m⟩
        unfold step setBitAtCursor
        dsimp only
        rw [hx, ob_some, check_pos hi, ob_some, hv1, e]
      · have : contents w = [] := by rw [← List.length_eq_zero_iff, contents_length]; omega
        rw [this] at hq; simp at hq
    · rw [if_neg hi] at hq; simp at hq

theorem run_ok : ∀ (os : List Op) (w : Win) (q : List Nat), Inv w →
    specRun w.max (contents w) os = some q →
    ∃ w', run w os = some w' ∧ Inv w' ∧ contents w' = q ∧ w'.max = w.max := by
  intro os
  induction os with
  | nil =>
    intro w q h hq
    rw [specRun, Option.some.injEq] at hq
    exact ⟨w, rfl, h, hq, rfl⟩
  | cons o os ih =>
    intro w q h hq
    rw [specRun] at hq
    cases hs : specStep w.max (contents w) o with
    | none => rw [hs, ob_none] at hq; simp at hq
    | some q1 =>
      rw [hs, ob_some] at hq
      obtain ⟨w1, e1, i1, c1, m1⟩ := step_ok h hs
      rw [← c1, ← m1] at hq
      obtain ⟨w2, e2, i2, c2, m2⟩ := ih w1 q i1 hq
      exact ⟨w2, by rw [run, e1, ob_some, e2], i2, c2, by rw [m2, m1]⟩

theorem new_ok {m s : Nat} (hm : m < 2 ^ 63) (hs : s < m) :
    ∃ w, winNew m s = some w ∧ Inv w ∧ contents w = [] ∧ w.max = m ∧ w.start = s := by
  unfold winNew
  rw [check_pos (by omega), ob_some, check_pos (by omega), ob_some]
  refine ⟨_, rfl, ?_, by simp [contents], rfl, rfl⟩
  refine ⟨by dsimp only; omega, hm, hs, ?_, by simp, by simp; omega, ?_, by simp, ?_⟩
  · dsimp only; split <;> omega
  · dsimp only
    by_cases h0 : s > 0
    · rw [if_pos h0]; omega
    · rw [if_neg h0]; omega
  · intro b hb
    have := List.eq_of_mem_replicate hb
    omega

end Verif.Window
