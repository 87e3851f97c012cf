import Verif.Window.Props

/-!
# Comparing whole bytes up to the end of the window

With bit index 7 no bit after the full bytes is compared, so the full bytes may reach to the cursor.
-/

namespace Verif.Window

open Verif

/-- going to the next position, from the last stored byte as well, unless that byte ends a buffer not yet
full -/
theorem increment_ok {w : Win} (h : Inv w) {a : Nat} (ha : a < w.size)
    (hf : w.buffer.length = w.max) : indexIncrement w (posOf w a) = some (posOf w (a + 1)) := by
  have h1 := h.start_lt; have h2 := h.size_le; have h7 := h.max_lt
  have e1 := posOf_eq h (show a ≤ w.size by omega)
  have e2 := posOf_eq h (show a + 1 ≤ w.size by omega)
  unfold indexIncrement indexAdd
  rw [usize_eq (by rw [e1]; split <;> omega), ob_some, e1, e2]
  by_cases c1 : w.start + a < w.max
  · rw [if_pos c1]
    by_cases c2 : w.start + (a + 1) < w.max
    · rw [if_neg (by omega), if_pos c2]; congr 1
    · rw [if_pos (by omega), check_pos (by omega), ob_some, if_neg c2]; congr 1
  · rw [if_neg c1, if_neg (by omega), if_neg (by omega)]; congr 1; omega

/-- the byte loop of the wrapped branch, up to the last stored byte -/
theorem wrappedBytes_end {w : Win} (h : Inv w) (hf : w.buffer.length = w.max) :
    ∀ (k a b : Nat), a + k ≤ w.size → b + k ≤ w.size →
    ∃ r j1 j2, wrappedBytes w k (posOf w a) (posOf w b) = some (r, j1, j2) ∧
      (r = true ↔ ∀ j < k, w.buffer.getD (posOf w (a + j)) 0 = w.buffer.getD (posOf w (b + j)) 0) := by
  intro k
  induction k with
  | zero =>
    intro a b _ _
    exact ⟨true, _, _, rfl, by simp⟩
  | succ k ih =>
    intro a b ha hb
    have pa := posOf_lt h (show a < w.size by omega)
    have pb := posOf_lt h (show b < w.size by omega)
    rw [wrappedBytes, getElem?_of_lt pa, ob_some, getElem?_of_lt pb, ob_some]
    by_cases hc : w.buffer.getD (posOf w a) 0 = w.buffer.getD (posOf w b) 0
    · rw [if_pos hc, increment_ok h (by omega) hf, ob_some, increment_ok h (by omega) hf, ob_some]
      obtain ⟨r, j1, j2, e, hr⟩ := ih (a + 1) (b + 1) (by omega) (by omega)
      refine ⟨r, j1, j2, e, ?_⟩
      rw [hr]
      constructor
      · intro hh j hj
        cases j with
        | zero => exact hc
        | succ j =>
          have := hh j (by omega)
          rwa [show a + 1 + j = a + (j + 1) by omega, show b + 1 + j = b + (j + 1) by omega] at this
      · intro hh j hj
        have := hh (j + 1) (by omega)
        rwa [show a + (j + 1) = a + 1 + j by omega, show b + (j + 1) = b + 1 + j by omega] at this
    · rw [if_neg hc]
      refine ⟨false, _, _, rfl, ?_⟩
      simp only [Bool.false_eq_true, false_iff]
      intro hh
      exact hc (hh 0 (by omega))

theorem compareStraight_seven (w : Win) (i1 i2 n : Nat) : compareStraight w i1 i2 7 n = straightBytes w i1 i2 n 0 := by
  unfold compareStraight
  cases straightBytes w i1 i2 n 0 with
  | none => rfl
  | some r => cases r <;> rfl

/-- **C25 (whole bytes).** With bit index 7 the compared bytes may reach the cursor: in every window, straight
or wrapped, comparing two runs of whole stored bytes never panics and returns true exactly when the runs are
equal. -/
theorem C25_compare_bytes {w : Win} (h : Inv w) {a b n : Nat} (hn : 1 ≤ n) (ha : a + n ≤ w.size)
    (hb : b + n ≤ w.size) :
    ∃ r, comparePrefix w (posOf w a) (posOf w b) 7 n = some r ∧
      (r = true ↔ ∀ j < n, (contents w)[a + j]? = (contents w)[b + j]?) := by
  have h1 := h.start_lt; have h2 := h.size_le; have h5 := h.part; have h6 := h.len_le; have h7 := h.max_lt
  have hget : ∀ k < w.size, (contents w)[k]? = some (w.buffer.getD (posOf w k) 0) := by
    intro k hk
    rw [List.getElem?_eq_getElem (by rw [contents_length]; exact hk), contents_getElem]
  have hspec : (∀ j < n, (contents w)[a + j]? = (contents w)[b + j]?) ↔
      ∀ j < n, w.buffer.getD (posOf w (a + j)) 0 = w.buffer.getD (posOf w (b + j)) 0 := by
    constructor
    · intro hh k hk
      have := hh k hk
      rwa [hget _ (by omega), hget _ (by omega), Option.some.injEq] at this
    · intro hh k hk
      rw [hget _ (by omega), hget _ (by omega), hh k hk]
  have pa := posOf_eq h (show a ≤ w.size by omega)
  have pb := posOf_eq h (show b ≤ w.size by omega)
  have hpa : posOf w a < w.max := by rw [pa]; split <;> omega
  have hpb : posOf w b < w.max := by rw [pb]; split <;> omega
  rw [hspec]
  unfold comparePrefix
  rw [usize_eq (by omega), ob_some]
  by_cases hm : max (posOf w a) (posOf w b) + n < w.max
  · rw [if_pos hm, compareStraight_seven]
    have hshift : ∀ c, c + n ≤ w.size → posOf w c + n < w.max → ∀ j < n, posOf w (c + j) = posOf w c + j := by
      intro c hc hcm j hj
      have e1 := posOf_eq h (show c ≤ w.size by omega)
      have e2 := posOf_eq h (show c + j ≤ w.size by omega)
      rw [e1] at hcm ⊢
      rw [e2]
      split at hcm
      · rw [if_pos (by omega)]
        rw [if_pos (by omega)]; omega
      · rw [if_neg (by omega), if_neg (by omega)]; omega
    have sa := hshift a ha (by omega)
    have sb := hshift b hb (by omega)
    have la := posOf_lt h (show a + (n - 1) < w.size by omega)
    have lb := posOf_lt h (show b + (n - 1) < w.size by omega)
    rw [sa (n - 1) (by omega)] at la
    rw [sb (n - 1) (by omega)] at lb
    obtain ⟨r, e, hr⟩ := straightBytes_ok (w := w) (i1 := posOf w a) (i2 := posOf w b) (by omega) n 0
      (by omega) (by omega)
    refine ⟨r, e, ?_⟩
    rw [hr]
    constructor
    · intro hh j hj; rw [sa j (by omega), sb j (by omega)]; exact hh j hj
    · intro hh j hj
      have := hh j hj
      rwa [sa j (by omega), sb j (by omega)] at this
  · rw [if_neg hm]
    have hf : w.buffer.length = w.max := by
      by_contra hne
      have h5 := h5 (by omega)
      have g : ∀ c, c + n ≤ w.size → posOf w c + n < w.max := by
        intro c hc
        rw [posOf_eq h (show c ≤ w.size by omega)]
        split <;> omega
      have ga := g a ha
      have gb := g b hb
      omega
    obtain ⟨r, j1, j2, e, hr⟩ := wrappedBytes_end h hf n a b ha hb
    rw [e, ob_some]
    dsimp only
    rw [compareStraight_seven]
    refine ⟨r && true, rfl, ?_⟩
    rw [Bool.and_true, hr]

example : comparePrefix ⟨[5, 96, 7, 7, 5, 96], 2, 1, 6, 6⟩ 4 0 7 2 = some true ∧
    comparePrefix ⟨[5, 96, 7, 7, 5, 127], 2, 1, 6, 6⟩ 4 0 7 2 = some false ∧
    comparePrefix ⟨[5, 96, 5, 96], 0, 3, 4, 9⟩ 0 2 7 2 = some true := by decide +kernel

end Verif.Window
