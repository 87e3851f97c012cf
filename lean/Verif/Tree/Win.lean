import Verif.History.Bridge

/-!
# The window seen from a fixed numbering of the input bytes
-/

namespace Verif.Tree

open Verif Verif.History Verif.Window

/-- the position of byte `i` of the input -/
def pos (sh W i : Nat) : Nat := (sh + i) % W

/-- the window holds bytes `lo, …, N - 1` of the input `x`, of which the first `L` bits are known -/
structure WinOk (w : Win) (x : Nat → Bool) (sh W lo N L : Nat) : Prop where
  inv : Inv w
  max : w.max = W
  le : lo ≤ N
  size : w.size = N - lo
  start : w.start = pos sh W lo
  bits : ∀ i d, lo ≤ i → i < N → d < 8 → 8 * i + d < L → bitAt (contents w) (8 * (i - lo) + d) = x (8 * i + d)

variable {w : Win} {x : Nat → Bool} {sh W lo N n L : Nat}

theorem WinOk.posOf (h : WinOk w x sh W lo N L) {i : Nat} (hi : lo ≤ i) : posOf w (i - lo) = pos sh W i := by
  unfold Window.posOf
  rw [h.start, h.max]
  unfold pos
  rw [Nat.mod_add_mod]
  congr 1; omega

theorem WinOk.lt (h : WinOk w x sh W lo N L) (i : Nat) : pos sh W i < W :=
  Nat.mod_lt _ (by rw [← h.max]; exact h.inv.max_pos)

theorem WinOk.cursor (h : WinOk w x sh W lo (n + 1) L) (hn : lo ≤ n) : w.cursor = pos sh W n := by
  rw [cursor_eq h.inv (by rw [h.size]; omega), h.size, ← h.posOf hn]
  congr 1; omega

theorem WinOk.sub (h : WinOk w x sh W lo (n + 1) L) {i k : Nat} (h1 : lo + k ≤ i) (h2 : i ≤ n) :
    indexSubtract w (pos sh W i) k = some (pos sh W (i - k)) := by
  have := (C26_add_sub h.inv (a := i - k - lo) (n := k) (by rw [h.size]; omega)).2.1
  rw [show i - k - lo + k = i - lo by omega, h.posOf (by omega), h.posOf (by omega)] at this
  exact this

theorem WinOk.add (h : WinOk w x sh W lo (n + 1) L) {i k : Nat} (h1 : lo ≤ i) (h2 : i + k ≤ n) :
    indexAdd w (pos sh W i) k = some (pos sh W (i + k)) := by
  have := (C26_add_sub h.inv (a := i - lo) (n := k) (by rw [h.size]; omega)).1
  rw [show i - lo + k = i + k - lo by omega, h.posOf (by omega), h.posOf (by omega)] at this
  exact this

theorem WinOk.diff (h : WinOk w x sh W lo (n + 1) L) {a b : Nat} (h1 : lo ≤ a) (h2 : a ≤ b) (h3 : b ≤ n) :
    indexDiff w (pos sh W b) (pos sh W a) = some (b - a) := by
  have := (C26_add_sub h.inv (a := a - lo) (n := b - a) (by rw [h.size]; omega)).2.2
  rw [show a - lo + (b - a) = b - lo by omega, h.posOf (by omega), h.posOf (by omega)] at this
  exact this

theorem WinOk.smaller (h : WinOk w x sh W lo (n + 1) L) {a b : Nat} (h1 : lo ≤ a) (h2 : a ≤ n) (h3 : lo ≤ b)
    (h4 : b ≤ n) : indexIsSmaller w (pos sh W a) (pos sh W b) = some (decide (a < b)) := by
  have := (C26_order h.inv (a := a - lo) (b := b - lo) (by rw [h.size]; omega) (by rw [h.size]; omega)).1
  rw [h.posOf h1, h.posOf h3] at this
  rw [this]
  congr 2
  rw [eq_iff_iff]; omega

theorem WinOk.inj (h : WinOk w x sh W lo (n + 1) L) {a b : Nat} (h1 : lo ≤ a) (h2 : a ≤ n) (h3 : lo ≤ b)
    (h4 : b ≤ n) (he : pos sh W a = pos sh W b) : a = b := by
  by_contra hne
  have hs := h.size
  have hm := h.inv.size_le
  exact posOf_inj h.inv (a := a - lo) (b := b - lo) (by omega) (by omega) (by omega) (by omega) (by omega)
    (by rw [h.posOf h1, h.posOf h3, he])

theorem WinOk.getBit (h : WinOk w x sh W lo (n + 1) L) {i d : Nat} (h1 : lo ≤ i) (h2 : i ≤ n) (hd : d < 8)
    (hL : 8 * i + d < L) : winGetBit w (pos sh W i) (7 - d) = some (x (8 * i + d)) := by
  rw [← h.posOf h1, getBit_ok h.inv (by rw [h.size]; omega) (by omega), show 7 - (7 - d) = d by omega,
    h.bits i d h1 (by omega) hd hL]

theorem WinOk.differ (h : WinOk w x sh W lo (n + 1) L) {i i' d : Nat} (h1 : lo ≤ i) (h2 : i ≤ n) (h3 : lo ≤ i')
    (h4 : i' ≤ n) (hd : d < 8) (hL : 8 * i + d < L) (hL' : 8 * i' + d < L) :
    bytesDifferOn w (pos sh W i) (pos sh W i') (7 - d) = some (x (8 * i + d) != x (8 * i' + d)) := by
  rw [← h.posOf h1, ← h.posOf h3, bytesDiffer_bits h.inv (by rw [h.size]; omega) (by rw [h.size]; omega)
    (by omega), show 7 - (7 - d) = d by omega, h.bits i d h1 (by omega) hd hL, h.bits i' d h3 (by omega) hd hL']

theorem WinOk.new (hm : W < 2 ^ 63) (hs : sh < W) : ∃ w, winNew W sh = some w ∧ WinOk w x sh W 0 0 0 := by
  obtain ⟨w, e, i, c, hmax, hst⟩ := new_ok hm hs
  refine ⟨w, e, i, hmax, le_refl _, ?_, ?_, ?_⟩
  · rw [← contents_length, c]; rfl
  · rw [hst]; unfold pos; rw [Nat.add_zero, Nat.mod_eq_of_lt hs]
  · intro i d _ _ _ h; omega

theorem WinOk.advance (h : WinOk w x sh W lo N L) (hN : N - lo < W) (hL : L ≤ 8 * N) :
    ∃ w', advanceCursor w = some w' ∧ WinOk w' x sh W lo (N + 1) L := by
  obtain ⟨w', e, i, c, m, st⟩ := advanceCursor_ok h.inv (by rw [h.size, h.max]; exact hN)
  have hle := h.le
  refine ⟨w', e, i, by rw [m, h.max], by omega, ?_, by rw [st, h.start], ?_⟩
  · rw [← contents_length, c, List.length_append, contents_length, h.size, List.length_singleton]; omega
  · intro i d h1 h2 hd hi
    rw [← h.bits i d h1 (by omega) hd hi, c]
    unfold bitAt
    rw [List.getD_append _ _ _ _ (by rw [contents_length, h.size]; omega)]

theorem WinOk.setBit {j : Nat} (h : WinOk w x sh W lo (n + 1) L) (hn : lo ≤ n) (hL : L = 8 * n + j) (hj : j < 8) :
    ∃ w', setBitAtCursor w (x L) (7 - j) = some w' ∧ WinOk w' x sh W lo (n + 1) (L + 1) := by
  have hs : 0 < w.size := by rw [h.size]; omega
  have hH : Holds w ((List.range (8 * (n - lo) + j)).map fun t => x (8 * lo + t)) (n - lo + 1) := by
    refine ⟨h.inv, by rw [h.size]; omega, by simp; omega, ?_⟩
    intro p hp
    rw [List.length_map, List.length_range] at hp
    rw [List.getD_eq_getElem?_getD, List.getElem?_map, List.getElem?_range hp]
    have := h.bits (lo + p / 8) (p % 8) (by omega) (by omega) (by omega) (by omega)
    rw [show 8 * (lo + p / 8 - lo) + p % 8 = p by omega,
      show 8 * (lo + p / 8) + p % 8 = 8 * lo + p by omega] at this
    exact this
  obtain ⟨w', e, h', hm, hst⟩ := hH.setBit (j := j) (by simp) hj (x L)
  refine ⟨w', e, h'.inv, by rw [hm, h.max], by omega, by rw [h'.size]; omega, by rw [hst, h.start], ?_⟩
  intro i d h1 h2 hd hi
  have hb := h'.bits (8 * (i - lo) + d) (by simp; omega)
  rw [hb, List.getD_eq_getElem?_getD]
  by_cases hlt : 8 * (i - lo) + d < 8 * (n - lo) + j
  · rw [List.getElem?_append_left (by simp; omega), List.getElem?_map, List.getElem?_range hlt]
    change x (8 * lo + (8 * (i - lo) + d)) = _
    congr 1; omega
  · rw [List.getElem?_append_right (by simp; omega)]
    have : 8 * (i - lo) + d = 8 * (n - lo) + j := by omega
    rw [this]
    simp
    congr 1; omega

/-- the oldest byte leaves; when the window was full, the next position holds a zero -/
theorem WinOk.drop (h : WinOk w x sh W lo (n + 1) L) (hn : lo ≤ n) :
    ∃ w', advanceStart w = some w' ∧ WinOk w' x sh W (lo + 1) (n + 1) L ∧
      (n + 1 - lo = W → ∃ next, indexIncrement w' w'.cursor = some next ∧ w'.buffer[next]? = some 0) := by
  obtain ⟨w', e, i, c, m, st, bu, cu, hlt⟩ := advanceStart_ok h.inv (by rw [h.size]; omega)
  have hW := h.max
  have hsz := h.size
  have hmp := h.inv.max_pos
  have hsize : w'.size = n + 1 - (lo + 1) := by
    rw [← contents_length, c, List.length_tail, contents_length, h.size]; omega
  refine ⟨w', e, ⟨i, by rw [m, h.max], by omega, hsize, ?_, ?_⟩, ?_⟩
  · rw [st, ← h.posOf (i := lo + 1) (by omega)]
    congr 1; omega
  · intro i d h1 h2 hd hi
    rw [← h.bits i d (by omega) h2 hd hi, c]
    unfold bitAt
    rw [List.getD_eq_getElem?_getD, List.getD_eq_getElem?_getD, List.getElem?_tail,
      show (8 * (i - (lo + 1)) + d) / 8 + 1 = (8 * (i - lo) + d) / 8 by omega,
      show (8 * (i - (lo + 1)) + d) % 8 = (8 * (i - lo) + d) % 8 by omega]
  · intro hfull
    have hst := h.inv.start_lt
    have hcl := h.inv.cursor_lt
    have hrel := h.inv.rel
    have hlen : w.buffer.length = w.max := by
      have h1 := h.inv.part
      have h2 := h.inv.len_le
      by_contra hne
      have := h1 (by omega)
      omega
    have h63 := h.inv.max_lt
    refine ⟨w.start, ?_, by rw [bu, List.getElem?_set_self hlt]⟩
    unfold indexIncrement indexAdd
    rw [usize_eq (by rw [cu]; omega), ob_some, cu, m, bu]
    by_cases hge : w.cursor + 1 ≥ w.max
    · rw [if_pos hge, check_pos (by rw [List.length_set, hlen]), ob_some]
      congr 1; omega
    · rw [if_neg hge]
      congr 1; omega

end Verif.Tree
