import Verif.History.Spec
import Verif.Window.Props
import Mathlib.Data.List.GetD

/-!
# The window as a sequence of bits
-/

namespace Verif.History

open Verif Verif.Window

/-- bit `pos` of a byte sequence, most significant bits first -/
def bitAt (q : List Nat) (pos : Nat) : Bool := (q.getD (pos / 8) 0).testBit (7 - pos % 8)

/-- the window is sound, has `n` bytes and its bits start with `hist` -/
structure Holds (w : Win) (hist : List Bool) (n : Nat) : Prop where
  inv : Inv w
  size : w.size = n
  le : hist.length ≤ 8 * n
  bits : ∀ pos, pos < hist.length → bitAt (contents w) pos = hist.getD pos false

theorem contents_bytes {w : Win} (h : Inv w) (a : Nat) : (contents w).getD a 0 < 256 := by
  rw [List.getD_eq_getElem?_getD]
  by_cases ha : a < (contents w).length
  · rw [List.getElem?_eq_getElem ha, Option.getD_some, contents_getElem]
    rw [contents_length] at ha
    have hp := posOf_lt h ha
    rw [List.getD_eq_getElem?_getD, List.getElem?_eq_getElem hp, Option.getD_some]
    exact h.bytes _ (List.getElem_mem hp)
  · rw [List.getElem?_eq_none (by omega)]
    simp

theorem bitAt_byte (q : List Nat) (a t : Nat) (ht : t < 8) :
    bitAt q (8 * a + t) = (q.getD a 0).testBit (7 - t) := by
  unfold bitAt
  rw [show (8 * a + t) / 8 = a by omega, show (8 * a + t) % 8 = t by omega]

/-- two bytes agree iff their bits do -/
theorem byte_eq_iff {x y : Nat} (hx : x < 256) (hy : y < 256) :
    x = y ↔ ∀ t < 8, x.testBit (7 - t) = y.testBit (7 - t) := by
  constructor
  · rintro rfl t _; rfl
  · intro h
    apply Nat.eq_of_testBit_eq
    intro i
    by_cases hi : i < 8
    · have := h (7 - i) (by omega)
      rwa [show 7 - (7 - i) = i by omega] at this
    · have hle : 2 ^ 8 ≤ 2 ^ i := Nat.pow_le_pow_right (by norm_num) (by omega)
      rw [Nat.testBit_lt_two_pow (by omega), Nat.testBit_lt_two_pow (by omega)]

/-- prefix equality in terms of bits -/
theorem prefixEq_bits {w : Win} (h : Inv w) {a b n bi : Nat} (ha : a + n < w.size) (hb : b + n < w.size)
    (hbi : bi ≤ 7) : PrefixEq (contents w) a b bi n ↔
      ∀ t < 8 * n + (7 - bi), bitAt (contents w) (8 * a + t) = bitAt (contents w) (8 * b + t) := by
  have hget : ∀ k < w.size, (contents w)[k]? = some ((contents w).getD k 0) := by
    intro k hk
    rw [List.getD_eq_getElem?_getD, List.getElem?_eq_getElem (by rw [contents_length]; exact hk)]
    rfl
  unfold PrefixEq bitOf
  constructor
  · rintro ⟨h1, h2⟩ t ht
    rw [show 8 * a + t = 8 * (a + t / 8) + t % 8 by omega, show 8 * b + t = 8 * (b + t / 8) + t % 8 by omega,
      bitAt_byte _ _ _ (by omega), bitAt_byte _ _ _ (by omega)]
    by_cases hk : t / 8 < n
    · have := h1 _ hk
      rw [hget _ (by omega), hget _ (by omega), Option.some.injEq] at this
      rw [this]
    · rw [show t / 8 = n by omega]
      exact h2 _ (by omega) (by omega)
  · intro hall
    constructor
    · intro k hk
      rw [hget _ (by omega), hget _ (by omega), Option.some.injEq,
        byte_eq_iff (contents_bytes h _) (contents_bytes h _)]
      intro t ht
      have := hall (8 * k + t) (by omega)
      rw [show 8 * a + (8 * k + t) = 8 * (a + k) + t by omega,
        show 8 * b + (8 * k + t) = 8 * (b + k) + t by omega, bitAt_byte _ _ _ ht, bitAt_byte _ _ _ ht] at this
      exact this
    · intro i h1 h2
      have := hall (8 * n + (7 - i)) (by omega)
      rw [show 8 * a + (8 * n + (7 - i)) = 8 * (a + n) + (7 - i) by omega,
        show 8 * b + (8 * n + (7 - i)) = 8 * (b + n) + (7 - i) by omega, bitAt_byte _ _ _ (by omega),
        bitAt_byte _ _ _ (by omega), show 7 - (7 - i) = i by omega] at this
      exact this

/-- reading a bit of the window -/
theorem getBit_ok {w : Win} (h : Inv w) {a bi : Nat} (ha : a < w.size) (hbi : bi ≤ 7) :
    winGetBit w (posOf w a) bi = some (bitAt (contents w) (8 * a + (7 - bi))) := by
  have hp := posOf_lt h ha
  unfold winGetBit
  rw [List.getElem?_eq_getElem hp, ob_some, check_pos (by omega), ob_some, getBit_eq,
    bitAt_byte _ _ _ (by omega), show 7 - (7 - bi) = bi by omega, List.getD_eq_getElem?_getD,
    List.getElem?_eq_getElem (by rw [contents_length]; exact ha), Option.getD_some, contents_getElem,
    List.getD_eq_getElem?_getD, List.getElem?_eq_getElem hp, Option.getD_some]

/-- comparing two bits of the window -/
theorem bytesDiffer_bits {w : Win} (h : Inv w) {a b bi : Nat} (ha : a < w.size) (hb : b < w.size)
    (hbi : bi ≤ 7) : bytesDifferOn w (posOf w a) (posOf w b) bi =
      some (bitAt (contents w) (8 * a + (7 - bi)) != bitAt (contents w) (8 * b + (7 - bi))) := by
  have hget : ∀ k < w.size, (contents w).getD k 0 = w.buffer.getD (posOf w k) 0 := by
    intro k hk
    rw [List.getD_eq_getElem?_getD, List.getElem?_eq_getElem (by rw [contents_length]; exact hk),
      Option.getD_some, contents_getElem]
  rw [bytesDiffer_ok (posOf_lt h ha) (posOf_lt h hb) (by omega), bitAt_byte _ _ _ (by omega),
    bitAt_byte _ _ _ (by omega), hget _ ha, hget _ hb, show 7 - (7 - bi) = bi by omega]
  rfl

theorem Holds.new {m s : Nat} (hm : m < 2 ^ 63) (hs : s < m) :
    ∃ w, winNew m s = some w ∧ Holds w [] 0 ∧ w.max = m ∧ w.start = s := by
  obtain ⟨w, e, i, c, hmax, hst⟩ := new_ok hm hs
  exact ⟨w, e, ⟨i, by rw [← contents_length, c]; rfl, by simp, by simp⟩, hmax, hst⟩

theorem Holds.advance {w : Win} {hist : List Bool} {n : Nat} (h : Holds w hist n) (hn : n < w.max) :
    ∃ w', advanceCursor w = some w' ∧ Holds w' hist (n + 1) ∧ w'.max = w.max ∧ w'.start = w.start ∧
      contents w' = contents w ++ [0] := by
  obtain ⟨w', e, i, c, m, st⟩ := advanceCursor_ok h.inv (by rw [h.size]; exact hn)
  refine ⟨w', e, ⟨i, ?_, ?_, ?_⟩, m, st, c⟩
  · rw [← contents_length, c, List.length_append, contents_length, h.size]; rfl
  · have := h.le; omega
  · intro pos hp
    rw [← h.bits pos hp, c]
    unfold bitAt
    have hl := h.le
    rw [List.getD_append _ _ _ _ (by rw [contents_length, h.size]; omega)]

theorem replaceBit_testBit {x : Nat} (hx : x < 256) {i : Nat} (hi : i < 8) (b : Bool) {j : Nat} (hj : j < 8) :
    (replaceBit x b i).testBit j = if j = i then b else x.testBit j := by
  have h : ∀ x < 256, ∀ i < 8, ∀ b : Bool, ∀ j < 8,
      (replaceBit x b i).testBit j = if j = i then b else x.testBit j := by decide +kernel
  exact h x hx i hi b j hj

/-- overwriting the next bit of the last byte -/
theorem Holds.setBit {w : Win} {hist : List Bool} {n j : Nat} (h : Holds w hist (n + 1))
    (hl : hist.length = 8 * n + j) (hj : j < 8) (b : Bool) :
    ∃ w', setBitAtCursor w b (7 - j) = some w' ∧ Holds w' (hist ++ [b]) (n + 1) ∧ w'.max = w.max ∧
      w'.start = w.start := by
  have hs : 0 < w.size := by rw [h.size]; omega
  obtain ⟨hlast, x, hx, hx'⟩ := contents_last h.inv hs
  obtain ⟨hv1, hv2⟩ := setBit_value (i := 7 - j) b hx' (by omega)
  obtain ⟨w', e, i', c, m, st, sz, cu⟩ := bufSet_cursor h.inv hs hv2
  refine ⟨w', ?_, ⟨i', by rw [sz, h.size], by simp; omega, ?_⟩, m, st⟩
  · unfold setBitAtCursor
    rw [hx, ob_some, check_pos (by omega), ob_some]
    dsimp only
    rw [hv1, e]
  · have hlen : (contents w).length = n + 1 := by rw [contents_length, h.size]
    have hdl : ((contents w).dropLast).length = n := by rw [List.length_dropLast, hlen]; rfl
    have hxn : (contents w).getD n 0 = x := by
      rw [hx, List.getLast?_eq_getElem?, hlen] at hlast
      rw [List.getD_eq_getElem?_getD, show n = n + 1 - 1 by omega, hlast]; rfl
    intro pos hp
    rw [List.length_append, List.length_singleton] at hp
    rw [show pos = 8 * (pos / 8) + pos % 8 by omega, bitAt_byte _ _ _ (by omega),
      show 8 * (pos / 8) + pos % 8 = pos by omega, c]
    by_cases hlt : pos / 8 < n
    · rw [List.getD_append _ _ _ _ (by omega), List.getD_append _ _ _ _ (by omega), ← h.bits pos (by omega)]
      unfold bitAt
      congr 1
      rw [List.getD_eq_getElem?_getD, List.getD_eq_getElem?_getD, List.getElem?_dropLast, if_pos (by omega)]
    · rw [show pos / 8 = n by omega, List.getD_append_right _ _ _ _ (by omega), hdl, Nat.sub_self,
        List.getD_cons_zero, replaceBit_testBit hx' (by omega) b (by omega)]
      by_cases hpj : pos = hist.length
      · rw [if_pos (by omega), List.getD_append_right _ _ _ _ (by omega), hpj, Nat.sub_self]
        rfl
      · rw [if_neg (by omega), List.getD_append _ _ _ _ (by omega), ← h.bits pos (by omega)]
        unfold bitAt
        rw [show pos / 8 = n by omega, hxn]

end Verif.History
