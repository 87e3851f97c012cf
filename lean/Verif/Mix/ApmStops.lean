import Verif.Mix.ApmKernel
import Verif.Mix.Apm
import Verif.Lut.Props
import Mathlib.Tactic.IntervalCases

/-! # Stretch and squash relative to the interval stops -/

namespace Verif.Mix

open Verif Verif.Fixed Verif.Lut

attribute [local irreducible] squashTable stretchTable

theorem stOut_near {p q : Nat} (h0 : 0 < p) (hpq : p ≤ q) (h : q < 2 ^ 31) : stOut p ≤ stOut q + 1 := by
  obtain ⟨r, t, h1, h2, h3⟩ := C35_near_monotone stretchTable stretchLut_eq p q h0 hpq h
  rw [(stretch_eq stretchTable_ok h0 (by omega)).1] at h1
  rw [(stretch_eq stretchTable_ok (by omega) h).1] at h2
  obtain rfl := Option.some.inj h1
  obtain rfl := Option.some.inj h2
  exact h3

theorem stOut_mag {q : Nat} (h : 2 ^ 30 ≤ q) : stOut q = stMag q := by
  unfold stOut; rw [if_neg (by omega)]

theorem upOk_spec {t : Nat} : ∀ (n q : Nat), upOk t n q = true → 2 ^ 30 ≤ q →
    ∀ x, q ≤ x → x < 2 ^ 31 → (t : Int) ≤ stOut x := by
  intro n
  induction n with
  | zero => intro q h; cases h
  | succ n ih =>
    intro q h hq x hx hx2
    rw [upOk] at h
    have hnear := stOut_near (p := q) (by omega) hx hx2
    rw [stOut_mag hq] at hnear
    by_cases h1 : t < stMag q
    · omega
    · have e1 : t.blt (stMag q) = false := by rw [Bool.eq_false_iff, ne_eq, Nat.blt_eq]; exact h1
      rw [e1, cond_false] at h
      by_cases h2 : stMag q = t
      · have e2 : (stMag q).beq t = true := by rw [Nat.beq_eq]; exact h2
        rw [e2, cond_true] at h
        by_cases h3 : x = q
        · subst h3
          rw [stOut_mag hq]; omega
        · exact ih (q + 1) h (by omega) x (by omega) hx2
      · have e2 : (stMag q).beq t = false := by rw [Bool.eq_false_iff, ne_eq, Nat.beq_eq]; exact h2
        rw [e2, cond_false] at h
        cases h

theorem downOk_spec {t : Nat} : ∀ (n q : Nat), downOk t n q = true → 2 ^ 30 + n ≤ q → q < 2 ^ 31 →
    ∀ x, 0 < x → x ≤ q → stOut x ≤ t := by
  intro n
  induction n with
  | zero => intro q h; cases h
  | succ n ih =>
    intro q h hq hq2 x hx hxq
    rw [downOk] at h
    have hnear := stOut_near (p := x) hx hxq hq2
    rw [stOut_mag (q := q) (by omega)] at hnear
    by_cases h1 : stMag q < t
    · omega
    · have e1 : (stMag q).blt t = false := by rw [Bool.eq_false_iff, ne_eq, Nat.blt_eq]; exact h1
      rw [e1, cond_false] at h
      by_cases h2 : stMag q = t
      · have e2 : (stMag q).beq t = true := by rw [Nat.beq_eq]; exact h2
        rw [e2, cond_true] at h
        by_cases h3 : x = q
        · subst h3
          rw [stOut_mag (by omega)]; omega
        · exact ih (q - 1) h (by omega) (by omega) x hx (by omega)
      · have e2 : (stMag q).beq t = false := by rw [Bool.eq_false_iff, ne_eq, Nat.beq_eq]; exact h2
        rw [e2, cond_false] at h
        cases h

/-- an upper stop separates the values of stretch -/
theorem upper_stop {j : Nat} (h1 : 1 ≤ j) (h2 : j ≤ 47) :
    (∀ x, sqField (32 * j) < x → x < 2 ^ 31 → ((j * 524288 : Nat) : Int) ≤ stOut x) ∧
    (∀ x, 0 < x → x < sqField (32 * j) → stOut x ≤ ((j * 524288 : Nat) : Int)) := by
  have h := List.all_eq_true.mp stops_ok j (List.mem_range'_1.mpr ⟨h1, by omega⟩)
  unfold stopOk at h
  dsimp only at h
  rw [Bool.and_eq_true, Bool.and_eq_true, Bool.and_eq_true, Nat.blt_eq, Nat.blt_eq] at h
  obtain ⟨⟨⟨a, b⟩, c⟩, d⟩ := h
  generalize sqField (32 * j) = s at *
  exact ⟨fun x hx hx2 => upOk_spec 1000 (s + 1) c (by omega) x (by omega) hx2,
    fun x hx hx2 => downOk_spec 1000 (s - 1) d (by omega) (by omega) x hx (by omega)⟩

/-- every inner stop separates the values of stretch -/
theorem stop_split {i : Nat} (h1 : 1 ≤ i) (h2 : i ≤ 95) {x : Nat} (hx : 0 < x) (hx2 : x < 2 ^ 31) :
    (sqAt (32 * i) < x → ((i : Int) - 48) * 2 ^ 19 ≤ stOut x) ∧
    (x < sqAt (32 * i) → stOut x ≤ ((i : Int) - 48) * 2 ^ 19) := by
  rcases Nat.lt_trichotomy i 48 with h | h | h
  · -- below the middle
    have e : sqAt (32 * i) = 2147483648 - sqField (32 * (48 - i)) := by
      unfold sqAt
      rw [if_pos (by omega)]
      congr 2
      omega
    obtain ⟨u1, u2⟩ := upper_stop (j := 48 - i) (by omega) (by omega)
    obtain ⟨f1, f2, -⟩ := sq_facts (k := 32 * (48 - i)) (by omega)
    have hn := stOut_neg hx hx2
    rw [e]
    generalize sqField (32 * (48 - i)) = s at *
    constructor
    · intro hs
      have := u2 (2 ^ 31 - x) (by omega) (by omega)
      norm_num at *
      omega
    · intro hs
      have := u1 (2 ^ 31 - x) (by omega) (by omega)
      norm_num at *
      omega
  · subst h
    have e : sqAt (32 * 48) = 2 ^ 30 := by
      unfold sqAt
      rw [if_neg (by omega), show 32 * 48 - 1536 = 0 from rfl, squash_zero]; rfl
    rw [e]
    obtain ⟨-, b1, b2⟩ := stOut_bounds hx hx2
    constructor
    · intro hs
      have := b2 (by omega)
      simpa using this
    · intro hs
      have := b1 (by omega)
      simpa using this
  · have e : sqAt (32 * i) = sqField (32 * (i - 48)) := by
      unfold sqAt
      rw [if_neg (by omega), show 32 * i - 1536 = 32 * (i - 48) by omega]
    obtain ⟨u1, u2⟩ := upper_stop (j := i - 48) (by omega) (by omega)
    rw [e]
    constructor
    · intro hs
      have := u1 x hs hx2
      push_cast [Nat.cast_sub (show 48 ≤ i by omega)] at this
      norm_num at *
      omega
    · intro hs
      have := u2 x hx hs
      push_cast [Nat.cast_sub (show 48 ≤ i by omega)] at this
      norm_num at *
      omega

/-- the stop with index `i` -/
def stopAt (fb i : Nat) : Nat := sqAt (i * 2 ^ (7 - fb))

theorem stopAt_mono {fb i : Nat} (hfb : fb ≤ 7) (hi : i + 1 ≤ 24 * 2 ^ fb) : stopAt fb i ≤ stopAt fb (i + 1) := by
  unfold stopAt
  refine sqAt_le (Nat.mul_le_mul_right _ (by omega)) ?_
  calc (i + 1) * 2 ^ (7 - fb) ≤ 24 * 2 ^ fb * 2 ^ (7 - fb) := Nat.mul_le_mul_right _ hi
    _ = 24 * 2 ^ 7 := by rw [Nat.mul_assoc, ← pow_add, show fb + (7 - fb) = 7 by omega]

theorem stopAt_index {fb i : Nat} (hfb : fb ≤ 7) (hi : i ≤ 24 * 2 ^ fb) : i * 2 ^ (7 - fb) ≤ 3072 := by
  calc i * 2 ^ (7 - fb) ≤ 24 * 2 ^ fb * 2 ^ (7 - fb) := Nat.mul_le_mul_right _ hi
    _ = 24 * 2 ^ 7 := by rw [Nat.mul_assoc, ← pow_add, show fb + (7 - fb) = 7 by omega]

theorem stopAt_bounds {fb i : Nat} (hfb : fb ≤ 7) (hi : i ≤ 24 * 2 ^ fb) :
    16384 ≤ stopAt fb i ∧ stopAt fb i ≤ 2147467264 := sqAt_bounds (stopAt_index hfb hi)

theorem stopAt_symm {fb i : Nat} (hfb : fb ≤ 7) (hi : i ≤ 24 * 2 ^ fb) :
    stopAt fb (24 * 2 ^ fb - i) + stopAt fb i = 2147483648 := by
  unfold stopAt
  have := sqAt_symm (stopAt_index hfb hi)
  rw [← this]
  congr 2
  rw [Nat.sub_mul, Nat.mul_assoc, ← pow_add, show fb + (7 - fb) = 7 by omega]
  norm_num

theorem stopValue_eq {fb i : Nat} (hfb : fb ≤ 7) (hi : i ≤ 24 * 2 ^ fb) :
    stopValue squashTable fb i = some (stopAt fb i) := by
  have hidx := stopAt_index hfb hi
  unfold stopValue
  rw [subU_eq (by omega), ob_some]
  have hx : ((i : Int) - (intervalStopsCount fb / 2 : Nat)) * 2 ^ (21 - fb) =
      ((16384 * (i * 2 ^ (7 - fb)) + 0 : Nat) : Int) - 25165824 := by
    have e1 : intervalStopsCount fb / 2 = 12 * 2 ^ fb := by unfold intervalStopsCount intervalsCount; omega
    have e2 : (2 : Int) ^ (21 - fb) = 2 ^ (7 - fb) * 16384 := by
      rw [show 21 - fb = (7 - fb) + 14 by omega, pow_add]; norm_num
    have e3 : (2 : Int) ^ fb * 2 ^ (7 - fb) = 128 := by
      rw [← pow_add, show fb + (7 - fb) = 7 by omega]; norm_num
    rw [e1, e2]
    push_cast
    linear_combination (-12 * 16384 : Int) * e3
  rw [hx]
  have hb : -25165824 ≤ ((16384 * (i * 2 ^ (7 - fb)) + 0 : Nat) : Int) - 25165824 ∧
      ((16384 * (i * 2 ^ (7 - fb)) + 0 : Nat) : Int) - 25165824 ≤ 25165824 := by omega
  rw [wrapI32_eq (by omega)]
  have hn : stretchedProbD.new (((16384 * (i * 2 ^ (7 - fb)) + 0 : Nat) : Int) - 25165824) =
      some (((16384 * (i * 2 ^ (7 - fb)) + 0 : Nat) : Int) - 25165824) := by
    change (do check _; some _) = _
    rw [check_pos hb]; rfl
  rw [hn, ob_some, squash_cell (by omega) (by omega), sqOut_zero]
  rfl

end Verif.Mix
