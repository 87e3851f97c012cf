import Verif.Fixed.MoreProps

/-!
# C07, C46: the ends of the signed types

The other theorems on conversion leave out the least value of a signed type, those on rounding shifts by all bits but the
sign. Here is what happens there.
-/

namespace Verif.Fixed

open Verif

/-- **C07 (all bits but the sign).** Shifting a signed value down by its width less one gives zero, whatever the value. -/
theorem C07_sign_only (w : Nat) (hw : 2 ≤ w) (raw : Int) (h1 : -2 ^ (w - 1) ≤ raw) (h2 : raw < 2 ^ (w - 1)) :
    scaledDownI w raw (w - 1) = some 0 := by
  unfold scaledDownI
  rw [check_pos (by omega), ob_some, check_pos (by omega), ob_some]
  have hp : (0 : Int) < 2 ^ (w - 1) := by positivity
  have e : (2 : Int) ^ w = 2 ^ (w - 1) + 2 ^ (w - 1) := by
    obtain ⟨v, rfl⟩ : ∃ v, w = v + 1 := ⟨w - 1, by omega⟩
    rw [Nat.add_sub_cancel, pow_succ]; ring
  have hw2 : wrapI w (2 ^ (w - 1)) = -2 ^ (w - 1) := by
    unfold wrapI
    rw [← e, Int.emod_self]
    omega
  rw [hw2, Int.tdiv_neg]
  generalize hx : wrapI w (raw.sign * 2 ^ (w - 1 - 1)) = x
  congr 1
  rw [neg_eq_zero]
  unfold satAddI
  generalize hz : max (max (-2 ^ (w - 1)) (min (2 ^ (w - 1) - 1) (raw + x))) (-2 ^ (w - 1) + 1) = z
  have hz1 : -2 ^ (w - 1) < z := by rw [← hz]; exact lt_of_lt_of_le (by omega) (le_max_right _ _)
  have hz2 : z < 2 ^ (w - 1) := by
    rw [← hz]
    exact max_lt (max_lt (by omega) (lt_of_le_of_lt (min_le_left _ _) (by omega))) (by
      have : (2 : Int) ^ (w - 1) = 2 * 2 ^ (w - 2) := by
        rw [show w - 1 = w - 2 + 1 by omega, pow_succ]; ring
      omega)
  rcases le_total 0 z with h | h
  · rw [Int.tdiv_eq_ediv_of_nonneg h, Int.ediv_eq_zero_of_lt h hz2]
  · obtain ⟨y, rfl⟩ : ∃ y, z = -y := ⟨-z, by omega⟩
    rw [Int.neg_tdiv, Int.tdiv_eq_ediv_of_nonneg (by omega), Int.ediv_eq_zero_of_lt (by omega) (by omega), neg_zero]

/-- **C46 (least value).** The least value of a signed type is converted exactly to the same number of fractional bits, is
rejected for more, and for fewer gives the same as its successor. -/
theorem C46_least (w : Nat) (A R : FixI) :
    (A.frac = R.frac → 1 ≤ w → toFixI w A R (-2 ^ (w - 1)) = R.new (-2 ^ (w - 1))) ∧
    (A.frac < R.frac → toFixI w A R (-2 ^ (w - 1)) = none) ∧
    (R.frac < A.frac → A.frac - R.frac + 1 < w →
      toFixI w A R (-2 ^ (w - 1)) = R.new (-(2 ^ (w - 1 - (A.frac - R.frac)) - 1))) := by
  have hp : (0 : Int) < 2 ^ (w - 1) := by positivity
  refine ⟨fun h hw => ?_, fun h => ?_, fun h hw => ?_⟩
  · unfold toFixI
    have e : wrapI w (-2 ^ (w - 1)) = -2 ^ (w - 1) := by
      unfold wrapI
      rw [neg_add_cancel, Int.zero_emod, zero_sub]
    rw [if_neg (by omega), h, Nat.sub_self]
    dsimp only
    rw [check_pos (by omega), ob_some, pow_zero, mul_one, e, check_pos (by rw [Int.ediv_one]), ob_some]
  · unfold toFixI
    rw [if_neg (by omega)]
    dsimp only
    by_cases hb : R.frac - A.frac < w
    · rw [check_pos hb, ob_some, check_neg, ob_none]
      intro hc
      have hlt : -2 ^ (w - 1) ≤ wrapI w (-2 ^ (w - 1) * 2 ^ (R.frac - A.frac)) := by
        unfold wrapI
        have := Int.emod_nonneg (-2 ^ (w - 1) * 2 ^ (R.frac - A.frac) + 2 ^ (w - 1) : Int) (b := 2 ^ w) (by positivity)
        omega
      obtain ⟨d, hd⟩ : ∃ d, R.frac - A.frac = d + 1 := ⟨R.frac - A.frac - 1, by omega⟩
      rw [hd] at hc hlt
      have h2 : (2 : Int) ≤ 2 ^ (d + 1) := by
        have : (1 : Int) ≤ 2 ^ d := by exact_mod_cast Nat.one_le_two_pow
        rw [pow_succ]; omega
      generalize wrapI w (-2 ^ (w - 1) * 2 ^ (d + 1)) = x at hc hlt
      have h3 := Int.mul_ediv_add_emod x (2 ^ (d + 1))
      rw [hc] at h3
      have h4 := Int.emod_lt_of_pos x (b := 2 ^ (d + 1)) (by positivity)
      have hdw : (2 : Int) ^ (d + 1) ≤ 2 ^ (w - 1) := by
        have : (2 : Nat) ^ (d + 1) ≤ 2 ^ (w - 1) := Nat.pow_le_pow_right (by norm_num) (by omega)
        exact_mod_cast this
      nlinarith
    · rw [check_neg hb, ob_none]
  · unfold toFixI
    rw [if_pos h, C07_signed_min w _ (by omega) hw, ob_some]

/-- **C46 (formats far apart).** If the numbers of fractional bits differ by the width or more, every conversion panics. -/
theorem C46_far (w : Nat) :
    (∀ (A R : FixI) (raw : Int), w ≤ A.frac - R.frac ∨ w ≤ R.frac - A.frac → 0 < w → toFixI w A R raw = none) ∧
    (∀ (A R : FixU) (raw : Nat), w ≤ A.frac - R.frac ∨ w ≤ R.frac - A.frac → 0 < w → toFixU w A R raw = none) := by
  constructor
  · intro A R raw h hw
    unfold toFixI
    split
    · unfold scaledDownI
      rw [check_pos (by omega), ob_some, check_neg (by omega), ob_none, ob_none]
    · dsimp only
      rw [check_neg (by omega), ob_none]
  · intro A R raw h hw
    unfold toFixU
    split
    · unfold scaledDownU
      rw [check_pos (by omega), ob_some, check_neg (by omega), ob_none, ob_none]
    · dsimp only
      rw [check_neg (by omega), ob_none]

example : scaledDownI 32 (-2 ^ 31) 21 = some (-1023) ∧ scaledDownI 32 (-2 ^ 31 + 1) 21 = some (-1023) ∧
    scaledDownI 32 (2 ^ 31 - 1) 31 = some 0 ∧ toFixI 32 ⟨8, some⟩ ⟨9, some⟩ (-2 ^ 31) = none ∧
    toFixI 32 ⟨40, some⟩ ⟨8, some⟩ 5 = none := by decide +kernel

end Verif.Fixed
