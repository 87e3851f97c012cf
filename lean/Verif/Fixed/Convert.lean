import Verif.Fixed.Props

/-!
# C46: conversions between fixed point formats
-/

namespace Verif.Fixed

open Verif

theorem shl_fits {w bits raw : Nat} (hb : bits < w) :
    (raw * 2 ^ bits % 2 ^ w / 2 ^ bits = raw) ↔ raw * 2 ^ bits < 2 ^ w := by
  have e : 2 ^ w = 2 ^ bits * 2 ^ (w - bits) := by rw [← pow_add]; congr 1; omega
  have hp : 0 < 2 ^ bits := by positivity
  rw [e]
  generalize 2 ^ bits = a at *
  generalize 2 ^ (w - bits) = b at *
  rw [Nat.mul_comm raw a, Nat.mul_mod_mul_left, Nat.mul_div_cancel_left _ hp, Nat.mul_lt_mul_left hp]
  constructor
  · intro h
    by_contra hc
    have : b ≤ raw := by omega
    rcases Nat.eq_zero_or_pos b with hb0 | hb0
    · have h0 : 0 < 2 ^ w := by positivity
      rw [e, hb0] at h0
      simp at h0
    · have := Nat.mod_lt raw hb0
      omega
  · intro h
    exact Nat.mod_eq_of_lt h

theorem shl_fits_signed {w bits : Nat} {raw : Int} (hb : bits < w) :
    (wrapI w (raw * 2 ^ bits) / 2 ^ bits = raw) ↔
      -2 ^ (w - 1) ≤ raw * 2 ^ bits ∧ raw * 2 ^ bits < 2 ^ (w - 1) := by
  have hp : (0 : Int) < 2 ^ bits := by positivity
  constructor
  · intro h
    have hlo : -2 ^ (w - 1) ≤ wrapI w (raw * 2 ^ bits) := by
      unfold wrapI
      have := Int.emod_nonneg (raw * 2 ^ bits + 2 ^ (w - 1)) (show (2 : Int) ^ w ≠ 0 by positivity)
      omega
    have hhi : wrapI w (raw * 2 ^ bits) < 2 ^ (w - 1) := by
      unfold wrapI
      have := Int.emod_lt_of_pos (raw * 2 ^ bits + 2 ^ (w - 1)) (show (0 : Int) < 2 ^ w by positivity)
      have e : (2 : Int) ^ w = 2 ^ (w - 1) + 2 ^ (w - 1) := by
        obtain ⟨v, rfl⟩ : ∃ v, w = v + 1 := ⟨w - 1, by omega⟩
        rw [Nat.add_sub_cancel, pow_succ]; ring
      omega
    generalize wrapI w (raw * 2 ^ bits) = y at *
    have e : (2 : Int) ^ (w - 1) = 2 ^ bits * 2 ^ (w - 1 - bits) := by rw [← pow_add]; congr 1; omega
    have h1 := Int.mul_ediv_self_le (x := y) (k := 2 ^ bits) hp.ne'
    have h2 := Int.lt_mul_ediv_self_add (x := y) (k := 2 ^ bits) hp
    rw [h] at h1 h2
    refine ⟨?_, by rw [mul_comm]; omega⟩
    rw [e] at hlo ⊢
    have : 2 ^ bits * (-2 ^ (w - 1 - bits)) < (2 : Int) ^ bits * (raw + 1) := by
      rw [mul_add, mul_one, mul_neg]; omega
    have := lt_of_mul_lt_mul_left this hp.le
    have h3 : (2 : Int) ^ bits * (-2 ^ (w - 1 - bits)) ≤ 2 ^ bits * raw :=
      mul_le_mul_of_nonneg_left (by omega) hp.le
    rw [mul_neg] at h3
    rw [mul_comm raw]; exact h3
  · rintro ⟨h1, h2⟩
    rw [wrapI_id (by omega) h1 h2]
    exact Int.mul_ediv_cancel _ hp.ne'

/-- **C46 (unsigned).** Converting to a format with at least as many fractional bits multiplies exactly, and
panics exactly when the product does not fit (or the result type rejects it); converting to one with fewer
rounds to nearest. No conversion wraps around. -/
theorem C46_unsigned (w : Nat) (A R : FixU) (raw : Nat) (hraw : raw < 2 ^ w) :
    (A.frac ≤ R.frac → R.frac - A.frac < w → toFixU w A R raw =
      if raw * 2 ^ (R.frac - A.frac) < 2 ^ w then R.new (raw * 2 ^ (R.frac - A.frac)) else none) ∧
    (R.frac < A.frac → A.frac - R.frac < w → raw + 2 ^ (A.frac - R.frac - 1) < 2 ^ w →
      ∃ r : Nat, Nearest raw (A.frac - R.frac) r ∧ toFixU w A R raw = R.new r) := by
  unfold toFixU
  constructor
  · intro h hw
    rw [if_neg (by omega)]
    dsimp only
    rw [check_pos hw, ob_some]
    by_cases hf : raw * 2 ^ (R.frac - A.frac) < 2 ^ w
    · rw [check_pos ((shl_fits hw).mpr hf), ob_some, if_pos hf, Nat.mod_eq_of_lt hf]
    · rw [check_neg (fun h' => hf ((shl_fits hw).mp h')), ob_none, if_neg hf]
  · intro h hw hs
    rw [if_pos h]
    obtain ⟨r, hr, hn, -⟩ := C07_unsigned w (A.frac - R.frac) raw (by omega) hw hraw
    exact ⟨r, hn hs, by rw [hr, ob_some]⟩

/-- **C46 (signed).** As `C46_unsigned` for signed values. -/
theorem C46_signed (w : Nat) (A R : FixI) (raw : Int) (h1 : -2 ^ (w - 1) < raw) (h2 : raw < 2 ^ (w - 1)) :
    (A.frac ≤ R.frac → R.frac - A.frac < w → toFixI w A R raw =
      if -2 ^ (w - 1) ≤ raw * 2 ^ (R.frac - A.frac) ∧ raw * 2 ^ (R.frac - A.frac) < 2 ^ (w - 1)
      then R.new (raw * 2 ^ (R.frac - A.frac)) else none) ∧
    (R.frac < A.frac → A.frac - R.frac + 1 < w → |raw| + 2 ^ (A.frac - R.frac - 1) < 2 ^ (w - 1) →
      ∃ r : Int, Nearest raw (A.frac - R.frac) r ∧ toFixI w A R raw = R.new r) := by
  unfold toFixI
  constructor
  · intro h hw
    rw [if_neg (by omega)]
    dsimp only
    rw [check_pos hw, ob_some]
    split
    · rename_i hf
      rw [check_pos ((shl_fits_signed hw).mpr hf), ob_some, wrapI_id (by omega) hf.1 hf.2]
    · rename_i hf
      rw [check_neg (fun h' => hf ((shl_fits_signed hw).mp h')), ob_none]
  · intro h hw hs
    rw [if_pos h]
    obtain ⟨r, hr, hn, -⟩ := C07_signed w (A.frac - R.frac) raw (by omega) hw h1 h2
    exact ⟨r, hn hs, by rw [hr, ob_some]⟩

theorem narrow_ok {r : Int} {α : Type} (f : Int → Option α) :
    (do check (wrapI32 r = r); f (wrapI32 r)) = if -2 ^ 31 ≤ r ∧ r < 2 ^ 31 then f r else none := by
  by_cases hc : -2 ^ 31 ≤ r ∧ r < 2 ^ 31
  · have : wrapI32 r = r := wrapI32_eq (by omega)
    rw [check_pos this, if_pos hc, ob_some, this]
  · have : ¬ wrapI32 r = r := by
      unfold wrapI32
      omega
    rw [check_neg this, if_neg hc, ob_none]

/-- **C46 (narrowing).** Conversion from 64 to 32 bits: exact or rounded to nearest as above, and a panic
exactly when the value does not fit 32 bits (or the result type rejects it). -/
theorem C46_narrow (A R : FixI) (raw : Int) (h1 : -2 ^ 63 < raw) (h2 : raw < 2 ^ 63) :
    (A.frac ≤ R.frac → R.frac - A.frac < 64 → toFixI64I32 A R raw =
      if -2 ^ 31 ≤ raw * 2 ^ (R.frac - A.frac) ∧ raw * 2 ^ (R.frac - A.frac) < 2 ^ 31
      then R.new (raw * 2 ^ (R.frac - A.frac)) else none) ∧
    (R.frac < A.frac → A.frac - R.frac < 63 → |raw| + 2 ^ (A.frac - R.frac - 1) < 2 ^ 63 →
      ∃ r : Int, Nearest raw (A.frac - R.frac) r ∧
        toFixI64I32 A R raw = if -2 ^ 31 ≤ r ∧ r < 2 ^ 31 then R.new r else none) := by
  unfold toFixI64I32
  constructor
  · intro h hw
    rw [if_neg (by omega)]
    dsimp only
    rw [check_pos hw, ob_some]
    by_cases hf : -2 ^ 63 ≤ raw * 2 ^ (R.frac - A.frac) ∧ raw * 2 ^ (R.frac - A.frac) < 2 ^ 63
    · rw [check_pos ((shl_fits_signed hw).mpr hf), ob_some, wrapI_id (w := 64) (by omega) hf.1 hf.2]
      exact narrow_ok _
    · rw [check_neg (fun h' => hf ((shl_fits_signed hw).mp h')), ob_none, if_neg]
      generalize raw * 2 ^ (R.frac - A.frac) = z at *
      omega
  · intro h hw hs
    rw [if_pos h]
    obtain ⟨r, hr, hn, -⟩ := C07_signed 64 (A.frac - R.frac) raw (by omega) (by omega) h1 h2
    exact ⟨r, hn hs, by rw [hr, ob_some]; exact narrow_ok _⟩

example : toFixI64I32 ⟨40, fun z => some z⟩ ⟨20, fun z => some z⟩ (3 * 2 ^ 39) = some (3 * 2 ^ 19) ∧
    toFixI64I32 ⟨40, fun z => some z⟩ ⟨20, fun z => some z⟩ (2 ^ 51) = none ∧
    toFixI64I32 ⟨10, fun z => some z⟩ ⟨30, fun z => some z⟩ (-2 ^ 11) = some (-2 ^ 31) ∧
    toFixU 32 ⟨10, fun z => some z⟩ ⟨30, fun z => some z⟩ (2 ^ 12) = none := by decide +kernel

end Verif.Fixed
