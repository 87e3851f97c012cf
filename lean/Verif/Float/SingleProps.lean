import Verif.Float.Props

/-!
# C65: conversion of single precision numbers to fixed point

A finite `f32` is also a finite `f64`, and the scaled number cannot overflow.
-/

namespace Verif.Float

open Verif Verif.Fixed

/-- every finite `f32` is a finite `f64` -/
theorem IsF32.isF64 {x : ℚ} (hx : IsF32 x) : IsF64 x := by
  obtain ⟨⟨m, k, hm, hk, e⟩, hb⟩ := hx
  refine ⟨⟨m, k, ?_, by omega, e⟩, lt_of_lt_of_le hb (pow_le_pow_right₀ (by norm_num) (by norm_num))⟩
  exact hm.trans_le (pow_le_pow_right₀ (by norm_num) (by norm_num))

theorem IsF32.scaled {x : ℚ} (hx : IsF32 x) {n : ℕ} (hn : n ≤ 63) : |x * 2 ^ n| < 2 ^ 1024 := by
  have h2 : (0 : ℚ) < 2 ^ n := by positivity
  rw [abs_mul, abs_of_pos h2]
  calc |x| * 2 ^ n < 2 ^ 128 * 2 ^ n := mul_lt_mul_of_pos_right hx.2 h2
    _ = 2 ^ (128 + n) := (pow_add _ _ _).symm
    _ ≤ 2 ^ 1024 := pow_le_pow_right₀ (by norm_num) (by omega)

/-- **C65 (from single precision).** Every finite `f32` is converted by dropping the digits beyond the last place; too
large numbers become the largest or smallest raw value before the check of the type. -/
theorem C65_from_f32 (w : ℕ) (T : FixI) (hf : T.frac ≤ 63) (x : ℚ) (hx : IsF32 x) :
    (∃ raw : ℤ, fromF32I w T x = T.new raw ∧
      (-2 ^ (w - 1) ≤ x * 2 ^ T.frac → x * 2 ^ T.frac < 2 ^ (w - 1) →
        |(raw : ℚ)| ≤ |x * 2 ^ T.frac| ∧ |x * 2 ^ T.frac - raw| < 1 ∧ 0 ≤ (raw : ℚ) * x) ∧
      (x * 2 ^ T.frac < -2 ^ (w - 1) → raw = -2 ^ (w - 1)) ∧
      (2 ^ (w - 1) ≤ x * 2 ^ T.frac → raw = 2 ^ (w - 1) - 1)) :=
  C65_from w T hf x hx.isF64 (hx.scaled hf)

/-- **C65 (from single precision).** The same for unsigned types; negative numbers become zero. -/
theorem C65_from_f32_unsigned (w : ℕ) (T : FixU) (hf : T.frac ≤ 63) (x : ℚ) (hx : IsF32 x) :
    (∃ raw : ℕ, fromF32U w T x = T.new raw ∧
      (0 ≤ x → x * 2 ^ T.frac < 2 ^ w → (raw : ℚ) ≤ x * 2 ^ T.frac ∧ x * 2 ^ T.frac < raw + 1) ∧
      (x < 0 → raw = 0) ∧ (2 ^ w ≤ x * 2 ^ T.frac → raw = 2 ^ w - 1)) :=
  C65_from_unsigned w T hf x hx.isF64 (hx.scaled hf)

/-- `-0.3` in single precision as a mixer weight -/
example : IsF32 (-10066330 / 33554432) ∧ fromF32I 32 mixerWeight (-10066330 / 33554432) = some (-629145) := by
  refine ⟨⟨⟨-10066330, -25, by norm_num, by norm_num, by norm_num⟩, by rw [abs_lt]; constructor <;> norm_num⟩, ?_⟩
  decide +kernel

end Verif.Float
