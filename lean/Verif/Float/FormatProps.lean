import Verif.Float.Props
import Verif.Pred.Model

/-! # The number formats (C65) -/

namespace Verif.Float

open Verif Verif.Fixed

/-- **C65 (formats, signed).** The number that each signed fixed point type stands for, as `as_f64` gives it: whole
numbers, multiples of `2 ^ -31` and `2 ^ -63`, of `2 ^ -11` for costs in bits, of `2 ^ -21` and `2 ^ -40` for stretched
probabilities, and of `2 ^ -21` for weights. -/
theorem C65_formats (raw : ℤ) (h : |raw| ≤ 2 ^ 53) :
    asF64I noFractI32 raw = some (raw : ℚ) ∧ asF64I noFractI64 raw = some (raw : ℚ) ∧
    asF64I fractOnlyI32 raw = some (raw / 2 ^ 31 : ℚ) ∧ asF64I fractOnlyI64 raw = some (raw / 2 ^ 63 : ℚ) ∧
    asF64I log2D raw = some (raw / 2 ^ 11 : ℚ) ∧ asF64I Pred.log2Q raw = some (raw / 2 ^ 11 : ℚ) ∧
    asF64I stretchedProbD raw = some (raw / 2 ^ 21 : ℚ) ∧ asF64I stretchedProbQ raw = some (raw / 2 ^ 40 : ℚ) ∧
    asF64I mixerWeight raw = some (raw / 2 ^ 21 : ℚ) := by
  have key : ∀ (T : FixI) (n : ℕ), T.frac = n → n ≤ 63 → asF64I T raw = some ((raw : ℚ) / 2 ^ n) := by
    rintro T n rfl hn
    exact C65_exact T hn raw h
  have k0 := key noFractI32 0 rfl (by norm_num)
  have k1 := key noFractI64 0 rfl (by norm_num)
  rw [pow_zero, div_one] at k0 k1
  exact ⟨k0, k1, key _ 31 rfl (by norm_num), key _ 63 rfl (by norm_num), key _ 11 rfl (by norm_num),
    key _ 11 rfl (by norm_num), key _ 21 rfl (by norm_num), key _ 40 rfl (by norm_num), key _ 21 rfl (by norm_num)⟩

/-- **C65 (formats, unsigned).** The same for the unsigned types. A final probability is a multiple of `2 ^ -23`. -/
theorem C65_formats_unsigned (raw : ℕ) (h : raw ≤ 2 ^ 53) :
    asF64U noFractU32 raw = some (raw : ℚ) ∧ asF64U noFractU64 raw = some (raw : ℚ) ∧
    asF64U fractOnlyU32 raw = some (raw / 2 ^ 31 : ℚ) ∧ asF64U fractOnlyU64 raw = some (raw / 2 ^ 63 : ℚ) ∧
    asF64U finalProbability raw = some (raw / 2 ^ 23 : ℚ) := by
  have key : ∀ (T : FixU) (n : ℕ), T.frac = n → n ≤ 63 → asF64U T raw = some ((raw : ℚ) / 2 ^ n) := by
    rintro T n rfl hn
    exact C65_exact_unsigned T hn raw h
  have k0 := key noFractU32 0 rfl (by norm_num)
  have k1 := key noFractU64 0 rfl (by norm_num)
  rw [pow_zero, div_one] at k0 k1
  exact ⟨k0, k1, key _ 31 rfl (by norm_num), key _ 63 rfl (by norm_num), key _ 23 rfl (by norm_num)⟩

/-- **C65 (bounds).** Which values `new` accepts: all of them for whole numbers, costs and weights, those from 0 to below
1 for probabilities, those from -12 to 12 for stretched probabilities. Wide stretched probabilities are not limited. -/
theorem C65_bounds :
    (∀ raw, noFractI32.new raw = some raw ∧ noFractI64.new raw = some raw ∧ log2D.new raw = some raw ∧
      Pred.log2Q.new raw = some raw ∧ mixerWeight.new raw = some raw ∧ stretchedProbQ.new raw = some raw) ∧
    (∀ raw, noFractU32.new raw = some raw ∧ noFractU64.new raw = some raw) ∧
    (∀ raw, -2 ^ 31 ≤ raw → raw < 2 ^ 31 →
      fractOnlyI32.new raw = (if 0 ≤ (raw / 2 ^ 31 : ℚ) ∧ (raw / 2 ^ 31 : ℚ) < 1 then some raw else none)) ∧
    (∀ raw, -2 ^ 63 ≤ raw → raw < 2 ^ 63 →
      fractOnlyI64.new raw = (if 0 ≤ (raw / 2 ^ 63 : ℚ) ∧ (raw / 2 ^ 63 : ℚ) < 1 then some raw else none)) ∧
    (∀ raw, fractOnlyU32.new raw = (if (raw / 2 ^ 31 : ℚ) < 1 then some raw else none)) ∧
    (∀ raw, fractOnlyU64.new raw = (if (raw / 2 ^ 63 : ℚ) < 1 then some raw else none)) ∧
    ∀ raw, stretchedProbD.new raw = (if |(raw / 2 ^ 21 : ℚ)| ≤ 12 then some raw else none) := by
  have hpos : ∀ (n : ℕ) (raw : ℤ), raw < 2 ^ n → ((0 ≤ (raw / 2 ^ n : ℚ) ∧ (raw / 2 ^ n : ℚ) < 1) ↔ 0 ≤ raw) := by
    intro n raw hlt
    have hp : (0 : ℚ) < 2 ^ n := by positivity
    rw [div_lt_one hp, le_div_iff₀ hp, zero_mul]
    have : (raw : ℚ) < 2 ^ n := by exact_mod_cast hlt
    simp only [this, and_true, Int.cast_nonneg_iff]
  have hu : ∀ (n raw : ℕ), ((raw / 2 ^ n : ℚ) < 1 ↔ raw / 2 ^ n = 0) := by
    intro n raw
    have hp : (0 : ℚ) < 2 ^ n := by positivity
    rw [div_lt_one hp, Nat.div_eq_zero_iff]
    constructor
    · intro h
      right
      exact_mod_cast h
    · rintro (h | h)
      · simp at h
      · exact_mod_cast h
  refine ⟨fun raw => ⟨rfl, rfl, rfl, rfl, rfl, rfl⟩, fun raw => ⟨rfl, rfl⟩, ?_, ?_, ?_, ?_, ?_⟩
  · intro raw _ h
    simp only [hpos 31 raw h, fractOnlyI32]
    split <;> rename_i hc
    · rw [check_pos hc]; rfl
    · rw [check_neg hc]; rfl
  · intro raw _ h
    simp only [hpos 63 raw h, fractOnlyI64]
    split <;> rename_i hc
    · rw [check_pos hc]; rfl
    · rw [check_neg hc]; rfl
  · intro raw
    simp only [hu 31 raw, fractOnlyU32]
    split <;> rename_i hc
    · rw [check_pos hc]; rfl
    · rw [check_neg hc]; rfl
  · intro raw
    simp only [hu 63 raw, fractOnlyU64]
    split <;> rename_i hc
    · rw [check_pos hc]; rfl
    · rw [check_neg hc]; rfl
  · intro raw
    have hb : |(raw / 2 ^ 21 : ℚ)| ≤ 12 ↔ -25165824 ≤ raw ∧ raw ≤ 25165824 := by
      rw [abs_le, le_div_iff₀ (by norm_num), div_le_iff₀ (by norm_num)]
      norm_num
      constructor
      · rintro ⟨h1, h2⟩
        exact ⟨by exact_mod_cast h1, by exact_mod_cast h2⟩
      · rintro ⟨h1, h2⟩
        exact ⟨by exact_mod_cast h1, by exact_mod_cast h2⟩
    simp only [hb, stretchedProbD]
    split <;> rename_i hc
    · rw [check_pos hc]; rfl
    · rw [check_neg hc]; rfl

/-- a half, in four formats -/
example : asF64U fractOnlyU32 (2 ^ 30) = some (1 / 2) ∧ asF64U finalProbability (2 ^ 22) = some (1 / 2) ∧
    asF64I stretchedProbD (2 ^ 20) = some (1 / 2) ∧ asF64I log2D (2 ^ 10) = some (1 / 2) := by
  refine ⟨?_, ?_, ?_, ?_⟩
  · rw [(C65_formats_unsigned _ (by norm_num)).2.2.1]; norm_num
  · rw [(C65_formats_unsigned _ (by norm_num)).2.2.2.2]; norm_num
  · rw [(C65_formats _ (by norm_num)).2.2.2.2.2.2.1]; norm_num
  · rw [(C65_formats _ (by norm_num)).2.2.2.2.1]; norm_num

end Verif.Float
