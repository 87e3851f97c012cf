import Verif.Float.Lemmas
import Verif.Random.Props
import Mathlib.Tactic.NormNum.Basic

/-! # Conversions to floating point and random reals (C65, C66) -/

namespace Verif.Float

open Verif Verif.Fixed

theorem intoF64_small {z : ℤ} (h : |z| ≤ 2 ^ 53) : intoF64 z = some (z : ℚ) := by
  have := fl_fits (isF64_int h (show (-1074 : ℤ) ≤ 0 by norm_num) (by norm_num))
  rwa [zpow_zero, mul_one] at this

theorem intoF64_pow {n : ℕ} (h : n ≤ 970) : intoF64 (2 ^ n) = some ((2 : ℚ) ^ n) := by
  have := fl_fits (isF64_int (m := 1) (k := n) (by norm_num) (by omega) (by omega))
  rw [Int.cast_one, one_mul, zpow_natCast] at this
  unfold intoF64
  push_cast
  exact this

theorem over_pow (x : ℚ) (n : ℕ) : x / 2 ^ n = x * 2 ^ (-(n : ℤ)) := by
  rw [zpow_neg, zpow_natCast, div_eq_mul_inv]

/-- dividing by a power of two is exact, away from the smallest numbers -/
theorem fDiv_pow {m k : ℤ} {n : ℕ} (hm : |m| ≤ 2 ^ 53) (hk : -1000 ≤ k) (hk' : k ≤ 970) (hn : n ≤ 63) :
    fDiv (m * 2 ^ k) (2 ^ n) = some ((m : ℚ) * 2 ^ k / 2 ^ n) := by
  unfold fDiv
  rw [if_neg (by positivity), over_pow, mul_assoc, ← zpow_add₀ (by norm_num)]
  exact fl_fits (isF64_int hm (by omega) (by omega))

/-- **C65 (exact).** Values of up to 53 bits, hence all values of the 32 bit types, are converted to `f64` exactly. -/
theorem C65_exact (T : FixI) (hf : T.frac ≤ 63) (raw : ℤ) (h : |raw| ≤ 2 ^ 53) :
    asF64I T raw = some ((raw : ℚ) / 2 ^ T.frac) := by
  unfold asF64I
  rw [intoF64_small h, ob_some, intoF64_pow (by omega), ob_some]
  have := fDiv_pow (k := 0) h (by norm_num) (by norm_num) hf
  rwa [zpow_zero, mul_one] at this

/-- **C65 (exact).** The same for unsigned types. -/
theorem C65_exact_unsigned (T : FixU) (hf : T.frac ≤ 63) (raw : ℕ) (h : raw ≤ 2 ^ 53) :
    asF64U T raw = some ((raw : ℚ) / 2 ^ T.frac) := by
  have := C65_exact ⟨T.frac, some⟩ hf raw (by rw [abs_of_nonneg (by omega)]; exact_mod_cast h)
  rw [Int.cast_natCast] at this
  exact this

/-- rounding of a number below the largest power -/
theorem isF64_rnd {q : ℚ} (h : |q| ≤ 2 ^ 1023) : IsF64 (rnd q) := by
  refine ⟨fits_rounded (by norm_num) _ _, ?_⟩
  obtain ⟨h1, h2⟩ := abs_le.mp h
  have e1 : rnd (2 ^ 1023) = 2 ^ 1023 := by
    apply rounded_fits
    have := fits_le (p := 53) (e := -1074) (m := 1) (k := 1023) (by norm_num) (by norm_num) (by norm_num)
    rw [Int.cast_one, one_mul] at this
    exact this
  have e2 : rnd (-2 ^ 1023) = -2 ^ 1023 := by
    apply rounded_fits
    have := fits_le (p := 53) (e := -1074) (m := -1) (k := 1023) (by norm_num) (by norm_num) (by norm_num)
    rw [Int.cast_neg, Int.cast_one, neg_one_mul] at this
    exact this
  have m1 := rounded_mono (p := 53) (by norm_num) (-1074) h2
  have m2 := rounded_mono (p := 53) (by norm_num) (-1074) h1
  change rnd q ≤ rnd _ at m1
  change rnd _ ≤ rnd q at m2
  rw [e1] at m1
  rw [e2] at m2
  have hlt : (2 : ℚ) ^ 1023 < 2 ^ 1024 := pow_lt_pow_right₀ (by norm_num) (by norm_num)
  exact lt_of_le_of_lt (abs_le.mpr ⟨m2, m1⟩) hlt

theorem fl_some {q : ℚ} (h : |q| ≤ 2 ^ 1023) : fl q = some (rnd q) := by
  unfold fl
  rw [if_pos (isF64_rnd h).2]

/-- **C65 (nearest).** Any value of a 64 bit type becomes a nearest `f64`, with relative error at most `2^-53`. -/
theorem C65_nearest (T : FixI) (hf : T.frac ≤ 63) (raw : ℤ) (h : |raw| ≤ 2 ^ 64) :
    ∃ r, asF64I T raw = some r ∧ NearestF64 ((raw : ℚ) / 2 ^ T.frac) r ∧
      |r - (raw : ℚ) / 2 ^ T.frac| ≤ |(raw : ℚ) / 2 ^ T.frac| / 2 ^ 53 := by
  have hq : |(raw : ℚ)| ≤ 2 ^ 64 := by rw [← Int.cast_abs]; exact_mod_cast h
  have hbig : |(raw : ℚ)| ≤ 2 ^ 1023 := hq.trans (pow_le_pow_right₀ (by norm_num) (by norm_num))
  have hp : (0 : ℚ) < 2 ^ T.frac := by positivity
  obtain ⟨m, k, hm, hk, hmk⟩ : ∃ m k : ℤ, |m| ≤ 2 ^ 53 ∧ (-1000 ≤ k ∧ k ≤ 970) ∧ rnd raw = m * 2 ^ k := by
    by_cases hs : |raw| ≤ 2 ^ 53
    · refine ⟨raw, 0, hs, by norm_num, ?_⟩
      have := rounded_fits (fits_le (p := 53) (e := -1074) (k := 0) (by norm_num) hs (by norm_num))
      rw [zpow_zero, mul_one] at this ⊢
      exact this
    · refine ⟨_, lastPlace 53 (-1074) raw, ?_, ?_, rfl⟩
      · have := halfEven_abs_le (n := 2 ^ 53) (q := raw / 2 ^ lastPlace 53 (-1074) raw) (by
          have := quotient_lt 53 (-1074) (raw : ℚ)
          push_cast
          exact this)
        push_cast at this
        exact this
      · have h0 : (raw : ℚ) ≠ 0 := by
          intro h0
          rw [Int.cast_eq_zero] at h0
          rw [h0] at hs
          norm_num at hs
        have l1 : Int.log 2 |(raw : ℚ)| ≤ 64 := by
          have := (log_bounds h0).1.trans hq
          rw [← zpow_natCast] at this
          exact (zpow_le_zpow_iff_right₀ (by norm_num)).mp this
        unfold lastPlace
        push Not at hs
        have l2 : 0 < Int.log 2 |(raw : ℚ)| + 1 := by
          have h1 : (1 : ℚ) ≤ |(raw : ℚ)| := by
            rw [← Int.cast_abs]
            exact_mod_cast (by omega : 1 ≤ |raw|)
          have := lt_of_le_of_lt h1 (log_bounds h0).2
          rw [← zpow_zero (2 : ℚ)] at this
          exact (zpow_lt_zpow_iff_right₀ (by norm_num)).mp this
        push_cast
        omega
  have hr : asF64I T raw = some (rnd raw / 2 ^ T.frac) := by
    unfold asF64I
    rw [show intoF64 raw = some (rnd raw) from fl_some hbig, ob_some, intoF64_pow (by omega), ob_some, hmk]
    exact fDiv_pow hm hk.1 hk.2 hf
  have hd : ∀ y : ℚ, y / 2 ^ T.frac - raw / 2 ^ T.frac = (y - raw) / 2 ^ T.frac := fun y => by rw [sub_div]
  refine ⟨_, hr, ⟨?_, ?_⟩, ?_⟩
  · rw [hmk, over_pow, mul_assoc, ← zpow_add₀ (by norm_num)]
    exact isF64_int hm (by omega) (by omega)
  · intro y hy
    have hy2 : Fits 53 (-1074) (y * 2 ^ T.frac) := by
      obtain ⟨⟨m, k, hm, hk, rfl⟩, -⟩ := hy
      refine ⟨m, k + T.frac, hm, by omega, ?_⟩
      rw [zpow_add₀ (by norm_num), zpow_natCast, mul_assoc]
    have := rounded_best (by norm_num) (raw : ℚ) hy2
    rw [hd, show y - raw / 2 ^ T.frac = (y * 2 ^ T.frac - raw) / 2 ^ T.frac by
      rw [sub_div, mul_div_cancel_right₀ _ hp.ne'], abs_div, abs_div]
    exact div_le_div_of_nonneg_right this (abs_nonneg _)
  · rw [hd, abs_div, abs_div, div_right_comm]
    refine div_le_div_of_nonneg_right ?_ (abs_nonneg _)
    by_cases h0 : raw = 0
    · subst h0
      have : rnd ((0 : ℤ) : ℚ) = 0 := by rw [Int.cast_zero]; exact rounded_zero _ _
      rw [this]
      norm_num
    · have h1 : (1 : ℚ) ≤ |(raw : ℚ)| := by
        rw [← Int.cast_abs]
        exact_mod_cast Int.one_le_abs h0
      have := rnd_relative (q := raw) (le_trans (by
        rw [← zpow_zero (2 : ℚ)]
        exact zpow_le_zpow_right₀ (by norm_num) (by norm_num)) h1)
      rwa [zpow_neg, ← div_eq_mul_inv] at this

/-- **C65 (nearest).** The same for unsigned types. -/
theorem C65_nearest_unsigned (T : FixU) (hf : T.frac ≤ 63) (raw : ℕ) (h : raw ≤ 2 ^ 64) :
    ∃ r, asF64U T raw = some r ∧ NearestF64 ((raw : ℚ) / 2 ^ T.frac) r ∧
      |r - (raw : ℚ) / 2 ^ T.frac| ≤ |(raw : ℚ) / 2 ^ T.frac| / 2 ^ 53 := by
  have := C65_nearest ⟨T.frac, some⟩ hf raw (by rw [abs_of_nonneg (by omega)]; exact_mod_cast h)
  rw [Int.cast_natCast] at this
  exact this

/-- multiplication by a power of two is exact -/
theorem fMul_pow {x : ℚ} {n : ℕ} (hx : IsF64 x) (hb : |x * 2 ^ n| < 2 ^ 1024) : fMul x (2 ^ n) = some (x * 2 ^ n) := by
  obtain ⟨⟨m, k, hm, hk, rfl⟩, -⟩ := hx
  refine fl_fits ⟨⟨m, k + n, hm, by omega, ?_⟩, hb⟩
  rw [zpow_add₀ (by norm_num), zpow_natCast, mul_assoc]

/-- **C65 (from).** A float is converted by dropping the digits beyond the last place; too large numbers become the
largest or smallest raw value before the check of the type. -/
theorem C65_from (w : ℕ) (T : FixI) (hf : T.frac ≤ 63) (x : ℚ) (hx : IsF64 x) (hb : |x * 2 ^ T.frac| < 2 ^ 1024) :
    (∃ raw : ℤ, fromF64I w T x = T.new raw ∧
      (-2 ^ (w - 1) ≤ x * 2 ^ T.frac → x * 2 ^ T.frac < 2 ^ (w - 1) →
        |(raw : ℚ)| ≤ |x * 2 ^ T.frac| ∧ |x * 2 ^ T.frac - raw| < 1 ∧ 0 ≤ (raw : ℚ) * x) ∧
      (x * 2 ^ T.frac < -2 ^ (w - 1) → raw = -2 ^ (w - 1)) ∧
      (2 ^ (w - 1) ≤ x * 2 ^ T.frac → raw = 2 ^ (w - 1) - 1)) := by
  refine ⟨fromF64RawI w (x * 2 ^ T.frac), ?_, ?_, ?_, ?_⟩
  · unfold fromF64I
    rw [intoF64_pow (by omega), ob_some, fMul_pow hx hb, ob_some]
  · intro h1 h2
    have hp : (0 : ℚ) < 2 ^ T.frac := by positivity
    generalize hy : x * 2 ^ T.frac = y at *
    have hz : (0 : ℤ) < 2 ^ (w - 1) := by positivity
    have hsx : 0 ≤ y → 0 ≤ x := fun h => by
      rw [← hy] at h
      exact nonneg_of_mul_nonneg_left h hp
    have hsx' : y < 0 → x < 0 := fun h => by
      rw [← hy] at h
      exact neg_of_mul_neg_left h hp.le
    unfold fromF64RawI truncQ
    have hlo : ((-2 ^ (w - 1) : ℤ) : ℚ) ≤ y := by push_cast; exact h1
    have hup : y < ((2 ^ (w - 1) : ℤ) : ℚ) := by push_cast; exact h2
    split_ifs with h0
    · have f1 := Int.floor_le y
      have f2 := Int.lt_floor_add_one y
      have f3 : ⌊y⌋ < 2 ^ (w - 1) := Int.floor_lt.mpr hup
      have f4 : 0 ≤ ⌊y⌋ := Int.floor_nonneg.mpr h0
      rw [show max (-2 ^ (w - 1)) (min (2 ^ (w - 1) - 1) ⌊y⌋) = ⌊y⌋ by omega]
      have f5 : (0 : ℚ) ≤ ⌊y⌋ := by exact_mod_cast f4
      refine ⟨by rw [abs_of_nonneg f5, abs_of_nonneg h0]; exact f1, by rw [abs_of_nonneg (by linarith)]; linarith,
        mul_nonneg f5 (hsx h0)⟩
    · push Not at h0
      have f1 := Int.le_ceil y
      have f2 := Int.ceil_lt_add_one y
      have f3 : -2 ^ (w - 1) ≤ ⌈y⌉ := by
        have : ((-2 ^ (w - 1) : ℤ) : ℚ) ≤ (⌈y⌉ : ℚ) := hlo.trans f1
        exact_mod_cast this
      have f4 : ⌈y⌉ ≤ 0 := Int.ceil_le.mpr (by rw [Int.cast_zero]; exact h0.le)
      rw [show max (-2 ^ (w - 1)) (min (2 ^ (w - 1) - 1) ⌈y⌉) = ⌈y⌉ by omega]
      have f5 : (⌈y⌉ : ℚ) ≤ 0 := by exact_mod_cast f4
      refine ⟨by rw [abs_of_nonpos f5, abs_of_neg h0]; linarith, by rw [abs_of_nonpos (by linarith)]; linarith,
        mul_nonneg_of_nonpos_of_nonpos f5 (hsx' h0).le⟩
  · intro h
    have hz : (0 : ℤ) < 2 ^ (w - 1) := by positivity
    have hneg : ¬ 0 ≤ x * 2 ^ T.frac := by
      have : (0 : ℚ) < 2 ^ (w - 1) := by positivity
      linarith
    unfold fromF64RawI truncQ
    rw [if_neg hneg]
    have : ⌈x * 2 ^ T.frac⌉ ≤ -2 ^ (w - 1) := Int.ceil_le.mpr (by push_cast; exact h.le)
    omega
  · intro h
    have hz : (0 : ℤ) < 2 ^ (w - 1) := by positivity
    have hpos : 0 ≤ x * 2 ^ T.frac := le_trans (by positivity) h
    unfold fromF64RawI truncQ
    rw [if_pos hpos]
    have : 2 ^ (w - 1) ≤ ⌊x * 2 ^ T.frac⌋ := Int.le_floor.mpr (by push_cast; exact h)
    omega

/-- **C65 (from).** The same for unsigned types; negative numbers become zero. -/
theorem C65_from_unsigned (w : ℕ) (T : FixU) (hf : T.frac ≤ 63) (x : ℚ) (hx : IsF64 x) (hb : |x * 2 ^ T.frac| < 2 ^ 1024) :
    (∃ raw : ℕ, fromF64U w T x = T.new raw ∧
      (0 ≤ x → x * 2 ^ T.frac < 2 ^ w → (raw : ℚ) ≤ x * 2 ^ T.frac ∧ x * 2 ^ T.frac < raw + 1) ∧
      (x < 0 → raw = 0) ∧ (2 ^ w ≤ x * 2 ^ T.frac → raw = 2 ^ w - 1)) := by
  have hp : (0 : ℚ) < 2 ^ T.frac := by positivity
  have hz : (0 : ℤ) < 2 ^ w := by positivity
  refine ⟨fromF64RawU w (x * 2 ^ T.frac), ?_, ?_, ?_, ?_⟩
  · unfold fromF64U
    rw [intoF64_pow (by omega), ob_some, fMul_pow hx hb, ob_some]
  · intro h0 h2
    have hy : 0 ≤ x * 2 ^ T.frac := mul_nonneg h0 hp.le
    generalize x * 2 ^ T.frac = y at *
    have f1 := Int.floor_le y
    have f2 := Int.lt_floor_add_one y
    have f3 : ⌊y⌋ < 2 ^ w := Int.floor_lt.mpr (by push_cast; exact h2)
    have f4 : 0 ≤ ⌊y⌋ := Int.floor_nonneg.mpr hy
    unfold fromF64RawU truncQ
    rw [if_pos hy, show max 0 (min (2 ^ w - 1) ⌊y⌋) = ⌊y⌋ by omega]
    have f5 : ((⌊y⌋.toNat : ℕ) : ℚ) = (⌊y⌋ : ℚ) := by
      rw [← Int.cast_natCast, Int.toNat_of_nonneg f4]
    rw [f5]
    exact ⟨f1, f2⟩
  · intro h
    have hy : x * 2 ^ T.frac < 0 := mul_neg_of_neg_of_pos h hp
    unfold fromF64RawU truncQ
    rw [if_neg (not_le.mpr hy)]
    have : ⌈x * 2 ^ T.frac⌉ ≤ 0 := Int.ceil_le.mpr (by rw [Int.cast_zero]; exact hy.le)
    omega
  · intro h
    have hpos : 0 ≤ x * 2 ^ T.frac := le_trans (by positivity) h
    unfold fromF64RawU truncQ
    rw [if_pos hpos]
    have : 2 ^ w ≤ ⌊x * 2 ^ T.frac⌋ := Int.le_floor.mpr (by push_cast; exact h)
    have h2 : ((2 ^ w : ℕ) : ℤ) = 2 ^ w := by push_cast; rfl
    omega

/-- **C65 (round trip).** Values of up to 53 bits survive the conversion to `f64` and back. -/
theorem C65_round_trip (w : ℕ) (T : FixI) (hf : T.frac ≤ 63) (raw : ℤ) (h : |raw| ≤ 2 ^ 53) (hw : -2 ^ (w - 1) ≤ raw)
    (hw' : raw < 2 ^ (w - 1)) (hT : T.new raw = some raw) : (asF64I T raw >>= fromF64I w T) = some raw := by
  rw [C65_exact T hf raw h, ob_some]
  have hx : IsF64 ((raw : ℚ) / 2 ^ T.frac) := by
    rw [over_pow]
    exact isF64_int h (by omega) (by omega)
  have hp : (0 : ℚ) < 2 ^ T.frac := by positivity
  have hcancel : (raw : ℚ) / 2 ^ T.frac * 2 ^ T.frac = raw := div_mul_cancel₀ _ hp.ne'
  have hb : |(raw : ℚ)| < 2 ^ 1024 := by
    have h1 : |(raw : ℚ)| ≤ 2 ^ 53 := by rw [← Int.cast_abs]; exact_mod_cast h
    exact lt_of_le_of_lt h1 (pow_lt_pow_right₀ (by norm_num) (by norm_num))
  unfold fromF64I
  rw [intoF64_pow (by omega), ob_some, fMul_pow hx (by rw [hcancel]; exact hb), ob_some, hcancel]
  have : fromF64RawI w raw = raw := by
    unfold fromF64RawI truncQ
    rw [Int.floor_intCast, Int.ceil_intCast, ite_self]
    omega
  rw [this, hT]

/-- **C65 (round trip).** The same for unsigned types. -/
theorem C65_round_trip_unsigned (w : ℕ) (T : FixU) (hf : T.frac ≤ 63) (raw : ℕ) (h : raw ≤ 2 ^ 53) (hw : raw < 2 ^ w)
    (hT : T.new raw = some raw) : (asF64U T raw >>= fromF64U w T) = some raw := by
  rw [C65_exact_unsigned T hf raw h, ob_some]
  have hz : |(raw : ℤ)| ≤ 2 ^ 53 := by rw [abs_of_nonneg (by omega)]; exact_mod_cast h
  have hx : IsF64 ((raw : ℚ) / 2 ^ T.frac) := by
    rw [over_pow, ← Int.cast_natCast]
    exact isF64_int hz (by omega) (by omega)
  have hp : (0 : ℚ) < 2 ^ T.frac := by positivity
  have hcancel : (raw : ℚ) / 2 ^ T.frac * 2 ^ T.frac = raw := div_mul_cancel₀ _ hp.ne'
  have hb : |(raw : ℚ)| < 2 ^ 1024 := by
    have h1 : |(raw : ℚ)| ≤ 2 ^ 53 := by rw [abs_of_nonneg (by positivity)]; exact_mod_cast h
    exact lt_of_le_of_lt h1 (pow_lt_pow_right₀ (by norm_num) (by norm_num))
  unfold fromF64U
  rw [intoF64_pow (by omega), ob_some, fMul_pow hx (by rw [hcancel]; exact hb), ob_some, hcancel]
  have : fromF64RawU w raw = raw := by
    unfold fromF64RawU truncQ
    rw [Int.floor_natCast, if_pos (Nat.cast_nonneg raw)]
    have : ((raw : ℕ) : ℤ) < 2 ^ w := by exact_mod_cast hw
    omega
  rw [this, hT]

/-- **C65 (large values).** Beyond 53 bits the round trip can change the value. -/
theorem C65_lossy : asF64I noFractI64 (2 ^ 53 + 1) = some (2 ^ 53) ∧ fromF64I 64 noFractI64 (2 ^ 53) = some (2 ^ 53) := by
  decide +kernel

/-- **C65 (single precision).** Values of up to 53 bits become a nearest `f32`: the detour over `f64` does not round
twice. -/
theorem C65_single (T : FixI) (hf : T.frac ≤ 63) (raw : ℤ) (h : |raw| ≤ 2 ^ 53) :
    ∃ r, asF32I T raw = some r ∧ NearestF32 ((raw : ℚ) / 2 ^ T.frac) r := by
  have hr : |(raw : ℚ)| ≤ 2 ^ 53 := by rw [← Int.cast_abs]; exact_mod_cast h
  have hx : |(raw : ℚ) / 2 ^ T.frac| ≤ 2 ^ 53 := by
    rw [abs_div, abs_of_pos (show (0 : ℚ) < 2 ^ T.frac by positivity)]
    exact (div_le_self (abs_nonneg _) (one_le_pow₀ (by norm_num))).trans hr
  generalize hq : (raw : ℚ) / 2 ^ T.frac = q at *
  have e1 : ∀ s : ℤ, |s| ≤ 1 → rounded 24 (-149) (s * 2 ^ (53 : ℤ)) = s * 2 ^ (53 : ℤ) := fun s hs =>
    rounded_fits (fits_le (by norm_num) (le_trans hs (by norm_num)) (by norm_num))
  obtain ⟨h1, h2⟩ := abs_le.mp hx
  have m1 := rounded_mono (p := 24) (by norm_num) (-149) h2
  have m2 := rounded_mono (p := 24) (by norm_num) (-149) h1
  have e2 := e1 1 (by norm_num)
  have e3 := e1 (-1) (by norm_num)
  rw [Int.cast_one, one_mul] at e2
  rw [Int.cast_neg, Int.cast_one, neg_one_mul] at e3
  have z1 : (2 : ℚ) ^ (53 : ℤ) = 2 ^ 53 := by norm_num
  rw [z1] at e2 e3
  rw [e2] at m1
  rw [e3] at m2
  have hb : |rounded 24 (-149) q| < 2 ^ 128 := lt_of_le_of_lt (abs_le.mpr ⟨m2, m1⟩)
    (pow_lt_pow_right₀ (by norm_num) (by norm_num))
  refine ⟨rounded 24 (-149) q, ?_, ⟨fits_rounded (by norm_num) _ _, hb⟩, fun y hy => rounded_best (by norm_num) q hy.1⟩
  unfold asF32I
  rw [C65_exact T hf raw h, ob_some, hq]
  unfold toF32
  rw [if_pos hb]

/-- **C65 (single precision).** The same for unsigned types. -/
theorem C65_single_unsigned (T : FixU) (hf : T.frac ≤ 63) (raw : ℕ) (h : raw ≤ 2 ^ 53) :
    ∃ r, asF32U T raw = some r ∧ NearestF32 ((raw : ℚ) / 2 ^ T.frac) r := by
  have := C65_single ⟨T.frac, some⟩ hf raw (by rw [abs_of_nonneg (by omega)]; exact_mod_cast h)
  rw [Int.cast_natCast] at this
  exact this

/-! ## random reals -/

theorem reached_at {t : Random.Twister} (h : Reached t) : ∃ x n, (∀ k, x k < 2 ^ 64) ∧
    (∀ k, x (k + 312) = Random.nextWord (x k) (x (k + 1)) (x (k + 156))) ∧ Random.At x n t := by
  induction h with
  | @scalar seed t hs h =>
    rw [Random.scalar_eq] at h
    obtain rfl := Option.some.inj h
    refine ⟨Random.wordsFrom (Random.lcg seed), 312, Random.wordsFrom_lt fun k _ => Random.lcg_lt hs k,
      Random.wordsFrom_step _, ⟨0, ?_, rfl⟩, le_refl _⟩
    exact Random.tab_congr fun k hk => by rw [Nat.zero_add, Random.wordsFrom_start hk]
  | @vector key t h =>
    have hk : key ≠ [] := by
      rintro rfl
      rw [Random.C43_empty_key] at h
      cases h
    obtain ⟨g, h1, h2, h3, h4⟩ := Random.vector_eq hk
    rw [h] at h1
    obtain rfl := Option.some.inj h1
    refine ⟨Random.wordsFrom g, 312, Random.wordsFrom_lt h3, Random.wordsFrom_step _, ⟨0, ?_, rfl⟩, le_refl _⟩
    exact Random.tab_congr fun k hk => by rw [Nat.zero_add, Random.wordsFrom_start hk]
  | next _ h ih =>
    obtain ⟨x, n, h1, h2, h3⟩ := ih
    obtain ⟨t', e, h4⟩ := Random.next_eq h1 h2 h3
    rw [h] at e
    obtain ⟨-, rfl⟩ := Prod.mk.inj (Option.some.inj e)
    exact ⟨x, n + 1, h1, h2, h4⟩

theorem reached_next {t : Random.Twister} (h : Reached t) : ∃ x t', Random.nextInt64 t = some (x, t') ∧ x < 2 ^ 64 := by
  obtain ⟨x, n, h1, h2, h3⟩ := reached_at h
  obtain ⟨t', e, h4⟩ := Random.next_eq h1 h2 h3
  exact ⟨_, t', e, Random.temper_lt (h1 n)⟩

theorem shift_lt {x n : ℕ} (hx : x < 2 ^ 64) (hn : n ≤ 64) : x >>> n < 2 ^ (64 - n) := by
  rw [Nat.shiftRight_eq_div_pow]
  refine Nat.div_lt_of_lt_mul ?_
  rwa [← pow_add, show n + (64 - n) = 64 by omega]

theorem const1 : fDiv 1 9007199254740991 = some (4503599627370497 / 2 ^ 105) := by decide +kernel

theorem const2 : fDiv 1 9007199254740992 = some (1 / 2 ^ 53) := by decide +kernel

theorem const3 : fDiv 1 4503599627370496 = some (1 / 2 ^ 52) := by decide +kernel

theorem top1 : rnd (9007199254740991 * (4503599627370497 / 2 ^ 105)) = 1 := by decide +kernel

theorem real1_next {t : Random.Twister} {x : ℕ} {t' : Random.Twister} (h : Random.nextInt64 t = some (x, t'))
    (hx : x < 2 ^ 64) : ∃ r,
    nextReal1 t = some (r, t') ∧ IsF64 r ∧ 0 ≤ r ∧ r ≤ 1 ∧
      |r - (x / 2 ^ 11 : ℕ) / (2 ^ 53 - 1)| ≤ 1 / 2 ^ 51 ∧ (x / 2 ^ 11 = 0 → r = 0) ∧ (x / 2 ^ 11 = 2 ^ 53 - 1 → r = 1) := by
  have hk : x >>> 11 < 2 ^ 53 := shift_lt hx (by norm_num)
  have hk2 : x >>> 11 = x / 2 ^ 11 := Nat.shiftRight_eq_div_pow _ _
  rw [hk2] at hk
  unfold nextReal1
  rw [h, ob_some]
  dsimp only
  rw [hk2]
  generalize x / 2 ^ 11 = k at *
  rw [intoF64_small (by rw [abs_of_nonneg (by omega)]; exact_mod_cast hk.le), ob_some, const1, ob_some, Int.cast_natCast]
  have k0 : (0 : ℚ) ≤ k := by positivity
  have k1 : (k : ℚ) ≤ 9007199254740991 := by exact_mod_cast (by omega : k ≤ 9007199254740991)
  have m1 : rnd (k * (4503599627370497 / 2 ^ 105)) ≤ 1 := by
    rw [← top1]
    exact rounded_mono (by norm_num) _ (mul_le_mul_of_nonneg_right k1 (by norm_num))
  have m0 : 0 ≤ rnd (k * (4503599627370497 / 2 ^ 105)) := by
    have := rounded_mono (p := 53) (by norm_num) (-1074) (show (0 : ℚ) ≤ k * (4503599627370497 / 2 ^ 105) by positivity)
    rwa [rounded_zero] at this
  have hbig : |(k : ℚ) * (4503599627370497 / 2 ^ 105)| ≤ 2 ^ 1023 := by
    rw [abs_of_nonneg (by positivity)]
    refine le_trans (mul_le_mul_of_nonneg_right k1 (by norm_num)) (le_trans (b := 2 ^ 1) ?_ ?_)
    · norm_num
    · exact pow_le_pow_right₀ (by norm_num) (by norm_num)
  refine ⟨rnd (k * (4503599627370497 / 2 ^ 105)), ?_, isF64_rnd hbig, m0, m1, ?_, ?_, ?_⟩
  · unfold fMul
    rw [fl_some hbig, ob_some]
  · have c1 : |(4503599627370497 / 2 ^ 105 : ℚ) - 1 / (2 ^ 53 - 1)| ≤ 1 / 2 ^ 106 := by
      rw [abs_le]
      norm_num
    have c2 : |(k : ℚ) * (4503599627370497 / 2 ^ 105) - k / (2 ^ 53 - 1)| ≤ 1 / 2 ^ 53 := by
      rw [show (k : ℚ) * (4503599627370497 / 2 ^ 105) - k / (2 ^ 53 - 1) =
        k * (4503599627370497 / 2 ^ 105 - 1 / (2 ^ 53 - 1)) by ring, abs_mul, abs_of_nonneg k0]
      refine le_trans (mul_le_mul k1 c1 (abs_nonneg _) (by norm_num)) (by norm_num)
    have c3 : |rnd (k * (4503599627370497 / 2 ^ 105)) - k * (4503599627370497 / 2 ^ 105)| ≤ 1 / 2 ^ 52 := by
      rcases Nat.eq_zero_or_pos k with rfl | hpos
      · rw [Nat.cast_zero, zero_mul, show rnd 0 = 0 from rounded_zero _ _]
        norm_num
      · have k2 : (1 : ℚ) ≤ k := by exact_mod_cast hpos
        have kc : (4503599627370497 / 2 ^ 105 : ℚ) ≤ |(k : ℚ) * (4503599627370497 / 2 ^ 105)| := by
          rw [abs_of_nonneg (by positivity)]
          linarith [mul_le_mul_of_nonneg_right k2 (show (0 : ℚ) ≤ 4503599627370497 / 2 ^ 105 by norm_num)]
        have h200 : (2 : ℚ) ^ (-1022 : ℤ) ≤ 2 ^ (-200 : ℤ) := zpow_le_zpow_right₀ (by norm_num) (by norm_num)
        have := rnd_relative (le_trans h200 (le_trans (by norm_num) kc))
        refine this.trans ?_
        rw [abs_of_nonneg (by positivity)]
        refine le_trans (mul_le_mul_of_nonneg_right (mul_le_mul_of_nonneg_right k1 (by norm_num)) (by positivity)) ?_
        norm_num
    have c4 : (1 / 2 ^ 52 + 1 / 2 ^ 53 : ℚ) ≤ 1 / 2 ^ 51 := by norm_num
    have := abs_sub_le (rnd (k * (4503599627370497 / 2 ^ 105))) (k * (4503599627370497 / 2 ^ 105)) (k / (2 ^ 53 - 1))
    linarith
  · rintro rfl
    rw [Nat.cast_zero, zero_mul]
    exact rounded_zero _ _
  · rintro rfl
    have : ((2 ^ 53 - 1 : ℕ) : ℚ) = 9007199254740991 := by norm_num
    rw [this, top1]

theorem real2_next {t : Random.Twister} {x : ℕ} {t' : Random.Twister} (h : Random.nextInt64 t = some (x, t'))
    (hx : x < 2 ^ 64) : ∃ r,
    nextReal2 t = some (r, t') ∧ r = (x / 2 ^ 11 : ℕ) / 2 ^ 53 ∧ 0 ≤ r ∧ r < 1 := by
  have hk : x >>> 11 < 2 ^ 53 := shift_lt hx (by norm_num)
  have hk2 : x >>> 11 = x / 2 ^ 11 := Nat.shiftRight_eq_div_pow _ _
  rw [hk2] at hk
  unfold nextReal2
  rw [h, ob_some]
  dsimp only
  rw [hk2]
  generalize x / 2 ^ 11 = k at *
  have ha : |(k : ℤ)| ≤ 2 ^ 53 := by rw [abs_of_nonneg (by omega)]; exact_mod_cast hk.le
  rw [intoF64_small ha, ob_some, const2, ob_some, Int.cast_natCast]
  have e : (k : ℚ) * (1 / 2 ^ 53) = ((k : ℤ) : ℚ) * 2 ^ (-53 : ℤ) := by
    rw [zpow_neg, one_div, Int.cast_natCast]; norm_num
  have hk3 : (k : ℚ) < 2 ^ 53 := by exact_mod_cast hk
  refine ⟨k / 2 ^ 53, ?_, rfl, by positivity, by rw [div_lt_one (by positivity)]; exact hk3⟩
  unfold fMul
  rw [e, fl_fits (isF64_int ha (by norm_num) (by norm_num)), ob_some, ← e, mul_one_div]

theorem real3_next {t : Random.Twister} {x : ℕ} {t' : Random.Twister} (h : Random.nextInt64 t = some (x, t'))
    (hx : x < 2 ^ 64) : ∃ r,
    nextReal3 t = some (r, t') ∧ r = ((x / 2 ^ 12 : ℕ) + 1 / 2) / 2 ^ 52 ∧ 0 < r ∧ r < 1 := by
  have hk : x >>> 12 < 2 ^ 52 := shift_lt hx (by norm_num)
  have hk2 : x >>> 12 = x / 2 ^ 12 := Nat.shiftRight_eq_div_pow _ _
  rw [hk2] at hk
  unfold nextReal3
  rw [h, ob_some]
  dsimp only
  rw [hk2]
  generalize x / 2 ^ 12 = k at *
  have ha : |(k : ℤ)| ≤ 2 ^ 53 := by rw [abs_of_nonneg (by omega)]; exact_mod_cast (by omega : k ≤ 2 ^ 53)
  have hb : |((2 * k + 1 : ℕ) : ℤ)| ≤ 2 ^ 53 := by
    rw [abs_of_nonneg (by omega)]; exact_mod_cast (by omega : 2 * k + 1 ≤ 2 ^ 53)
  have e1 : (k : ℚ) + 1 / 2 = (((2 * k + 1 : ℕ) : ℤ) : ℚ) * 2 ^ (-1 : ℤ) := by
    push_cast; rw [zpow_neg_one]; ring
  have e2 : (k : ℚ) + 1 / 2 = (((2 * k + 1 : ℕ) : ℤ) : ℚ) * 2 ^ (-53 : ℤ) * 2 ^ 52 := by
    push_cast; norm_num; ring
  have hadd : fAdd (((k : ℕ) : ℤ) : ℚ) (1 / 2) = some ((k : ℚ) + 1 / 2) := by
    unfold fAdd
    rw [Int.cast_natCast, e1]
    exact fl_fits (isF64_int hb (by norm_num) (by norm_num))
  rw [intoF64_small ha, ob_some, hadd, ob_some, const3, ob_some]
  have hk3 : (k : ℚ) + 1 ≤ 2 ^ 52 := by exact_mod_cast hk
  refine ⟨(k + 1 / 2) / 2 ^ 52, ?_, rfl, by positivity, by rw [div_lt_one (by positivity)]; linarith⟩
  unfold fMul
  rw [mul_one_div, e2, mul_div_cancel_right₀ _ (by positivity), fl_fits (isF64_int hb (by norm_num) (by norm_num)), ob_some]

/-- **C66.** `next_real1` gives a nearest `f64` of a multiple of a constant, never leaves the closed unit interval, and
reaches both ends, for the smallest and the largest upper part of the next number. -/
theorem C66_real1 (t : Random.Twister) (ht : Reached t) : ∃ x t' r, Random.nextInt64 t = some (x, t') ∧
    nextReal1 t = some (r, t') ∧ IsF64 r ∧ 0 ≤ r ∧ r ≤ 1 ∧
      |r - (x / 2 ^ 11 : ℕ) / (2 ^ 53 - 1)| ≤ 1 / 2 ^ 51 ∧ (x / 2 ^ 11 = 0 → r = 0) ∧ (x / 2 ^ 11 = 2 ^ 53 - 1 → r = 1) := by
  obtain ⟨x, t', h, hx⟩ := reached_next ht
  obtain ⟨r, hr⟩ := real1_next h hx
  exact ⟨x, t', r, h, hr⟩

/-- **C66.** `next_real2` is exactly the upper 53 bits over `2^53`, below one. -/
theorem C66_real2 (t : Random.Twister) (ht : Reached t) : ∃ x t' r, Random.nextInt64 t = some (x, t') ∧
    nextReal2 t = some (r, t') ∧ r = (x / 2 ^ 11 : ℕ) / 2 ^ 53 ∧ 0 ≤ r ∧ r < 1 := by
  obtain ⟨x, t', h, hx⟩ := reached_next ht
  obtain ⟨r, hr⟩ := real2_next h hx
  exact ⟨x, t', r, h, hr⟩

/-- **C66.** `next_real3` is exactly the middle of the interval of `next_real2` with 52 bits, inside the open unit
interval. -/
theorem C66_real3 (t : Random.Twister) (ht : Reached t) : ∃ x t' r, Random.nextInt64 t = some (x, t') ∧
    nextReal3 t = some (r, t') ∧ r = ((x / 2 ^ 12 : ℕ) + 1 / 2) / 2 ^ 52 ∧ 0 < r ∧ r < 1 := by
  obtain ⟨x, t', h, hx⟩ := reached_next ht
  obtain ⟨r, hr⟩ := real3_next h hx
  exact ⟨x, t', r, h, hr⟩

/-! ## instances -/

/-- a negative weight: `-3/2^21` -/
example : asF64I mixerWeight (-3) = some (-3 / 2 ^ 21) := by decide +kernel

/-- `0.3` is not a multiple of `2^-21`: the conversion rounds toward zero, also for negative numbers -/
example : fromF64I 32 mixerWeight (5404319552844595 / 18014398509481984) = some 629145 ∧
    fromF64I 32 mixerWeight (-5404319552844595 / 18014398509481984) = some (-629145) := by decide +kernel

/-- too large for 32 bits; a negative probability -/
example : fromF64I 32 mixerWeight 5000 = some (2 ^ 31 - 1) ∧ fromF64I 32 fractOnlyI32 (-1 / 2) = none := by decide +kernel

/-- single precision rounds to 24 bits -/
example : asF32I log2D (2 ^ 30 + 1) = some (2 ^ 19) := by decide +kernel

/-- the first number of the default generator is 14514284786278117030 -/
example : intoF64 ((14514284786278117030 >>> 11 : ℕ) : ℤ) = some 7087053118299861 ∧
    fMul 7087053118299861 (1 / 2 ^ 53) = some (7087053118299861 / 2 ^ 53) := by decide +kernel

end Verif.Float
