import Verif.Float.Model
import Verif.Float.Spec
import Mathlib.Tactic.Linarith
import Mathlib.Tactic.Ring
import Mathlib.Tactic.FieldSimp
import Mathlib.Tactic.Positivity
import Mathlib.Tactic.NormNum
import Mathlib.Algebra.Order.Field.Basic

/-! # Lemmas about rounding -/

namespace Verif.Float

theorem halfEven_near (q : ℚ) : |(halfEven q : ℚ) - q| ≤ 1 / 2 := by
  have h1 := Int.floor_le q
  have h2 := Int.lt_floor_add_one q
  unfold halfEven
  rw [abs_le]
  split_ifs <;> push_cast <;> constructor <;> linarith

theorem halfEven_int (n : ℤ) : halfEven n = n := by
  unfold halfEven
  rw [Int.floor_intCast, sub_self, if_pos (by norm_num)]

/-- no integer is nearer -/
theorem halfEven_best (q : ℚ) (n : ℤ) : |(halfEven q : ℚ) - q| ≤ |(n : ℚ) - q| := by
  by_cases h : n = halfEven q
  · rw [h]
  · have h1 := halfEven_near q
    have h2 : (1 : ℚ) ≤ |(n : ℚ) - halfEven q| := by
      rw [← Int.cast_sub, ← Int.cast_abs]
      have : 1 ≤ |n - halfEven q| := Int.one_le_abs (by omega)
      exact_mod_cast this
    have h3 : |(n : ℚ) - halfEven q| ≤ |(n : ℚ) - q| + |(halfEven q : ℚ) - q| := by
      rw [abs_sub_comm (halfEven q : ℚ) q]
      exact abs_sub_le _ _ _
    linarith

theorem log_bounds {q : ℚ} (h : q ≠ 0) : (2 : ℚ) ^ Int.log 2 |q| ≤ |q| ∧ |q| < 2 ^ (Int.log 2 |q| + 1) :=
  ⟨Int.zpow_log_le_self (by norm_num) (abs_pos.mpr h), Int.lt_zpow_succ_log_self (by norm_num) _⟩

theorem two_pos_zpow (e : ℤ) : (0 : ℚ) < 2 ^ e := zpow_pos (by norm_num) e

theorem log_unique {q : ℚ} {l : ℤ} (h1 : (2 : ℚ) ^ l ≤ |q|) (h2 : |q| < 2 ^ (l + 1)) : Int.log 2 |q| = l := by
  have h0 : q ≠ 0 := by
    intro h
    rw [h, abs_zero] at h1
    exact absurd (two_pos_zpow l) (not_lt.mpr h1)
  obtain ⟨a, b⟩ := log_bounds h0
  have := (zpow_lt_zpow_iff_right₀ (show (1 : ℚ) < 2 by norm_num)).mp (lt_of_le_of_lt h1 b)
  have := (zpow_lt_zpow_iff_right₀ (show (1 : ℚ) < 2 by norm_num)).mp (lt_of_le_of_lt a h2)
  omega

theorem rounded_zero (p : ℕ) (e : ℤ) : rounded p e 0 = 0 := by
  unfold rounded
  rw [zero_div, show halfEven 0 = 0 by rw [← Int.cast_zero, halfEven_int], Int.cast_zero, zero_mul]

/-- error of rounding in terms of the last place -/
theorem rounded_error (p : ℕ) (e : ℤ) (q : ℚ) : |rounded p e q - q| ≤ 2 ^ lastPlace p e q / 2 := by
  unfold rounded
  generalize lastPlace p e q = k
  have hk := two_pos_zpow k
  have : (halfEven (q / 2 ^ k) : ℚ) * 2 ^ k - q = (halfEven (q / 2 ^ k) - q / 2 ^ k) * 2 ^ k := by
    rw [sub_mul, div_mul_cancel₀ _ hk.ne']
  rw [this, abs_mul, abs_of_pos hk]
  have := mul_le_mul_of_nonneg_right (halfEven_near (q / 2 ^ k)) hk.le
  linarith

/-- rounding is the nearest point on the grid of the last place -/
theorem rounded_grid (p : ℕ) (e : ℤ) (q : ℚ) (n : ℤ) : |rounded p e q - q| ≤ |n * 2 ^ lastPlace p e q - q| := by
  unfold rounded
  generalize lastPlace p e q = k
  have hk := two_pos_zpow k
  have : ∀ z : ℤ, (z : ℚ) * 2 ^ k - q = (z - q / 2 ^ k) * 2 ^ k := by
    intro z
    rw [sub_mul, div_mul_cancel₀ _ hk.ne']
  rw [this, this, abs_mul, abs_mul, abs_of_pos hk]
  exact mul_le_mul_of_nonneg_right (halfEven_best _ n) hk.le

theorem fits_zero (p : ℕ) (e : ℤ) : Fits p e 0 := ⟨0, e, by simp, le_refl _, by simp⟩

theorem fits_le {p : ℕ} {e : ℤ} (hp : 0 < p) {m k : ℤ} (hm : |m| ≤ 2 ^ p) (hk : e ≤ k) : Fits p e (m * 2 ^ k) := by
  rcases lt_or_eq_of_le hm with h | h
  · exact ⟨m, k, h, hk, rfl⟩
  · obtain ⟨r, rfl⟩ : ∃ r, p = r + 1 := ⟨p - 1, by omega⟩
    have h2 : m = 2 ^ (r + 1) ∨ m = -2 ^ (r + 1) := by
      rcases abs_choice m with h' | h' <;> rw [h'] at h
      · exact Or.inl h
      · right; omega
    have hlt : (2 : ℤ) ^ r < 2 ^ (r + 1) := by
      rw [pow_succ]
      have : (0 : ℤ) < 2 ^ r := by positivity
      omega
    have hz : (2 : ℚ) ^ (k + 1) = 2 ^ k * 2 := by rw [zpow_add₀ (by norm_num), zpow_one]
    rcases h2 with h2 | h2
    · refine ⟨2 ^ r, k + 1, by rwa [abs_of_nonneg (by positivity)], by omega, ?_⟩
      rw [h2, hz]; push_cast; ring
    · refine ⟨-2 ^ r, k + 1, by rwa [abs_neg, abs_of_nonneg (by positivity)], by omega, ?_⟩
      rw [h2, hz]; push_cast; ring

/-- the quotient by the last place has few bits -/
theorem quotient_lt (p : ℕ) (e : ℤ) (q : ℚ) : |q / 2 ^ lastPlace p e q| < 2 ^ p := by
  have hk := two_pos_zpow (lastPlace p e q)
  by_cases h0 : q = 0
  · rw [h0]; simp
  · rw [abs_div, abs_of_pos hk, div_lt_iff₀ hk, ← zpow_natCast, ← zpow_add₀ (by norm_num)]
    refine lt_of_lt_of_le (log_bounds h0).2 (zpow_le_zpow_right₀ (by norm_num) ?_)
    have : Int.log 2 |q| - (p - 1) ≤ lastPlace p e q := le_max_left _ _
    omega

theorem halfEven_abs_le {q : ℚ} {n : ℕ} (h : |q| < n) : |halfEven q| ≤ n := by
  have h1 := halfEven_near q
  have h2 := (abs_le.mp h1)
  have h3 := abs_lt.mp h
  have h4 : (halfEven q : ℚ) < ((n + 1 : ℤ) : ℚ) := by push_cast; linarith
  have h5 : ((-(n : ℤ) - 1 : ℤ) : ℚ) < (halfEven q : ℚ) := by push_cast; linarith
  have h4 := Int.cast_lt.mp h4
  have h5 := Int.cast_lt.mp h5
  rw [abs_le]
  omega

theorem fits_rounded {p : ℕ} (hp : 0 < p) (e : ℤ) (q : ℚ) : Fits p e (rounded p e q) := by
  unfold rounded
  refine fits_le hp ?_ (le_max_right _ _)
  have := halfEven_abs_le (n := 2 ^ p) (q := q / 2 ^ lastPlace p e q) (by
    have := quotient_lt p e q
    push_cast
    exact this)
  push_cast at this
  exact this

theorem fits_abs {p : ℕ} {m k : ℤ} (hm : |m| < 2 ^ p) : |(m : ℚ) * 2 ^ k| < 2 ^ (p + k) := by
  rw [abs_mul, abs_of_pos (two_pos_zpow k), zpow_add₀ (by norm_num)]
  refine mul_lt_mul_of_pos_right ?_ (two_pos_zpow k)
  rw [zpow_natCast, ← Int.cast_abs]
  exact_mod_cast hm

/-- numbers that fit are not changed -/
theorem rounded_fits {p : ℕ} {e : ℤ} {q : ℚ} (h : Fits p e q) : rounded p e q = q := by
  by_cases h0 : q = 0
  · rw [h0, rounded_zero]
  obtain ⟨m, k, hm, hk, rfl⟩ := h
  have hlog : Int.log 2 |(m : ℚ) * 2 ^ k| < p + k :=
    (zpow_lt_zpow_iff_right₀ (show (1 : ℚ) < 2 by norm_num)).mp (lt_of_le_of_lt (log_bounds h0).1 (fits_abs hm))
  have hle : lastPlace p e ((m : ℚ) * 2 ^ k) ≤ k := max_le (by omega) hk
  unfold rounded
  generalize lastPlace p e ((m : ℚ) * 2 ^ k) = j at hle ⊢
  obtain ⟨d, rfl⟩ : ∃ d : ℕ, k = j + d := ⟨(k - j).toNat, by omega⟩
  have hj := two_pos_zpow j
  have hq : (m : ℚ) * 2 ^ (j + (d : ℤ)) = ((m * 2 ^ d : ℤ) : ℚ) * 2 ^ j := by
    rw [zpow_add₀ (by norm_num), zpow_natCast]; push_cast; ring
  rw [hq, mul_div_cancel_right₀ _ hj.ne', halfEven_int]

/-- rounding gives a nearest number that fits -/
theorem rounded_best {p : ℕ} (hp : 0 < p) {e : ℤ} (q : ℚ) {r : ℚ} (hr : Fits p e r) : |rounded p e q - q| ≤ |r - q| := by
  by_cases h0 : q = 0
  · rw [h0, rounded_zero, sub_self, abs_zero]; exact abs_nonneg _
  obtain ⟨m, k, hm, hk, rfl⟩ := hr
  rcases le_or_gt (lastPlace p e q) k with h | h
  · obtain ⟨d, rfl⟩ : ∃ d : ℕ, k = lastPlace p e q + d := ⟨(k - lastPlace p e q).toNat, by omega⟩
    have hq : (m : ℚ) * 2 ^ (lastPlace p e q + (d : ℤ)) = ((m * 2 ^ d : ℤ) : ℚ) * 2 ^ lastPlace p e q := by
      rw [zpow_add₀ (by norm_num), zpow_natCast]; push_cast; ring
    rw [hq]
    exact rounded_grid p e q _
  · have hlp : lastPlace p e q = Int.log 2 |q| - (p - 1) := by
      have : lastPlace p e q = max (Int.log 2 |q| - (p - 1)) e := rfl
      omega
    obtain ⟨r, rfl⟩ : ∃ r, p = r + 1 := ⟨p - 1, by omega⟩
    have hsmall : |(m : ℚ) * 2 ^ k| < 2 ^ Int.log 2 |q| :=
      lt_of_lt_of_le (fits_abs hm) (zpow_le_zpow_right₀ (by norm_num) (by push_cast at hlp; omega))
    have hb := (log_bounds h0).1
    have hg : ∀ s : ℤ, (s : ℚ) * 2 ^ Int.log 2 |q| = ((s * 2 ^ r : ℤ) : ℚ) * 2 ^ lastPlace (r + 1) e q := by
      intro s
      rw [hlp, show Int.log 2 |q| = (r : ℤ) + (Int.log 2 |q| - ((r + 1 : ℕ) - 1)) by push_cast; omega,
        zpow_add₀ (by norm_num), zpow_natCast]
      rw [show (r : ℤ) + (Int.log 2 |q| - ((r + 1 : ℕ) - 1)) = Int.log 2 |q| by push_cast; omega]
      push_cast
      ring
    rcases lt_or_gt_of_ne h0 with hq | hq
    · have := rounded_grid (r + 1) e q (-1 * 2 ^ r)
      rw [← hg] at this
      refine this.trans ?_
      rw [abs_of_neg hq] at *
      rw [abs_lt] at hsmall
      rw [abs_of_nonneg (by push_cast; linarith), abs_of_nonneg (by linarith)]
      push_cast
      linarith
    · have := rounded_grid (r + 1) e q (1 * 2 ^ r)
      rw [← hg] at this
      refine this.trans ?_
      rw [abs_of_pos hq] at *
      rw [abs_lt] at hsmall
      rw [abs_of_nonpos (by push_cast; linarith), abs_of_nonpos (by linarith)]
      push_cast
      linarith

theorem rounded_mono {p : ℕ} (hp : 0 < p) (e : ℤ) {a b : ℚ} (h : a ≤ b) : rounded p e a ≤ rounded p e b := by
  rcases eq_or_lt_of_le h with rfl | h
  · exact le_refl _
  by_contra hcon
  push Not at hcon
  have h1 := rounded_best hp (e := e) a (fits_rounded hp e b)
  have h2 := rounded_best hp (e := e) b (fits_rounded hp e a)
  generalize rounded p e a = x at *
  generalize rounded p e b = y at *
  rcases abs_cases (x - a) with ⟨p1, q1⟩ | ⟨p1, q1⟩ <;> rcases abs_cases (y - a) with ⟨p2, q2⟩ | ⟨p2, q2⟩ <;>
    rcases abs_cases (x - b) with ⟨p3, q3⟩ | ⟨p3, q3⟩ <;> rcases abs_cases (y - b) with ⟨p4, q4⟩ | ⟨p4, q4⟩ <;>
    rw [p1, p2] at h1 <;> rw [p3, p4] at h2 <;> linarith

/-- relative error of rounding to an `f64` -/
theorem rnd_relative {q : ℚ} (h : (2 : ℚ) ^ (-1022 : ℤ) ≤ |q|) : |rnd q - q| ≤ |q| * 2 ^ (-53 : ℤ) := by
  have h0 : q ≠ 0 := by
    intro h0
    rw [h0, abs_zero] at h
    exact absurd (two_pos_zpow _) (not_lt.mpr h)
  have hl : -1022 ≤ Int.log 2 |q| := by
    by_contra hcon
    exact absurd (lt_of_lt_of_le (log_bounds h0).2 (zpow_le_zpow_right₀ (by norm_num) (show Int.log 2 |q| + 1 ≤ -1022 by omega)))
      (not_lt.mpr h)
  have hlp : lastPlace 53 (-1074) q = Int.log 2 |q| - 52 := by
    unfold lastPlace
    push_cast
    omega
  refine (rounded_error 53 (-1074) q).trans ?_
  rw [hlp]
  have : (2 : ℚ) ^ (Int.log 2 |q| - 52) / 2 = 2 ^ Int.log 2 |q| * 2 ^ (-53 : ℤ) := by
    rw [sub_eq_add_neg, zpow_add₀ (by norm_num), mul_div_assoc]
    norm_num
  rw [this]
  exact mul_le_mul_of_nonneg_right (log_bounds h0).1 (two_pos_zpow _).le

theorem fl_fits {q : ℚ} (h : IsF64 q) : fl q = some q := by
  have := rounded_fits h.1
  unfold fl rnd
  rw [this, if_pos h.2]

/-- integers of up to 53 bits over a power of two are exact -/
theorem isF64_int {m k : ℤ} (hm : |m| ≤ 2 ^ 53) (hk : -1074 ≤ k) (hk' : k ≤ 970) : IsF64 (m * 2 ^ k) := by
  refine ⟨fits_le (by norm_num) hm hk, ?_⟩
  rw [abs_mul, abs_of_pos (two_pos_zpow k)]
  have h1 : |(m : ℚ)| ≤ 2 ^ 53 := by
    rw [← Int.cast_abs]; exact_mod_cast hm
  have h2 : (2 : ℚ) ^ k ≤ 2 ^ (970 : ℤ) := zpow_le_zpow_right₀ (by norm_num) hk'
  calc |(m : ℚ)| * 2 ^ k ≤ 2 ^ 53 * 2 ^ (970 : ℤ) := mul_le_mul h1 h2 (two_pos_zpow k).le (by positivity)
    _ < 2 ^ 1024 := by
      rw [show (970 : ℤ) = ((970 : ℕ) : ℤ) by norm_num, zpow_natCast, ← pow_add]
      exact pow_lt_pow_right₀ (by norm_num) (by norm_num)

end Verif.Float
