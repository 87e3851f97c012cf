import Verif.Est.Props
import Mathlib.Analysis.SpecialFunctions.Integrals.Basic
import Mathlib.Analysis.SpecialFunctions.Log.Base
import Mathlib.Analysis.Complex.ExponentialBounds

/-!
# The price of not knowing the frequency of zeros

An estimator that predicts `(zeros + 1/2) / (bits + 1)` (Krichevsky and Trofimov) spends at most `1 + log2(n) / 2` bits
more on `n` bits than a coder that knows the number of zeros. Here is the step of the induction over the bits, with natural
logarithms, also for predictions that are slightly wrong.
-/

namespace Verif.Est

open Real

theorem midpoint_inv {n : ℝ} (hn : 0 < n) : 1 / (n + 1 / 2) ≤ log (n + 1) - log n := by
  have h := le_log_one_add_of_nonneg (x := 1 / n) (by positivity)
  rw [← log_div (by positivity) hn.ne']
  have e : (n + 1) / n = 1 + 1 / n := by field_simp
  rw [e]
  refine le_trans (le_of_eq ?_) h
  field_simp
  ring

theorem midpoint_log {a : ℝ} (ha : 0 < a) : (a + 1) * log (a + 1) - a * log a - 1 ≤ log (a + 1 / 2) := by
  have hm : 0 < a + 1 / 2 := by linarith
  have h1 : ∫ t in a..(a + 1), log t = (a + 1) * log (a + 1) - a * log a - (a + 1) + a := integral_log
  have h2 : ∫ t in a..(a + 1), (log (a + 1 / 2) - 1 + t * (a + 1 / 2)⁻¹) = log (a + 1 / 2) := by
    have c1 : IntervalIntegrable (fun _ : ℝ => log (a + 1 / 2) - 1) MeasureTheory.volume a (a + 1) :=
      continuous_const.intervalIntegrable _ _
    have c2 : IntervalIntegrable (fun t : ℝ => t * (a + 1 / 2)⁻¹) MeasureTheory.volume a (a + 1) :=
      (continuous_id.mul continuous_const).intervalIntegrable _ _
    rw [intervalIntegral.integral_add c1 c2, intervalIntegral.integral_const, intervalIntegral.integral_mul_const,
      integral_id]
    simp only [smul_eq_mul]
    field_simp
    ring
  have h3 : ∫ t in a..(a + 1), log t ≤ ∫ t in a..(a + 1), (log (a + 1 / 2) - 1 + t * (a + 1 / 2)⁻¹) := by
    refine intervalIntegral.integral_mono_on (by linarith) ?_ ?_ ?_
    · exact intervalIntegral.intervalIntegrable_log'
    · exact (continuous_const.add (continuous_id.mul continuous_const)).intervalIntegrable _ _
    · intro t ht
      have ht0 : 0 < t := lt_of_lt_of_le ha ht.1
      have h := log_le_sub_one_of_pos (show 0 < t / (a + 1 / 2) by positivity)
      rw [log_div ht0.ne' hm.ne'] at h
      rw [← div_eq_mul_inv]
      linarith
  linarith

/-- length of the code of a coder that knows the counts, in nats -/
noncomputable def ideal (a b : ℕ) : ℝ := (a + b : ℕ) * log (a + b : ℕ) - a * log a - b * log b

/-- sum of the relative errors, in units of the absolute one -/
noncomputable def spread (a : ℕ) : ℝ := if a = 0 then 0 else 2 + log a

theorem spread_step (a : ℕ) : 1 / ((a : ℝ) + 1 / 2) ≤ spread (a + 1) - spread a := by
  unfold spread
  rcases Nat.eq_zero_or_pos a with rfl | h
  · norm_num
  · rw [if_neg (by omega), if_neg (by omega)]
    have := midpoint_inv (n := (a : ℝ)) (by exact_mod_cast h)
    push_cast
    linarith

/-- the first bit -/
theorem ideal_first : ideal 1 0 = 0 := by simp [ideal]

/-- one more bit, of a value seen `a` times so far; the other value was seen `b` times -/
theorem ideal_step (a b : ℕ) (h : 0 < a + b) :
    -log (((a : ℝ) + 1 / 2) / ((a + b : ℕ) + 1)) ≤
      ideal (a + 1) b - ideal a b + (log (a + b + 1 : ℕ) - log (a + b : ℕ)) / 2 := by
  have hn : (0 : ℝ) < (a + b : ℕ) := by exact_mod_cast h
  have ha : (0 : ℝ) ≤ a := by positivity
  rw [log_div (by positivity) (by positivity)]
  have k := midpoint_inv hn
  have k' : 1 ≤ (((a + b : ℕ) : ℝ) + 1 / 2) * (log ((a + b : ℕ) + 1) - log (a + b : ℕ)) := by
    have := mul_le_mul_of_nonneg_left k (show (0 : ℝ) ≤ (a + b : ℕ) + 1 / 2 by linarith)
    rwa [mul_one_div_cancel (by positivity)] at this
  have g : ((a : ℝ) + 1) * log (a + 1) - a * log a - 1 ≤ log (a + 1 / 2) := by
    rcases Nat.eq_zero_or_pos a with rfl | h0
    · have h2 : log 2 ≤ 1 := by linarith [log_two_lt_d9]
      have h3 : log (1 / 2) = -log 2 := by rw [one_div, log_inv]
      rw [Nat.cast_zero, zero_add, zero_add, h3, log_one]
      linarith
    · exact midpoint_log (by exact_mod_cast h0)
  unfold ideal
  have e : ((a + 1 + b : ℕ) : ℝ) = ((a + b : ℕ) : ℝ) + 1 := by push_cast; ring
  have e' : ((a + b + 1 : ℕ) : ℝ) = ((a + b : ℕ) : ℝ) + 1 := by push_cast; ring
  rw [e, e', Nat.cast_add a 1, Nat.cast_one]
  generalize ((a + b : ℕ) : ℝ) = n at *
  linarith

/-- a prediction with a small error -/
theorem wrong_step {a : ℕ} {n p x E : ℝ} (hn : 0 ≤ n) (hE : 0 ≤ E) (hE1 : E ≤ 7 / 100)
    (h : |(n + 1) * p - ((a : ℝ) + 1 / 2)| ≤ E) (hx : x = 50 / 43 * E) :
    0 < p ∧ -log p ≤ -log (((a : ℝ) + 1 / 2) / (n + 1)) + x * (spread (a + 1) - spread a) := by
  have ha : (0 : ℝ) ≤ a := by positivity
  have hm : (0 : ℝ) < a + 1 / 2 := by positivity
  have hn1 : 0 < n + 1 := by linarith
  obtain ⟨h1, h2⟩ := abs_le.mp h
  have hp : 0 < p := by
    by_contra hc
    have := mul_nonpos_of_nonneg_of_nonpos hn1.le (not_lt.mp hc)
    linarith
  refine ⟨hp, ?_⟩
  set y := E / (a + 1 / 2) with hy
  have hy0 : 0 ≤ y := by positivity
  have hy1 : y ≤ 7 / 50 := by
    rw [hy, div_le_iff₀ hm]
    nlinarith
  have hq : ((a : ℝ) + 1 / 2) / (n + 1) * (1 - y) ≤ p := by
    rw [div_mul_eq_mul_div, div_le_iff₀ hn1]
    have : ((a : ℝ) + 1 / 2) * y = E := by rw [hy]; field_simp
    nlinarith
  have hl := log_le_log (by have : 0 < 1 - y := by linarith
                            positivity) hq
  rw [log_mul (by positivity) (by linarith)] at hl
  have h3 := one_sub_inv_le_log_of_pos (show 0 < 1 - y by linarith)
  have h4 : (1 - y)⁻¹ - 1 ≤ 50 / 43 * y := by
    rw [sub_le_iff_le_add, inv_le_iff_one_le_mul₀ (by linarith)]
    nlinarith
  have h5 : 50 / 43 * y ≤ x * (spread (a + 1) - spread a) := by
    have := mul_le_mul_of_nonneg_left (spread_step a) (show 0 ≤ x by rw [hx]; positivity)
    refine le_trans (le_of_eq ?_) this
    rw [hx, hy]
    ring
  linarith

theorem spread_sum {a b : ℕ} (h : a + b ≤ 1001) : spread a + spread b ≤ 17 := by
  have l2 := log_two_lt_d9
  have hl : ∀ k : ℕ, 0 < k → (k : ℝ) ≤ 1024 → log k ≤ 10 * log 2 := by
    intro k hk h
    have := log_le_log (by exact_mod_cast hk) h
    rwa [show (1024 : ℝ) = 2 ^ (10 : ℕ) by norm_num, log_pow, Nat.cast_ofNat] at this
  unfold spread
  rcases Nat.eq_zero_or_pos a with rfl | ha <;> rcases Nat.eq_zero_or_pos b with rfl | hb
  · norm_num
  · rw [if_pos rfl, if_neg (by omega)]
    have := hl b hb (by exact_mod_cast (by omega : b ≤ 1024))
    linarith
  · rw [if_pos rfl, if_neg (by omega)]
    have := hl a ha (by exact_mod_cast (by omega : a ≤ 1024))
    linarith
  · rw [if_neg (by omega), if_neg (by omega)]
    have ha' : (0 : ℝ) < a := by exact_mod_cast ha
    have hb' : (0 : ℝ) < b := by exact_mod_cast hb
    have hs : (a : ℝ) + b ≤ 1001 := by exact_mod_cast h
    have hab : (a : ℝ) * b ≤ 2 ^ (18 : ℕ) := by nlinarith [sq_nonneg ((a : ℝ) - b)]
    have := log_le_log (by positivity) hab
    rw [log_mul ha'.ne' hb'.ne', log_pow] at this
    push_cast at this
    linarith

end Verif.Est
