import Verif.Lut.Props
import Verif.Lut.RealSpec
import Mathlib.Analysis.SpecialFunctions.Log.Base
import Mathlib.Analysis.SpecialFunctions.Log.Deriv
import Mathlib.Analysis.Complex.ExponentialBounds

/-!
# Accuracy of the tables against the real functions (C47)
-/

namespace Verif.Lut

open Verif Verif.Fixed Verif.Log2

/-! ## The digit by digit logarithm -/

theorem logb_near_one {y : ℝ} (h1 : 1 - 1 / 2 ^ 30 ≤ y) (h2 : y ≤ 1 + 1 / 2 ^ 30) : |Real.logb 2 y| ≤ 1 / 2 ^ 29 := by
  have hy : 0 < y := by norm_num at h1 ⊢; linarith
  have l2 : (0.69 : ℝ) < Real.log 2 := by have := Real.log_two_gt_d9; linarith
  have a1 : Real.log y ≤ 1 / 2 ^ 30 := by have := Real.log_le_sub_one_of_pos hy; linarith
  have a2 : -(1.1 / 2 ^ 30) ≤ Real.log y := by
    have h := Real.one_sub_inv_le_log_of_pos hy
    have h3 : y⁻¹ ≤ 1 + 1.1 / 2 ^ 30 := by
      rw [inv_le_comm₀ hy (by norm_num)]
      refine le_trans ?_ h1
      norm_num
    linarith
  unfold Real.logb
  rw [abs_div, abs_of_pos (show (0 : ℝ) < Real.log 2 by linarith), div_le_iff₀ (by linarith), abs_le]
  norm_num at *
  constructor <;> linarith

/-- one squaring step -/
theorem square_log {a q : Nat} (h1 : 2 ^ 30 ≤ a) (h2 : a < 2 ^ 31) (hq : q = (a * a + 1073741824) / 2147483648) :
    |Real.logb 2 ((q : ℝ) / 2 ^ 30) - (2 * Real.logb 2 ((a : ℝ) / 2 ^ 30) - 1)| ≤ 1 / 2 ^ 29 ∧
      2 ^ 29 ≤ q ∧ q < 2 ^ 31 := by
  have b1 : 2 ^ 30 * 2 ^ 30 ≤ a * a := Nat.mul_le_mul h1 h1
  have b2 : a * a ≤ (2 ^ 31 - 1) * (2 ^ 31 - 1) := Nat.mul_le_mul (by omega) (by omega)
  norm_num at b1 b2
  have c1 : q * 2147483648 ≤ a * a + 1073741824 := by omega
  have c2 : a * a ≤ q * 2147483648 + 1073741824 := by omega
  have hq1 : 2 ^ 29 ≤ q := by norm_num; omega
  refine ⟨?_, hq1, by norm_num; omega⟩
  have r1 : (q : ℝ) * 2147483648 ≤ a * a + 1073741824 := by exact_mod_cast c1
  have r2 : (a : ℝ) * a ≤ q * 2147483648 + 1073741824 := by exact_mod_cast c2
  have r3 : (1152921504606846976 : ℝ) ≤ a * a := by exact_mod_cast b1
  have ha : (0 : ℝ) < a := by have : 0 < a := by omega
                              exact_mod_cast this
  have hqr : (0 : ℝ) < q := by have : 0 < q := by omega
                               exact_mod_cast this
  have haa : (0 : ℝ) < a * a := by positivity
  have key : Real.logb 2 ((q : ℝ) / 2 ^ 30) - (2 * Real.logb 2 ((a : ℝ) / 2 ^ 30) - 1) =
      Real.logb 2 ((q : ℝ) * 2147483648 / (a * a)) := by
    rw [Real.logb_div (by positivity) (by positivity), Real.logb_div (by positivity) (by positivity),
      Real.logb_div (by positivity) (by positivity), Real.logb_mul (by positivity) (by positivity),
      Real.logb_mul (by positivity) (by positivity), logb_two_pow,
      show (2147483648 : ℝ) = 2 ^ 31 by norm_num, logb_two_pow]
    push_cast
    ring
  rw [key]
  apply logb_near_one
  · rw [le_div_iff₀ haa]; norm_num; linarith
  · rw [div_le_iff₀ haa]; norm_num; linarith

/-- error of the digit by digit logarithm -/
theorem fastLoop_real : ∀ (k l a : Nat), 2 ^ 30 ≤ a → a < 2 ^ 31 → ∃ r : Nat, fastLoop k l a = l * 2 ^ k + r ∧
    -((2 ^ k - 1) * (1 / 2 ^ 29)) ≤ 2 ^ k * Real.logb 2 ((a : ℝ) / 2 ^ 30) - r ∧
    2 ^ k * Real.logb 2 ((a : ℝ) / 2 ^ 30) - r ≤ 1 + (2 ^ k - 1) * (1 / 2 ^ 29) := by
  intro k
  induction k with
  | zero =>
    intro l a h1 h2
    have r1 : (1 : ℝ) ≤ (a : ℝ) / 2 ^ 30 := by
      rw [le_div_iff₀ (by positivity)]
      have : ((2 ^ 30 : ℕ) : ℝ) ≤ a := by exact_mod_cast h1
      push_cast at this
      linarith
    have r2 : (a : ℝ) / 2 ^ 30 ≤ 2 := by
      rw [div_le_iff₀ (by positivity)]
      have : (a : ℝ) ≤ ((2 ^ 31 : ℕ) : ℝ) := by exact_mod_cast h2.le
      push_cast at this
      norm_num at this ⊢
      linarith
    have s1 := Real.logb_nonneg (b := 2) (by norm_num) r1
    have s2 := Real.logb_le_logb_of_le (b := 2) (by norm_num) (by linarith) r2
    rw [Real.logb_self_eq_one (by norm_num)] at s2
    refine ⟨0, by simp [fastLoop], ?_, ?_⟩
    · simp; exact s1
    · simp; exact s2
  | succ k ih =>
    intro l a h1 h2
    obtain ⟨e, q1, q2⟩ := square_log h1 h2 rfl
    rw [abs_le] at e
    unfold fastLoop
    dsimp only
    generalize (a * a + 1073741824) / 2147483648 = q at *
    have hp : (0 : ℝ) < 2 ^ k := by positivity
    by_cases hlt : q < 1073741824
    · have hb : Nat.blt q 1073741824 = true := by simpa [Nat.blt_eq] using hlt
      rw [hb, cond_true]
      obtain ⟨r, g1, g2, g3⟩ := ih (l * 2) (q * 2) (by omega) (by omega)
      have hlog : Real.logb 2 (((q * 2 : ℕ) : ℝ) / 2 ^ 30) = Real.logb 2 ((q : ℝ) / 2 ^ 30) + 1 := by
        have : (0 : ℝ) < q := by have : 0 < q := by omega
                                 exact_mod_cast this
        push_cast
        rw [show (q : ℝ) * 2 / 2 ^ 30 = (q : ℝ) / 2 ^ 30 * 2 by ring, Real.logb_mul (by positivity) (by norm_num),
          Real.logb_self_eq_one (by norm_num)]
      rw [hlog] at g2 g3
      refine ⟨r, by rw [g1, pow_succ]; ring, ?_, ?_⟩
      · rw [pow_succ]; nlinarith
      · rw [pow_succ]; nlinarith
    · have hb : Nat.blt q 1073741824 = false := by
        rw [Bool.eq_false_iff]; simpa [Nat.blt_eq] using hlt
      rw [hb, cond_false]
      obtain ⟨r, g1, g2, g3⟩ := ih (l * 2 + 1) q (by omega) q2
      refine ⟨2 ^ k + r, by rw [g1, pow_succ]; ring, ?_, ?_⟩
      · rw [pow_succ]; push_cast; nlinarith
      · rw [pow_succ]; push_cast; nlinarith

/-- the logarithm with 25 bits, in the unit interval -/
theorem preLog_real {f : Nat} (h0 : f ≠ 0) (h : f < 2 ^ 31) :
    |(preLog f : ℝ) / 2 ^ 25 - (Real.logb 2 ((f : ℝ) / 2 ^ 31) + ((31 - Nat.log2 f : Nat) : ℝ))| ≤ 2 / 2 ^ 26 := by
  obtain ⟨-, h2, h3, h4⟩ := leading h0 h
  obtain ⟨r, g1, g2, g3⟩ := fastLoop_real 31 0 _ h3 h4
  rw [Nat.zero_mul, Nat.zero_add] at g1
  have hf : (0 : ℝ) < f := by have : 0 < f := by omega
                              exact_mod_cast this
  have hlog : Real.logb 2 (((f * 2 ^ (30 - Nat.log2 f) : ℕ) : ℝ) / 2 ^ 30) =
      Real.logb 2 ((f : ℝ) / 2 ^ 31) + ((31 - Nat.log2 f : Nat) : ℝ) := by
    push_cast
    rw [Real.logb_div (by positivity) (by positivity), Real.logb_mul (by positivity) (by positivity),
      Real.logb_div (by positivity) (by positivity), logb_two_pow, logb_two_pow, logb_two_pow,
      show 31 - Nat.log2 f = (30 - Nat.log2 f) + 1 by omega]
    push_cast
    ring
  rw [hlog] at g2 g3
  unfold preLog
  rw [g1]
  have c1 : 64 * ((r + 32) / 64) ≤ r + 32 := Nat.mul_div_le _ _
  have c2 : r < 64 * ((r + 32) / 64) + 32 := by omega
  have d1 : (64 : ℝ) * ((r + 32) / 64 : ℕ) ≤ r + 32 := by exact_mod_cast c1
  have d2 : (r : ℝ) < 64 * ((r + 32) / 64 : ℕ) + 32 := by exact_mod_cast c2
  generalize (((r + 32) / 64 : ℕ) : ℝ) = x at *
  generalize Real.logb 2 ((f : ℝ) / 2 ^ 31) + ((31 - Nat.log2 f : Nat) : ℝ) = y at *
  norm_num at g2 g3 ⊢
  rw [abs_le]
  constructor <;> linarith

/-! ## Table entries of stretch -/

/-- `ln((1-p)/p)` for a probability with 31 bits: the magnitude of stretch below one half -/
noncomputable def odds (p : ℝ) : ℝ := Real.log ((2 ^ 31 - p) / p)

theorem odds_eq {p : ℝ} (h0 : 0 < p) (h : p < 2 ^ 31) : odds p = Real.log (2 ^ 31 - p) - Real.log p := by
  unfold odds
  rw [Real.log_div (by linarith) h0.ne']

theorem entryMag_real {p : Nat} (h0 : 0 < p) (h : p < 2 ^ 30)
    (hle : preLog p ≤ (30 - Nat.log2 p) * 33554432 + preLog (2147483648 - p)) :
    |(((entryLog p * 1488522236 + 17179869184) / 34359738368 : ℕ) : ℝ) / 2 ^ 21 - odds p| ≤ 3 / 10 ^ 7 := by
  have hlog : Nat.log2 (2147483648 - p) = 30 := by
    rw [Nat.log2_eq_iff (by omega)]; omega
  have hl29 : Nat.log2 p ≤ 29 := by
    have := (Nat.log2_lt (show p ≠ 0 by omega) (k := 30)).mpr h
    omega
  have a1 := preLog_real (f := p) (by omega) (by omega)
  have a2 := preLog_real (f := 2147483648 - p) (by omega) (by omega)
  rw [hlog] at a2
  have hpr : (0 : ℝ) < p := by exact_mod_cast h0
  have hp2 : (p : ℝ) < 2 ^ 30 := by exact_mod_cast h
  have hsub : ((2147483648 - p : ℕ) : ℝ) = 2 ^ 31 - p := by
    rw [Nat.cast_sub (by omega)]; norm_num
  have hb : (0 : ℝ) < 2 ^ 31 - p := by norm_num at hp2 ⊢; linarith
  have hodds : odds p = (Real.logb 2 (((2147483648 - p : ℕ) : ℝ) / 2 ^ 31) - Real.logb 2 ((p : ℝ) / 2 ^ 31)) * Real.log 2 := by
    unfold odds Real.logb
    rw [hsub, Real.log_div hb.ne' hpr.ne', Real.log_div hb.ne' (by positivity), Real.log_div hpr.ne' (by positivity)]
    have : Real.log 2 ≠ 0 := by have := Real.log_two_gt_d9; linarith
    field_simp
    ring
  have hE : (entryLog p : ℝ) / 2 ^ 25 =
      (((30 - Nat.log2 p : ℕ) : ℝ)) + (preLog (2147483648 - p) : ℝ) / 2 ^ 25 - (preLog p : ℝ) / 2 ^ 25 := by
    unfold entryLog
    rw [Nat.cast_sub hle]
    push_cast
    ring
  have hEle : (entryLog p : ℝ) / 2 ^ 25 ≤ 32 := by
    have h1 : preLog (2147483648 - p) ≤ 2 ^ 26 := by
      obtain ⟨-, -, c3, c4⟩ := leading (f := 2147483648 - p) (by omega) (by omega)
      obtain ⟨-, c5⟩ := onePlusLog2_eq c3 c4
      unfold preLog
      omega
    have h2 : entryLog p ≤ 32 * 2 ^ 25 := by unfold entryLog; omega
    rw [div_le_iff₀ (by positivity)]
    exact_mod_cast h2
  have hE0 : (0 : ℝ) ≤ (entryLog p : ℝ) / 2 ^ 25 := by positivity
  have c1 : 34359738368 * ((entryLog p * 1488522236 + 17179869184) / 34359738368) ≤
      entryLog p * 1488522236 + 17179869184 := Nat.mul_div_le _ _
  have c2 : entryLog p * 1488522236 < 34359738368 * ((entryLog p * 1488522236 + 17179869184) / 34359738368) +
      17179869184 := by omega
  have d1 : (34359738368 : ℝ) * (((entryLog p * 1488522236 + 17179869184) / 34359738368 : ℕ) : ℝ) ≤
      entryLog p * 1488522236 + 17179869184 := by exact_mod_cast c1
  have d2 : (entryLog p : ℝ) * 1488522236 < 34359738368 *
      (((entryLog p * 1488522236 + 17179869184) / 34359738368 : ℕ) : ℝ) + 17179869184 := by exact_mod_cast c2
  generalize (((entryLog p * 1488522236 + 17179869184) / 34359738368 : ℕ) : ℝ) = m at *
  rw [hodds]
  have hnat : ((31 - Nat.log2 p : ℕ) : ℝ) = ((30 - Nat.log2 p : ℕ) : ℝ) + 1 := by
    rw [show 31 - Nat.log2 p = (30 - Nat.log2 p) + 1 by omega]; push_cast; rfl
  rw [hnat] at a1
  generalize Real.logb 2 (((2147483648 - p : ℕ) : ℝ) / 2 ^ 31) = B1 at *
  generalize Real.logb 2 ((p : ℝ) / 2 ^ 31) = B2 at *
  generalize ((30 - Nat.log2 p : ℕ) : ℝ) = z at *
  rw [abs_le] at a1 a2
  have hEB : |(entryLog p : ℝ) / 2 ^ 25 - (B1 - B2)| ≤ 4 / 2 ^ 26 := by
    rw [hE, abs_le]
    norm_num at a1 a2 ⊢
    constructor <;> linarith
  have hEm : |m / 2 ^ 21 - (entryLog p : ℝ) / 2 ^ 25 * (1488522236 / 2 ^ 31)| ≤ 1 / 2 ^ 22 := by
    rw [abs_le]
    norm_num at d1 d2 ⊢
    constructor <;> linarith
  have l1 := Real.log_two_gt_d9
  have l2 := Real.log_two_lt_d9
  generalize (entryLog p : ℝ) / 2 ^ 25 = E at *
  generalize Real.log 2 = L at *
  have e1 : |E * (1488522236 / 2 ^ 31 - L)| ≤ 32 * (5 / 10 ^ 10) := by
    rw [abs_mul, abs_of_nonneg hE0]
    have : |(1488522236 : ℝ) / 2 ^ 31 - L| ≤ 5 / 10 ^ 10 := by
      rw [abs_le]; norm_num at l1 l2 ⊢; constructor <;> linarith
    exact mul_le_mul hEle this (abs_nonneg _) (by norm_num)
  have e2 : |(E - (B1 - B2)) * L| ≤ 4 / 2 ^ 26 * 0.7 := by
    rw [abs_mul, abs_of_pos (show 0 < L by linarith)]
    exact mul_le_mul hEB (by linarith) (by linarith) (by norm_num)
  have e3 : m / 2 ^ 21 - (B1 - B2) * L = (m / 2 ^ 21 - E * (1488522236 / 2 ^ 31)) + E * (1488522236 / 2 ^ 31 - L) +
      (E - (B1 - B2)) * L := by ring
  rw [e3]
  refine le_trans (abs_add_le _ _) (le_trans (add_le_add (abs_add_le _ _) (le_refl _)) ?_)
  norm_num at *
  linarith

theorem gPoint_entry {n : Nat} (hn : n < 4096) : entryIn (7 - n / 512) (n % 512) = gPoint n := by
  unfold entryIn gPoint
  by_cases h : n < 512
  · rw [if_pos h, show 7 - n / 512 = 7 by omega, show Nat.beq 7 7 = true from rfl, cond_true]
    omega
  · rw [if_neg h]
    have hb : Nat.beq (7 - n / 512) 7 = false := by rw [Bool.eq_false_iff, ne_eq, Nat.beq_eq]; omega
    rw [hb, cond_false, show 29 - (7 - n / 512) = 9 + (13 + n / 512) by omega,
      show 20 - (7 - n / 512) = 13 + n / 512 by omega, pow_add]
    ring

/-- the table at grid points -/
theorem gVal_real {n : Nat} (h0 : 0 < n) (hn : n ≤ 4096) : |(gVal n : ℝ) / 2 ^ 21 - odds (gPoint n)| ≤ 3 / 10 ^ 7 := by
  by_cases he : n = 4096
  · subst he
    rw [gPoint_end]
    unfold odds gVal
    norm_num
  · have hk := entry_facts (k := 512 * (7 - n / 512) + n % 512) (by omega) (by omega)
    rw [show (512 * (7 - n / 512) + n % 512) / 512 = 7 - n / 512 by omega,
      show (512 * (7 - n / 512) + n % 512) % 512 = n % 512 by omega] at hk
    obtain ⟨h1, -, -, h4, -⟩ := hk
    unfold entryMag at h1
    rw [gPoint_entry (by omega)] at h1 h4
    have hv : gVal n = field (512 * (7 - n / 512) + n % 512) := by
      unfold gVal; rw [if_neg he, if_neg (by omega)]
    rw [hv, ← h1]
    exact entryMag_real (gPoint_pos h0) (gPoint_lt (by omega)) h4

/-! ## Interpolation -/

/-- the straight line between two points of the logarithm -/
theorem chord_log {a h t : ℝ} (ha : 0 < a) (hh : 0 < h) (t0 : 0 ≤ t) (t1 : t ≤ 1) :
    0 ≤ Real.log (a + t * h) - ((1 - t) * Real.log a + t * Real.log (a + h)) ∧
    Real.log (a + t * h) - ((1 - t) * Real.log a + t * Real.log (a + h)) ≤ h ^ 2 / (4 * a * (a + h)) := by
  have hth : 0 ≤ t * h := by positivity
  have hx : 0 < a + t * h := by linarith
  have hb : 0 < a + h := by linarith
  have l : ∀ u v : ℝ, 0 < u → 0 < v → Real.log u - Real.log v ≤ (u - v) / v := by
    intro u v hu hv
    have := Real.log_le_sub_one_of_pos (show 0 < u / v by positivity)
    rw [Real.log_div hu.ne' hv.ne'] at this
    rw [sub_div, div_self hv.ne']
    exact this
  have k1 := l a (a + t * h) ha hx
  have k2 := l (a + h) (a + t * h) hb hx
  have k3 := l (a + t * h) a hx ha
  have k4 := l (a + t * h) (a + h) hx hb
  have s1 : 0 ≤ 1 - t := by linarith
  constructor
  · have m1 := mul_le_mul_of_nonneg_left k1 s1
    have m2 := mul_le_mul_of_nonneg_left k2 t0
    have e : (1 - t) * ((a - (a + t * h)) / (a + t * h)) + t * ((a + h - (a + t * h)) / (a + t * h)) = 0 := by
      field_simp; ring
    nlinarith
  · have m1 := mul_le_mul_of_nonneg_left k3 s1
    have m2 := mul_le_mul_of_nonneg_left k4 t0
    have e : (1 - t) * ((a + t * h - a) / a) + t * ((a + t * h - (a + h)) / (a + h)) =
        t * (1 - t) * (h ^ 2 / (a * (a + h))) := by
      field_simp; ring
    have q : t * (1 - t) ≤ 1 / 4 := by nlinarith [sq_nonneg (t - 1 / 2)]
    have q2 := mul_le_mul_of_nonneg_right q (show 0 ≤ h ^ 2 / (a * (a + h)) by positivity)
    have e2 : h ^ 2 / (4 * a * (a + h)) = 1 / 4 * (h ^ 2 / (a * (a + h))) := by field_simp
    rw [e2]
    nlinarith

/-- the straight line between two points of the odds, below one half -/
theorem chord_odds {a h t : ℝ} (ha : 0 < a) (hh : 0 < h) (hb : a + h ≤ 2 ^ 30) (t0 : 0 ≤ t) (t1 : t ≤ 1) :
    |((1 - t) * odds a + t * odds (a + h)) - odds (a + t * h)| ≤ h ^ 2 / (4 * a * (a + h)) := by
  norm_num at hb
  have hth : t * h ≤ h := by nlinarith
  have hth0 : 0 ≤ t * h := by positivity
  rw [odds_eq ha (by norm_num; linarith), odds_eq (by linarith) (by norm_num; linarith),
    odds_eq (by linarith) (by norm_num; linarith)]
  obtain ⟨c1, c2⟩ := chord_log ha hh t0 t1
  obtain ⟨d1, d2⟩ := chord_log (a := 2 ^ 31 - (a + h)) (h := h) (t := 1 - t) (by norm_num; linarith) hh (by linarith)
    (by linarith)
  rw [show (2 : ℝ) ^ 31 - (a + h) + (1 - t) * h = 2 ^ 31 - (a + t * h) by ring,
    show (2 : ℝ) ^ 31 - (a + h) + h = 2 ^ 31 - a by ring] at d1 d2
  have hcmp : h ^ 2 / (4 * (2 ^ 31 - (a + h)) * (2 ^ 31 - a)) ≤ h ^ 2 / (4 * a * (a + h)) := by
    apply div_le_div_of_nonneg_left (by positivity) (by positivity)
    norm_num
    nlinarith
  have d3 := le_trans d2 hcmp
  rw [show (1 : ℝ) - (1 - t) = t by ring] at d1 d3
  generalize Real.log (2 ^ 31 - a) = A at *
  generalize Real.log (2 ^ 31 - (a + h)) = B at *
  generalize Real.log (2 ^ 31 - (a + t * h)) = C at *
  generalize Real.log a = D at *
  generalize Real.log (a + h) = F at *
  generalize Real.log (a + t * h) = G at *
  rw [show (1 - t) * (A - D) + t * (B - F) - (C - G) = (G - ((1 - t) * D + t * F)) - (C - (t * B + (1 - t) * A)) by ring,
    abs_le]
  constructor <;> linarith

/-- stretch on a segment of its grid -/
theorem stretchMag_real {n d : Nat} (h0 : 0 < n) (hn : n < 4096) (hd : d < 2 ^ gExp n) :
    |(stretchMag (gPoint n + d) : ℝ) / 2 ^ 21 - odds ((gPoint n + d : ℕ) : ℝ)| ≤
      8 / 10 ^ 7 + (2 ^ gExp n) ^ 2 / (4 * (gPoint n : ℝ) * (gPoint n + 2 ^ gExp n)) := by
  have hp := gPoint_pos h0
  have hw := weight_lt hn hd
  have hcell := stretch_cell hn hd (by omega)
  obtain ⟨a1, a2⟩ := sq31_exact (gVal n) (d * 2 ^ (31 - gExp n))
  obtain ⟨b1, b2⟩ := sq31_exact (gVal (n + 1)) (d * 2 ^ (31 - gExp n))
  have hle := sq31_le (a := gVal n) hw
  have hc : (stretchMag (gPoint n + d) : ℝ) = gVal n - sq31 (gVal n) (d * 2 ^ (31 - gExp n)) +
      sq31 (gVal (n + 1)) (d * 2 ^ (31 - gExp n)) := by
    rw [hcell, Nat.cast_add, Nat.cast_sub hle]
  rw [hc]
  have hs : (0 : ℝ) < 2 ^ gExp n := by positivity
  obtain ⟨t, ht⟩ : ∃ t : ℝ, t = (d : ℝ) / 2 ^ gExp n := ⟨_, rfl⟩
  have t0 : 0 ≤ t := by rw [ht]; positivity
  have t1 : t ≤ 1 := by
    rw [ht, div_le_one hs]
    exact_mod_cast hd.le
  have hdt : (d : ℝ) = t * 2 ^ gExp n := by rw [ht]; field_simp
  have hwt : ((d * 2 ^ (31 - gExp n) : ℕ) : ℝ) = t * 2147483648 := by
    push_cast
    rw [hdt, mul_assoc, ← pow_add, show gExp n + (31 - gExp n) = 31 by have := gExp_le hn; omega]
    norm_num
  have g1 := gVal_real h0 (by omega)
  have g2 := gVal_real (n := n + 1) (by omega) (by omega)
  have hnext : ((gPoint (n + 1) : ℕ) : ℝ) = gPoint n + 2 ^ gExp n := by
    rw [← gPoint_succ]; push_cast; rfl
  have hend : (gPoint n : ℝ) + 2 ^ gExp n ≤ 2 ^ 30 := by
    rw [← hnext]
    have := gPoint_mono (m := n + 1) (n := 4096) (by omega)
    rw [gPoint_end] at this
    exact_mod_cast this
  rw [hnext] at g2
  have hpr : (0 : ℝ) < gPoint n := by exact_mod_cast hp
  have hch := chord_odds hpr hs hend t0 t1
  rw [Nat.cast_add, hdt]
  generalize d * 2 ^ (31 - gExp n) = w at *
  have A1 : (2147483648 : ℝ) * sq31 (gVal n) w ≤ gVal n * (t * 2147483648) + 1073741824 := by
    rw [← hwt]; exact_mod_cast a1
  have A2 : (gVal n : ℝ) * (t * 2147483648) < 2147483648 * sq31 (gVal n) w + 1073741824 := by
    rw [← hwt]; exact_mod_cast a2
  have B1 : (2147483648 : ℝ) * sq31 (gVal (n + 1)) w ≤ gVal (n + 1) * (t * 2147483648) + 1073741824 := by
    rw [← hwt]; exact_mod_cast b1
  have B2 : (gVal (n + 1) : ℝ) * (t * 2147483648) < 2147483648 * sq31 (gVal (n + 1)) w + 1073741824 := by
    rw [← hwt]; exact_mod_cast b2
  generalize (sq31 (gVal n) w : ℝ) = x at *
  generalize (sq31 (gVal (n + 1)) w : ℝ) = y at *
  generalize (gVal n : ℝ) = l at *
  generalize (gVal (n + 1) : ℝ) = u at *
  generalize odds (gPoint n : ℝ) = O1 at *
  generalize odds ((gPoint n : ℝ) + 2 ^ gExp n) = O2 at *
  generalize odds ((gPoint n : ℝ) + t * 2 ^ gExp n) = O at *
  generalize (2 ^ gExp n : ℝ) ^ 2 / (4 * (gPoint n : ℝ) * (gPoint n + 2 ^ gExp n)) = R at *
  have e1 : |(1 - t) * (l / 2 ^ 21 - O1)| ≤ (1 - t) * (3 / 10 ^ 7) := by
    rw [abs_mul, abs_of_nonneg (by linarith : 0 ≤ 1 - t)]
    exact mul_le_mul_of_nonneg_left g1 (by linarith)
  have e2 : |t * (u / 2 ^ 21 - O2)| ≤ t * (3 / 10 ^ 7) := by
    rw [abs_mul, abs_of_nonneg t0]
    exact mul_le_mul_of_nonneg_left g2 t0
  have e3 : |(l - x + y) - ((1 - t) * l + t * u)| ≤ 1 := by
    rw [abs_le]; constructor <;> nlinarith
  rw [abs_le] at *
  norm_num at *
  constructor <;> nlinarith

end Verif.Lut
