import Verif.Mix.MixerProps
import Verif.Mix.RegretSpec
import Verif.Lut.SquashRel

/-!
# Lemmas about the cost of mixed predictions
-/

namespace Verif.Mix

open Verif Verif.Fixed Verif.Lut

/-- the cost of a prediction lies below the tangent -/
theorem log_loss {p : ℝ} (v : ℝ) (h0 : 0 < p) (h1 : p < 1) :
    -Real.log p ≤ -Real.log (logistic v) + (1 - p) * (v - logit p) := by
  have hl : -Real.log (logistic v) = Real.log (1 + Real.exp (-v)) := by
    unfold logistic
    rw [one_div, Real.log_inv, neg_neg]
  rw [hl]
  have hv := Real.exp_pos (-v)
  have e : p * Real.exp (-v) = (1 - p) * Real.exp (logit p - v) := by
    rw [sub_eq_add_neg (logit p), Real.exp_add]
    unfold logit
    rw [Real.exp_log (div_pos h0 (by linarith))]
    have : 1 - p ≠ 0 := by linarith
    field_simp
  have k : Real.exp ((1 - p) * (logit p - v)) ≤ p * (1 + Real.exp (-v)) := by
    rw [mul_add, mul_one, e]
    obtain ⟨m, hm⟩ : ∃ m, m = (1 - p) * (logit p - v) := ⟨_, rfl⟩
    rw [← hm]
    have hp := Real.exp_pos m
    have a1 := Real.add_one_le_exp (-m)
    have a2 := Real.add_one_le_exp (logit p - v - m)
    have b1 : Real.exp m * Real.exp (-m) = 1 := by rw [← Real.exp_add]; simp
    have b2 : Real.exp m * Real.exp (logit p - v - m) = Real.exp (logit p - v) := by
      rw [← Real.exp_add]; congr 1; ring
    have c1 := mul_le_mul_of_nonneg_left a1 hp.le
    have c2 := mul_le_mul_of_nonneg_left a2 hp.le
    rw [b1] at c1
    rw [b2] at c2
    have d1 := mul_le_mul_of_nonneg_left c1 h0.le
    have d2 := mul_le_mul_of_nonneg_left c2 (show 0 ≤ 1 - p by linarith)
    have : p * (Real.exp m * (-m + 1)) + (1 - p) * (Real.exp m * (logit p - v - m + 1)) = Real.exp m := by
      have : p * (Real.exp m * (-m + 1)) + (1 - p) * (Real.exp m * (logit p - v - m + 1)) =
        Real.exp m * (1 - m + (1 - p) * (logit p - v)) := by ring
      rw [this, ← hm]
      ring
    linarith
  have := Real.log_le_log (Real.exp_pos _) k
  rw [Real.log_exp, Real.log_mul (by linarith) (by linarith)] at this
  linarith

theorem logit_le {p s : ℝ} (h0 : 0 < p) (h1 : p < 1) (s0 : 0 < s) (s1 : s < 1) :
    logit s - logit p ≤ (s - p) / (p * (1 - s)) := by
  unfold logit
  have hs : 0 < s / (1 - s) := div_pos s0 (by linarith)
  have hp : 0 < p / (1 - p) := div_pos h0 (by linarith)
  rw [← Real.log_div hs.ne' hp.ne']
  refine le_trans (Real.log_le_sub_one_of_pos (div_pos hs hp)) (le_of_eq ?_)
  have a : 1 - s ≠ 0 := by linarith
  have b : 1 - p ≠ 0 := by linarith
  field_simp
  ring

theorem logit_logistic (x : ℝ) : logit (logistic x) = x := by
  unfold logit logistic
  have h := Real.exp_pos (-x)
  rw [show 1 / (1 + Real.exp (-x)) / (1 - 1 / (1 + Real.exp (-x))) = (Real.exp (-x))⁻¹ by field_simp; ring,
    Real.log_inv, Real.log_exp, neg_neg]

theorem logistic_low {x : ℝ} (h : -12 ≤ x) : 1 / 163001 ≤ logistic x := by
  unfold logistic
  have a1 : Real.exp (-x) ≤ Real.exp 12 := Real.exp_le_exp.mpr (by linarith)
  have a2 : Real.exp 12 = Real.exp 1 ^ 12 := by rw [← Real.exp_nat_mul]; norm_num
  have a3 : Real.exp 1 ^ 12 ≤ (2.7183 : ℝ) ^ 12 :=
    pow_le_pow_left₀ (Real.exp_pos 1).le (by have := Real.exp_one_lt_d9; linarith) 12
  have a6 : (2.7183 : ℝ) ^ 12 ≤ 163000 := by norm_num
  have := Real.exp_pos (-x)
  exact one_div_le_one_div_of_le (by linarith) (by linarith)

/-- the logit of a squashed value is not much smaller than the value, weighted with the probability of a one -/
theorem squash_gap {lut : List (List Int)} {table : List Nat} (hlut : stretchLutNew = some lut)
    (htab : squashLutNew lut = some table) {st : Int} (hst : |st| ≤ 12 * 2 ^ 21) {r : Nat}
    (hr : squash table st = some r) :
    (1 - (r : ℝ) / 2 ^ 31) * ((st : ℝ) / 2 ^ 21 - logit ((r : ℝ) / 2 ^ 31)) ≤ 1 / 4000 := by
  obtain ⟨r', f1, f2, f3, f4⟩ := squashOk hlut htab st hst
  rw [hr] at f1
  obtain rfl := Option.some.inj f1
  obtain ⟨r', g1, g2⟩ := C47_squash lut table hlut htab st hst
  rw [hr] at g1
  obtain rfl := Option.some.inj g1
  have hz : (-12 : ℝ) ≤ (st : ℝ) / 2 ^ 21 ∧ (st : ℝ) / 2 ^ 21 ≤ 12 := by
    have h := abs_le.mp hst
    have h1 : (((-(12 * 2 ^ 21) : ℤ)) : ℝ) ≤ st := by exact_mod_cast h.1
    have h2 : (st : ℝ) ≤ ((12 * 2 ^ 21 : ℤ) : ℝ) := by exact_mod_cast h.2
    rw [le_div_iff₀ (by positivity), div_le_iff₀ (by positivity)]
    push_cast at h1 h2
    constructor <;> linarith
  have p0 : 0 < (r : ℝ) / 2 ^ 31 := by
    have : 0 < r := by omega
    have : (0 : ℝ) < r := by exact_mod_cast this
    positivity
  have p1 : (r : ℝ) / 2 ^ 31 < 1 := by
    rw [div_lt_one (by positivity)]
    have : r < 2 ^ 31 := by omega
    exact_mod_cast this
  have k := logit_le p0 p1 (logistic_pos ((st : ℝ) / 2 ^ 21)) (logistic_lt ((st : ℝ) / 2 ^ 21))
  rw [logit_logistic] at k
  have k2 := mul_le_mul_of_nonneg_left k (show 0 ≤ 1 - (r : ℝ) / 2 ^ 31 by linarith)
  refine le_trans k2 ?_
  have s0 := logistic_pos ((st : ℝ) / 2 ^ 21)
  have s1 := logistic_lt ((st : ℝ) / 2 ^ 21)
  rw [abs_le] at g2
  rw [← mul_div_assoc, div_le_iff₀ (mul_pos p0 (by linarith))]
  rcases le_total st 0 with h | h
  · obtain ⟨r', g1, g3⟩ := C47_rarer lut table hlut htab st hst h
    rw [hr] at g1
    obtain rfl := Option.some.inj g1
    have s2 : logistic ((st : ℝ) / 2 ^ 21) ≤ 1 / 2 := by
      rw [← logistic_zero]
      apply logistic_mono
      have : (st : ℝ) ≤ 0 := by exact_mod_cast h
      exact div_nonpos_of_nonpos_of_nonneg this (by positivity)
    generalize logistic ((st : ℝ) / 2 ^ 21) = s at *
    generalize (r : ℝ) / 2 ^ 31 = p at *
    rcases le_total s p with hc | hc <;> nlinarith
  · have hn : (0 : ℝ) ≤ (st : ℝ) / 2 ^ 21 := by
      have : (0 : ℝ) ≤ st := by exact_mod_cast h
      positivity
    have s2 : 1 / 2 ≤ logistic ((st : ℝ) / 2 ^ 21) := by
      rw [← logistic_zero]
      exact logistic_mono hn
    have s3 : 1 / 163001 ≤ 1 - logistic ((st : ℝ) / 2 ^ 21) := by
      rw [← logistic_neg]
      exact logistic_low (by linarith)
    generalize logistic ((st : ℝ) / 2 ^ 21) = s at *
    generalize (r : ℝ) / 2 ^ 31 = p at *
    norm_num at g2 s3 ⊢
    rcases le_total s p with hc | hc
    · have : 0 ≤ 1 / 4000 * (p * (1 - s)) := by
        have : 0 ≤ 1 - s := by linarith
        positivity
      nlinarith
    · have a1 : (1 - p) * (s - p) ≤ (1 - p) * (7 / 1000000) := mul_le_mul_of_nonneg_left (by linarith) (by linarith)
      have a2 : 49 / 100 ≤ p := by linarith
      have a3 : 1 / 4000 * (49 / 100 * (1 - s)) ≤ 1 / 4000 * (p * (1 - s)) :=
        mul_le_mul_of_nonneg_left (mul_le_mul_of_nonneg_right a2 (by linarith)) (by norm_num)
      linarith

theorem squash_top {lut : List (List Int)} {table : List Nat} (hlut : stretchLutNew = some lut)
    (htab : squashLutNew lut = some table) : squash table (12 * 2 ^ 21) = some 2147467264 := by
  rw [stretchLut_eq] at hlut
  obtain rfl := Option.some.inj hlut
  rw [squashLut_eq stretchTable_ok] at htab
  obtain rfl := Option.some.inj htab
  have := squash_cell (j := 3072) (d := 0) (by norm_num) (by norm_num)
  rw [sqOut_zero, show 3072 = 1536 + 1536 from rfl, sqAt_upper, squash_last] at this
  exact this

theorem limited_neg {k : Int} (hk : 0 ≤ k) (z : Int) : limited k (-z) = -limited k z := by
  unfold limited
  split_ifs <;> omega

/-- the weighted sum against the logit of the mixed prediction, for a zero bit -/
theorem mix_gap {lut : List (List Int)} {table : List Nat} (hlut : stretchLutNew = some lut)
    (htab : squashLutNew lut = some table) {st S : Int} {n : Nat} (hn : n ≤ 30) (hst : |st| ≤ 12 * 2 ^ 21) {r : Nat}
    (hr : squash table st = some r) (hS : |S| ≤ n * (96 * 2 ^ 42))
    (h : |st * 2 ^ 21 - limited (12 * 2 ^ 42) S| ≤ 2 ^ 20 + 2 * (n : Int)) :
    (1 - (r : ℝ) / 2 ^ 31) * ((S : ℝ) / 2 ^ 42 - logit ((r : ℝ) / 2 ^ 31)) ≤ ((n : ℝ) + 1) / 1000 := by
  have g := squash_gap hlut htab hst hr
  obtain ⟨r', f1, f2, f3, f4⟩ := squashOk hlut htab st hst
  rw [hr] at f1
  obtain rfl := Option.some.inj f1
  have p1 : (r : ℝ) / 2 ^ 31 ≤ 1 := by
    rw [div_le_one (by positivity)]
    have : r ≤ 2 ^ 31 := by omega
    exact_mod_cast this
  have p0 : 0 ≤ (r : ℝ) / 2 ^ 31 := by positivity
  have hn0 : (0 : ℝ) ≤ n := by positivity
  rw [show (1 - (r : ℝ) / 2 ^ 31) * ((S : ℝ) / 2 ^ 42 - logit ((r : ℝ) / 2 ^ 31)) =
    (1 - (r : ℝ) / 2 ^ 31) * ((S : ℝ) / 2 ^ 42 - (st : ℝ) / 2 ^ 21) +
    (1 - (r : ℝ) / 2 ^ 31) * ((st : ℝ) / 2 ^ 21 - logit ((r : ℝ) / 2 ^ 31)) by ring]
  by_cases hc : S ≤ 12 * 2 ^ 42
  · have h1 : S ≤ st * 2 ^ 21 + 2 ^ 21 := by
      have := abs_le.mp h
      unfold limited at this
      norm_num at *
      split_ifs at this <;> omega
    have h2 : (S : ℝ) ≤ st * 2 ^ 21 + 2 ^ 21 := by exact_mod_cast h1
    have h3 : (S : ℝ) / 2 ^ 42 - (st : ℝ) / 2 ^ 21 ≤ 1 / 2 ^ 21 := by
      rw [show (S : ℝ) / 2 ^ 42 - (st : ℝ) / 2 ^ 21 = (S - st * 2 ^ 21) / 2 ^ 42 by norm_num; ring,
        div_le_div_iff₀ (by positivity) (by positivity)]
      norm_num at *
      linarith
    have h4 := mul_le_mul_of_nonneg_left h3 (show 0 ≤ 1 - (r : ℝ) / 2 ^ 31 by linarith)
    generalize (r : ℝ) / 2 ^ 31 = p at *
    norm_num at g h4 ⊢
    linarith
  · have h1 : st = 12 * 2 ^ 21 := by
      have := abs_le.mp h
      have := abs_le.mp hst
      unfold limited at *
      rw [if_neg (by norm_num at *; omega), if_pos (by omega)] at *
      norm_num at *
      omega
    subst h1
    rw [squash_top hlut htab] at hr
    obtain rfl := Option.some.inj hr
    have h2 : (S : ℝ) ≤ n * (96 * 2 ^ 42) := by exact_mod_cast (abs_le.mp hS).2
    have h3 : (S : ℝ) / 2 ^ 42 ≤ n * 96 := by
      rw [div_le_iff₀ (by positivity)]
      linarith
    push_cast at g ⊢
    norm_num at g h3 ⊢
    linarith

/-- the change of a weight, against the exact product -/
theorem delta_real {k : Nat} (hk : k ≤ 1000) {bit : Bool} {sq : Nat} (h0 : 0 < sq) (h1 : sq < 2 ^ 31) {st : Int}
    (hst : StOk st) :
    |(deltaOf (stepOf (2 ^ 31 / (k + 2)) bit sq) st : ℝ) / 2 ^ 21 -
      missed bit ((sq : ℝ) / 2 ^ 31) * ((st : ℝ) / 2 ^ 21) / (2 * ((k : ℝ) + 2))| ≤ 25 / 10 ^ 8 := by
  obtain ⟨e1, e2⟩ := errOf_bounds (bit := bit) h0 h1
  have he : missed bit ((sq : ℝ) / 2 ^ 31) = (errOf bit sq : ℝ) / 2 ^ 31 := by
    unfold missed errOf
    cases bit
    · simp; ring
    · simp
  rw [he]
  have hr1 := rnd_err ((2 ^ 31 / (k + 2) : ℕ) : ℤ) (s := 1) (by omega)
  have hr2 := rnd_err (errOf bit sq * rnd ((2 ^ 31 / (k + 2) : ℕ) : ℤ) 1) (s := 31) (by omega)
  have hr3 := rnd_err (st * stepOf (2 ^ 31 / (k + 2)) bit sq) (s := 31) (by omega)
  change 2 * |stepOf (2 ^ 31 / (k + 2)) bit sq * 2 ^ 31 - _| ≤ _ at hr2
  change 2 * |deltaOf (stepOf (2 ^ 31 / (k + 2)) bit sq) st * 2 ^ 31 - _| ≤ _ at hr3
  have hq1 : (2 ^ 31 / (k + 2)) * (k + 2) ≤ 2 ^ 31 := Nat.div_mul_le_self _ _
  have hq2 : 2 ^ 31 < (2 ^ 31 / (k + 2) + 1) * (k + 2) := by
    have := Nat.lt_div_mul_add (a := 2 ^ 31) (show 0 < k + 2 by omega)
    rw [Nat.add_mul, Nat.one_mul]
    exact this
  generalize stepOf (2 ^ 31 / (k + 2)) bit sq = step at *
  generalize deltaOf step st = d at *
  generalize errOf bit sq = E at *
  generalize rnd ((2 ^ 31 / (k + 2) : ℕ) : ℤ) 1 = half at *
  generalize 2 ^ 31 / (k + 2) = q at *
  have E1 : (0 : ℝ) < E := by exact_mod_cast e1
  have E2 : (E : ℝ) < 2 ^ 31 := by exact_mod_cast e2
  have K0 : (0 : ℝ) < (k : ℝ) + 2 := by positivity
  have Q1 : (q : ℝ) * (k + 2) ≤ 2 ^ 31 := by exact_mod_cast hq1
  have Q2 : (2 : ℝ) ^ 31 < (q + 1) * (k + 2) := by exact_mod_cast hq2
  have R1 : 2 * |(half : ℝ) * 2 ^ 1 - q| ≤ 2 ^ 1 := by exact_mod_cast hr1
  have R2 : 2 * |(step : ℝ) * 2 ^ 31 - E * half| ≤ 2 ^ 31 := by exact_mod_cast hr2
  have R3 : 2 * |(d : ℝ) * 2 ^ 31 - st * step| ≤ 2 ^ 31 := by exact_mod_cast hr3
  have hS : |(st : ℝ)| ≤ 12 * 2 ^ 21 := by
    unfold StOk at hst
    exact_mod_cast hst
  -- half against the exact rate
  have A : |(half : ℝ) - 2 ^ 30 / (k + 2)| ≤ 1 := by
    have u1 : (q : ℝ) ≤ 2 ^ 31 / (k + 2) := by rw [le_div_iff₀ K0]; exact Q1
    have u2 : (2 : ℝ) ^ 31 / (k + 2) < q + 1 := by rw [div_lt_iff₀ K0]; exact Q2
    have u3 : (2 : ℝ) ^ 31 / (k + 2) = 2 * (2 ^ 30 / (k + 2)) := by ring
    rw [u3] at u1 u2
    generalize (2 : ℝ) ^ 30 / (k + 2) = y at *
    have := abs_le.mp (show |(half : ℝ) * 2 ^ 1 - q| ≤ 1 by norm_num at R1 ⊢; linarith)
    rw [abs_le]
    norm_num at this
    constructor <;> linarith
  have B : |(step : ℝ) - E / 2 ^ 31 * (2 ^ 30 / (k + 2))| ≤ 3 / 2 := by
    have v1 : |(step : ℝ) - E / 2 ^ 31 * half| ≤ 1 / 2 := by
      have : (step : ℝ) - E / 2 ^ 31 * half = (step * 2 ^ 31 - E * half) / 2 ^ 31 := by norm_num; ring
      rw [this, abs_div, abs_of_pos (show (0 : ℝ) < 2 ^ 31 by positivity), div_le_iff₀ (by positivity)]
      norm_num at R2 ⊢
      linarith
    have v2 : |E / 2 ^ 31 * (half : ℝ) - E / 2 ^ 31 * (2 ^ 30 / (k + 2))| ≤ 1 := by
      rw [← mul_sub, abs_mul]
      have : |(E : ℝ) / 2 ^ 31| ≤ 1 := by
        rw [abs_of_pos (by positivity), div_le_one (by positivity)]
        exact E2.le
      calc _ ≤ 1 * (1 : ℝ) := mul_le_mul this A (abs_nonneg _) (by norm_num)
        _ = 1 := by norm_num
    have := abs_sub_le (step : ℝ) (E / 2 ^ 31 * half) (E / 2 ^ 31 * (2 ^ 30 / (k + 2)))
    linarith
  have C1 : |(d : ℝ) - st * step / 2 ^ 31| ≤ 1 / 2 := by
    have : (d : ℝ) - st * step / 2 ^ 31 = (d * 2 ^ 31 - st * step) / 2 ^ 31 := by norm_num; ring
    rw [this, abs_div, abs_of_pos (show (0 : ℝ) < 2 ^ 31 by positivity), div_le_iff₀ (by positivity)]
    norm_num at R3 ⊢
    linarith
  have C2 : |(st : ℝ) * step / 2 ^ 31 - st / 2 ^ 31 * (E / 2 ^ 31 * (2 ^ 30 / (k + 2)))| ≤ 9 / 512 := by
    rw [show (st : ℝ) * step / 2 ^ 31 - st / 2 ^ 31 * (E / 2 ^ 31 * (2 ^ 30 / (k + 2))) =
      st / 2 ^ 31 * (step - E / 2 ^ 31 * (2 ^ 30 / (k + 2))) by ring, abs_mul]
    have : |(st : ℝ) / 2 ^ 31| ≤ 3 / 256 := by
      rw [abs_div, abs_of_pos (show (0 : ℝ) < 2 ^ 31 by positivity), div_le_iff₀ (by positivity)]
      norm_num at hS ⊢
      linarith
    calc _ ≤ 3 / 256 * (3 / 2 : ℝ) := mul_le_mul this B (abs_nonneg _) (by norm_num)
      _ = 9 / 512 := by norm_num
  have C := abs_sub_le (d : ℝ) (st * step / 2 ^ 31) (st / 2 ^ 31 * (E / 2 ^ 31 * (2 ^ 30 / (k + 2))))
  have e : (d : ℝ) / 2 ^ 21 - E / 2 ^ 31 * (st / 2 ^ 21) / (2 * (k + 2)) =
      (d - st / 2 ^ 31 * (E / 2 ^ 31 * (2 ^ 30 / (k + 2)))) / 2 ^ 21 := by
    field_simp
  rw [e, abs_div, abs_of_pos (show (0 : ℝ) < 2 ^ 21 by positivity), div_le_iff₀ (by positivity)]
  norm_num at C C1 C2 ⊢
  linarith

/-- moving towards a point of the box and then limiting to the box -/
theorem step_real {w a x e g s : ℝ} {K : ℝ} (hK : 2 ≤ K) (hw : |w| ≤ 8) (ha : |a| ≤ 8) (hx : |x| ≤ 12) (he0 : 0 ≤ e)
    (he1 : e ≤ 1) (hs : s = 1 ∨ s = -1) (hg : |g - e * x / (2 * K)| ≤ 25 / 10 ^ 8) :
    K * (w + s * g - a) ^ 2 ≤ K * (w - a) ^ 2 + s * e * (w * x - a * x) + e ^ 2 * x ^ 2 / (4 * K) + K / 10 ^ 5 := by
  obtain ⟨ρ, hρ⟩ : ∃ ρ, ρ = g - e * x / (2 * K) := ⟨_, rfl⟩
  rw [← hρ] at hg
  obtain rfl : g = e * x / (2 * K) + ρ := by rw [hρ]; ring
  have hs2 : s ^ 2 = 1 := by rcases hs with rfl | rfl <;> norm_num
  have hs1 : |s| = 1 := by rcases hs with rfl | rfl <;> norm_num
  have hK0 : K ≠ 0 := by linarith
  have id : K * (w + s * (e * x / (2 * K) + ρ) - a) ^ 2 = K * (w - a) ^ 2 + s * e * (w * x - a * x) +
      s ^ 2 * (e ^ 2 * x ^ 2 / (4 * K)) + (2 * K * (s * (w - a) * ρ) + s ^ 2 * (e * x * ρ) + K * s ^ 2 * ρ ^ 2) := by
    field_simp
    ring
  rw [id, hs2]
  have hwa : |w - a| ≤ 16 := by
    rw [abs_le] at *
    constructor <;> linarith
  have t1 : s * (w - a) * ρ ≤ 16 * (25 / 10 ^ 8) := by
    refine le_trans (le_abs_self _) ?_
    rw [abs_mul, abs_mul, hs1, one_mul]
    exact mul_le_mul hwa hg (abs_nonneg _) (by norm_num)
  have t2 : e * x * ρ ≤ 12 * (25 / 10 ^ 8) := by
    refine le_trans (le_abs_self _) ?_
    rw [abs_mul, abs_mul, abs_of_nonneg he0]
    have : e * |x| ≤ 12 := by nlinarith [abs_nonneg x]
    exact mul_le_mul this hg (abs_nonneg _) (by norm_num)
  have t3 : ρ ^ 2 ≤ (25 / 10 ^ 8) ^ 2 := by
    rw [← sq_abs]
    exact pow_le_pow_left₀ (abs_nonneg _) hg 2
  have t4 := mul_le_mul_of_nonneg_left t1 (show 0 ≤ 2 * K by linarith)
  have t5 := mul_le_mul_of_nonneg_left t3 (show 0 ≤ K by linarith)
  norm_num at *
  linarith

/-- limiting to an interval does not increase the distance to its points -/
theorem clamp_sq {y a c : ℝ} (h : |a| ≤ c) : (max (min y c) (-c) - a) ^ 2 ≤ (y - a) ^ 2 := by
  have ha := abs_le.mp h
  rcases le_total y c with h1 | h1
  · rw [min_eq_left h1]
    rcases le_total y (-c) with h2 | h2
    · rw [max_eq_right h2]; nlinarith
    · rw [max_eq_left h2]
  · rw [min_eq_right h1, max_eq_left (by linarith)]
    nlinarith

end Verif.Mix
