import Verif.Mix.ApmMirror
import Mathlib.Analysis.Convex.SpecificFunctions.Basic
import Mathlib.Analysis.SpecialFunctions.Log.Base
import Mathlib.Analysis.Complex.ExponentialBounds
import Mathlib.Algebra.BigOperators.Ring.Finset

/-!
# Lemmas about what a map pays while it learns

The potential of an entry is what it would charge for the guessed bit. A hit pays out of the potential of the two entries
in use; a miss raises it a little.
-/

namespace Verif.Mix

open Verif Verif.Fixed Verif.Lut

/-! ## Real numbers -/

/-- the cost in bits of an event with the probability `y / 2^31` -/
noncomputable def price (y : ℝ) : ℝ := 31 - Real.logb 2 y

theorem price_anti {x y : ℝ} (hx : 0 < x) (h : x ≤ y) : price y ≤ price x := by
  have := Real.logb_le_logb_of_le (b := 2) (by norm_num) hx h
  unfold price
  linarith

theorem logb_pow2 (k : ℕ) : Real.logb 2 (2 ^ k) = k := by
  rw [Real.logb_pow, Real.logb_self_eq_one (by norm_num), mul_one]

theorem price_nonneg {y : ℝ} (hy : 0 < y) (h : y ≤ 2 ^ 31) : 0 ≤ price y := by
  have := price_anti hy h
  have e : price (2 ^ 31) = 0 := by unfold price; rw [logb_pow2]; norm_num
  linarith

theorem price_le {y : ℝ} (h : 2 ≤ y) : price y ≤ 30 := by
  have := price_anti (by norm_num) h
  have e : price 2 = 30 := by unfold price; rw [Real.logb_self_eq_one (by norm_num)]; norm_num
  linarith

/-- an average of probabilities costs at most the average of their costs -/
theorem price_mix {x y w : ℝ} (hx : 0 < x) (hy : 0 < y) (h0 : 0 ≤ w) (h1 : w ≤ 1) :
    price ((1 - w) * x + w * y) ≤ (1 - w) * price x + w * price y := by
  have h := strictConcaveOn_log_Ioi.concaveOn.2 (Set.mem_Ioi.mpr hx) (Set.mem_Ioi.mpr hy)
    (show 0 ≤ 1 - w by linarith) h0 (by ring)
  simp only [smul_eq_mul] at h
  have hl : 0 < Real.log 2 := Real.log_pos (by norm_num)
  unfold price Real.logb
  have : (1 - w) * (Real.log x / Real.log 2) + w * (Real.log y / Real.log 2) ≤
      Real.log ((1 - w) * x + w * y) / Real.log 2 := by
    rw [le_div_iff₀ hl]
    have e : ((1 - w) * (Real.log x / Real.log 2) + w * (Real.log y / Real.log 2)) * Real.log 2 =
      (1 - w) * Real.log x + w * Real.log y := by field_simp
    rw [e]
    exact h
  linarith

theorem logb_le {t : ℝ} (h : 0 ≤ t) : Real.logb 2 (1 + t) ≤ 3 / 2 * t := by
  have h1 := Real.log_le_sub_one_of_pos (show 0 < 1 + t by linarith)
  have h2 := Real.log_two_gt_d9
  unfold Real.logb
  rw [div_le_iff₀ (by linarith)]
  nlinarith

/-- what is charged when nothing can be learned any more -/
noncomputable def floorPrice (rate : Nat) : ℝ := price (2 ^ 31 - 2 ^ rate + 1)

/-- a hit is paid by the potential -/
theorem hit_pays {rate : Nat} (hr : rate < 30) {y y' : ℝ} (hy : 0 < y)
    (h : y + (2 ^ 31 - 2 ^ rate + 1 - y) / 2 ^ (rate + 1) ≤ y') :
    price y ≤ 2 ^ (rate + 1) * (price y - price y') + floorPrice rate := by
  have hp : (2 : ℝ) ^ rate ≤ 2 ^ 30 := pow_le_pow_right₀ (by norm_num) (by omega)
  have hY : (0 : ℝ) < 2 ^ 31 - 2 ^ rate + 1 := by nlinarith [hp]
  have hq : (2 : ℝ) ≤ 2 ^ (rate + 1) := by
    calc (2 : ℝ) = 2 ^ 1 := by norm_num
      _ ≤ 2 ^ (rate + 1) := pow_le_pow_right₀ (by norm_num) (by omega)
  unfold floorPrice
  generalize (2 : ℝ) ^ 31 - 2 ^ rate + 1 = Y at *
  generalize (2 : ℝ) ^ (rate + 1) = q at *
  have hq0 : (0 : ℝ) < q := by linarith
  have hw0 : 0 ≤ 1 / q := by positivity
  have hw1 : 1 / q ≤ 1 := by rw [div_le_one hq0]; linarith
  have hm := price_mix hy hY hw0 hw1
  have hpos : 0 < (1 - 1 / q) * y + 1 / q * Y := by
    have : 0 < 1 - 1 / q := by rw [sub_pos, div_lt_one hq0]; linarith
    positivity
  have ha := price_anti hpos (show (1 - 1 / q) * y + 1 / q * Y ≤ y' by
    have : y + (Y - y) / q = (1 - 1 / q) * y + 1 / q * Y := by field_simp; ring
    linarith)
  have h3 : q * price y' ≤ (q - 1) * price y + price Y := by
    have := mul_le_mul_of_nonneg_left (le_trans ha hm) hq0.le
    have e : q * ((1 - 1 / q) * price y + 1 / q * price Y) = (q - 1) * price y + price Y := by field_simp
    linarith
  linarith

/-- a miss raises the potential a little -/
theorem miss_raises {rate : Nat} (hr : 2 ≤ rate) {y y' : ℝ} (hy : 0 < y) (h : y - y / 2 ^ rate ≤ y') :
    2 ^ (rate + 1) * (price y' - price y) ≤ 4 := by
  have hq : (4 : ℝ) ≤ 2 ^ rate := by
    calc (4 : ℝ) = 2 ^ 2 := by norm_num
      _ ≤ 2 ^ rate := pow_le_pow_right₀ (by norm_num) hr
  rw [pow_succ]
  generalize (2 : ℝ) ^ rate = q at *
  have hq0 : (0 : ℝ) < q := by linarith
  have hpos : 0 < 1 - 1 / q := by rw [sub_pos, div_lt_one hq0]; linarith
  have h1 : price y' ≤ price (y * (1 - 1 / q)) := price_anti (by positivity) (by
    have : y * (1 - 1 / q) = y - y / q := by field_simp
    linarith)
  have h2 : price (y * (1 - 1 / q)) = price y - Real.logb 2 (1 - 1 / q) := by
    unfold price
    rw [Real.logb_mul hy.ne' hpos.ne']
    ring
  have h3 : -Real.logb 2 (1 - 1 / q) ≤ 2 / q := by
    have e : -Real.logb 2 (1 - 1 / q) = Real.logb 2 (1 + 1 / (q - 1)) := by
      rw [← Real.logb_inv]
      congr 1
      have : q - 1 ≠ 0 := by linarith
      field_simp
      ring
    rw [e]
    have hq1 : 0 < q - 1 := by linarith
    refine le_trans (logb_le (by positivity)) ?_
    rw [mul_one_div, div_le_div_iff₀ hq1 hq0]
    linarith
  have h4 : price y' - price y ≤ 2 / q := by linarith
  have := mul_le_mul_of_nonneg_left h4 (show (0 : ℝ) ≤ q * 2 by linarith)
  have e : q * 2 * (2 / q) = 4 := by field_simp; norm_num
  linarith

/-- rounding down costs a little of the price and next to nothing besides -/
theorem round_loss {y d e : ℝ} (hy : 0 < y) (hd : 0 ≤ d) (he0 : 0 < e) (he : e ≤ y + d) (he1 : e ≤ 2 ^ 31)
    (h : (y + d) ^ 21 ≤ 2 ^ 31 * y ^ 20 ∨ 2 ^ 30 ≤ y) : Real.logb 2 ((y + d) / y) ≤ 1 / 20 * price e + d / 2 ^ 29 := by
  have hyd : 0 < y + d := by linarith
  have h2 : price (y + d) ≤ price e := price_anti he0 he
  have h3 := price_nonneg he0 he1
  rcases h with h | h
  · have h4 := Real.logb_le_logb_of_le (b := 2) (by norm_num) (by positivity) h
    rw [Real.logb_mul (by positivity) (by positivity), logb_pow2, Real.logb_pow, Real.logb_pow] at h4
    have : 20 * Real.logb 2 ((y + d) / y) ≤ price (y + d) := by
      rw [Real.logb_div hyd.ne' hy.ne']
      unfold price
      push_cast at h4
      linarith
    have hd' : 0 ≤ d / 2 ^ 29 := by positivity
    linarith
  · have h4 : Real.logb 2 ((y + d) / y) ≤ d / 2 ^ 29 := by
      rw [show (y + d) / y = 1 + d / y by field_simp]
      refine le_trans (logb_le (by positivity)) ?_
      have : d / y ≤ d / 2 ^ 30 := div_le_div_of_nonneg_left hd (by norm_num) h
      have e : d / 2 ^ 29 = 2 * (d / 2 ^ 30) := by ring
      have : 0 ≤ d / 2 ^ 30 := by positivity
      linarith
    linarith

theorem price_round {y d e : ℝ} (hy : 0 < y) (hd : 0 ≤ d) (he0 : 0 < e) (he : e ≤ y + d) (he1 : e ≤ 2 ^ 31)
    (h : (y + d) ^ 21 ≤ 2 ^ 31 * y ^ 20 ∨ 2 ^ 30 ≤ y) : price y ≤ 21 / 20 * price e + d / 2 ^ 29 := by
  have hyd : 0 < y + d := by linarith
  have h1 : price y = price (y + d) + Real.logb 2 ((y + d) / y) := by
    unfold price
    rw [Real.logb_div hyd.ne' hy.ne']
    ring
  have h2 : price (y + d) ≤ price e := price_anti he0 he
  have h3 := round_loss hy hd he0 he he1 h
  linarith

/-! ## Entries -/

/-- the probability of a bit, in units of `2^-31`, when that of a zero is `x` -/
def sideOf (b : Bool) (x : Nat) : Nat := if b then 2 ^ 31 - x else x

theorem sideOf_ok {b : Bool} {x : Nat} (hx : EntryOk x) : EntryOk (sideOf b x) := by
  obtain ⟨h1, h2⟩ := hx
  unfold sideOf EntryOk
  split <;> omega

theorem half_weight (m : Nat) : sq31 (2 ^ 30) m = (m + 1) / 2 := by
  unfold sq31
  omega

theorem learned_hit {b : Bool} {w rate x : Nat} (hw : w ≤ 2 ^ 31) (hr : 2 ≤ rate) (hx : EntryOk x) :
    sideOf b (learned b w rate x) = sideOf b x + sq31 w ((2 ^ 31 - sideOf b x) / 2 ^ rate) := by
  obtain ⟨h1, h2⟩ := hx
  have hc : sq31 w (x / 2 ^ rate) ≤ x / 2 ^ rate := by rw [sq31_comm]; exact sq31_le' hw
  unfold learned sideOf
  have q := quarter (x := x) hr
  cases b
  · simp
  · simp only [if_true]
    rw [show 2 ^ 31 - (2 ^ 31 - x) = x by omega]
    generalize sq31 w (x / 2 ^ rate) = k at *
    generalize x / 2 ^ rate = m at *
    omega

theorem learned_miss {b c : Bool} {w rate x : Nat} (h : c ≠ b) :
    sideOf c (learned b w rate x) = sideOf c x - sq31 w (sideOf c x / 2 ^ rate) := by
  unfold learned sideOf
  cases b <;> cases c <;> simp at h
  · simp only [Bool.false_eq_true, if_true, if_false]
    generalize sq31 w ((2 ^ 31 - x) / 2 ^ rate) = m at *
    omega
  · simp

/-- the entry pays for a hit -/
theorem entry_hit {b : Bool} {rate x : Nat} (hr : 2 ≤ rate) (hr2 : rate < 30) (hx : EntryOk x) :
    price (sideOf b x) ≤ 2 ^ (rate + 1) * (price (sideOf b x) - price (sideOf b (learned b (2 ^ 30) rate x))) +
      floorPrice rate ∧ price (sideOf b (learned b (2 ^ 30) rate x)) ≤ price (sideOf b x) := by
  have hs := sideOf_ok (b := b) hx
  have e := learned_hit (b := b) (w := 2 ^ 30) (by norm_num) hr hx
  rw [half_weight] at e
  generalize sideOf b (learned b (2 ^ 30) rate x) = y' at *
  generalize sideOf b x = y at *
  obtain ⟨h1, h2⟩ := hs
  have hy : (0 : ℝ) < y := by exact_mod_cast (show 0 < y by omega)
  have h3 := Nat.lt_div_mul_add (a := 2 ^ 31 - y) (b := 2 ^ rate) (by positivity)
  generalize (2 ^ 31 - y) / 2 ^ rate = m at *
  have hle : y ≤ y' := by omega
  constructor
  · refine hit_pays hr2 hy ?_
    have hp : (0 : ℝ) < 2 ^ (rate + 1) := by positivity
    have hN : (2 ^ 31 - y) + 1 ≤ 2 ^ (rate + 1) * (y' - y) + 2 ^ rate := by
      have h4 : m ≤ 2 * (y' - y) := by omega
      have h5 := Nat.mul_le_mul_right (2 ^ rate) h4
      have h6 : 2 * (y' - y) * 2 ^ rate = 2 ^ (rate + 1) * (y' - y) := by rw [pow_succ]; ring
      omega
    have hR : ((2 : ℝ) ^ 31 - y) + 1 ≤ 2 ^ (rate + 1) * (y' - y) + 2 ^ rate := by
      have c1 : ((2 ^ 31 - y : ℕ) : ℝ) = 2 ^ 31 - y := by rw [Nat.cast_sub (by omega)]; push_cast; ring
      have c2 : ((y' - y : ℕ) : ℝ) = y' - y := by rw [Nat.cast_sub hle]
      rw [← c1, ← c2]
      exact_mod_cast hN
    rw [← le_sub_iff_add_le', div_le_iff₀ hp]
    linarith
  · exact price_anti hy (by exact_mod_cast hle)

theorem floorPrice_le {rate : Nat} (hr : rate < 30) : floorPrice rate ≤ 2 ^ rate / 2 ^ 29 := by
  have hp : (2 : ℝ) ^ rate ≤ 2 ^ 29 := pow_le_pow_right₀ (by norm_num) (by omega)
  have h1 : (1 : ℝ) ≤ 2 ^ rate := one_le_pow₀ (by norm_num)
  unfold floorPrice price
  generalize (2 : ℝ) ^ rate = q at *
  have hY : (0 : ℝ) < 2 ^ 31 - q + 1 := by nlinarith [hp]
  have e : (31 : ℝ) - Real.logb 2 (2 ^ 31 - q + 1) = Real.logb 2 (1 + (q - 1) / (2 ^ 31 - q + 1)) := by
    have : (1 : ℝ) + (q - 1) / (2 ^ 31 - q + 1) = 2 ^ 31 / (2 ^ 31 - q + 1) := by field_simp; ring
    rw [this, Real.logb_div (by norm_num) hY.ne', logb_pow2]
    norm_num
  rw [e]
  refine le_trans (logb_le (div_nonneg (by linarith) hY.le)) ?_
  have : (q - 1) / (2 ^ 31 - q + 1) ≤ q / 2 ^ 30 := by
    rw [div_le_div_iff₀ hY (by norm_num)]
    nlinarith
  have e : q / 2 ^ 29 = 2 * (q / 2 ^ 30) := by ring
  have : 0 ≤ q / 2 ^ 30 := by positivity
  linarith

/-- the entry pays for its share of a hit -/
theorem entry_share {b : Bool} {w rate x : Nat} (hw : w ≤ 2 ^ 31) (hr : 2 ≤ rate) (hr2 : rate < 30) (hx : EntryOk x) :
    (w : ℝ) / 2 ^ 31 * price (sideOf b x) ≤
      2 ^ (rate + 1) * (price (sideOf b x) - price (sideOf b (learned b w rate x))) + 2 ^ rate / 2 ^ 24 := by
  have hs := sideOf_ok (b := b) hx
  have e := learned_hit (b := b) hw hr hx
  generalize sideOf b (learned b w rate x) = y' at *
  generalize sideOf b x = y at *
  obtain ⟨h1, h2⟩ := hs
  have hy : (0 : ℝ) < y := by exact_mod_cast (show 0 < y by omega)
  have hyT : (y : ℝ) ≤ 2 ^ 31 := by exact_mod_cast (show y ≤ 2 ^ 31 by omega)
  have h3 := Nat.lt_div_mul_add (a := 2 ^ 31 - y) (b := 2 ^ rate) (by positivity)
  obtain ⟨-, s1⟩ := sq31_exact w ((2 ^ 31 - y) / 2 ^ rate)
  have hle : y ≤ y' := by rw [e]; exact Nat.le_add_right _ _
  generalize (2 ^ 31 - y) / 2 ^ rate = m at *
  generalize sq31 w m = k at *
  have hmono : price y' ≤ price y := price_anti hy (by exact_mod_cast hle)
  have v0 : (0 : ℝ) ≤ (w : ℝ) / 2 ^ 31 := by positivity
  have v1 : (w : ℝ) / 2 ^ 31 ≤ 1 := by
    rw [div_le_one (by norm_num)]
    exact_mod_cast hw
  have hp : (2 : ℝ) ^ rate ≤ 2 ^ 29 := pow_le_pow_right₀ (by norm_num) (by omega)
  have hp4 : (4 : ℝ) ≤ 2 ^ rate := by
    calc (4 : ℝ) = 2 ^ 2 := by norm_num
      _ ≤ 2 ^ rate := pow_le_pow_right₀ (by norm_num) hr
  have hm : (2 : ℝ) ^ 31 - y + 1 ≤ (m + 1) * 2 ^ rate := by
    have c1 : ((2 ^ 31 - y : ℕ) : ℝ) = 2 ^ 31 - y := by rw [Nat.cast_sub (by omega)]; push_cast; ring
    rw [← c1]
    have : (2 ^ 31 - y) + 1 ≤ (m + 1) * 2 ^ rate := by rw [Nat.add_mul]; omega
    exact_mod_cast this
  have hk : (w : ℝ) / 2 ^ 31 * m ≤ k + 1 / 2 := by
    have s1' : 2 * (w * m) ≤ (2 * k + 1) * 2 ^ 31 := by norm_num at *; omega
    have s2 : 2 * ((w : ℝ) * m) ≤ (2 * k + 1) * 2 ^ 31 := by exact_mod_cast s1'
    rw [div_mul_eq_mul_div, div_le_iff₀ (by norm_num)]
    linarith
  have hy' : (y' : ℝ) = y + k := by exact_mod_cast e
  have hfl := floorPrice_le hr2
  have hq : (2 : ℝ) ^ (rate + 1) = 2 * 2 ^ rate := by rw [pow_succ]; ring
  have hq0 : (0 : ℝ) < 2 ^ (rate + 1) := by positivity
  unfold floorPrice at hfl
  rw [hq] at *
  have hpr : price y ≤ 30 := price_le (by exact_mod_cast h1)
  have hpr0 : 0 ≤ price y := price_nonneg hy hyT
  generalize (w : ℝ) / 2 ^ 31 = v at *
  generalize hqq : (2 : ℝ) ^ rate = q at *
  by_cases hu : q ≤ v * (2 ^ 31 - q + 1 - y)
  · -- enough to learn
    have hY : (0 : ℝ) < 2 ^ 31 - q + 1 := by nlinarith
    generalize hYY : (2 : ℝ) ^ 31 - q + 1 = Y at *
    have g1 : v * (Y - y) ≤ 2 * q * k := by
      have a1 : Y - y ≤ m * q := by linarith
      have a2 := mul_le_mul_of_nonneg_left a1 v0
      have a3 := mul_le_mul_of_nonneg_right hk (show 0 ≤ q by linarith)
      nlinarith
    have w0 : 0 ≤ v / (2 * q) := by positivity
    have w1 : v / (2 * q) < 1 := by
      rw [div_lt_one hq0]
      linarith
    have hmix := price_mix hy hY w0 w1.le
    have hpos : 0 < (1 - v / (2 * q)) * y + v / (2 * q) * Y := by
      have : 0 < (1 - v / (2 * q)) * y := mul_pos (by linarith) hy
      have : 0 ≤ v / (2 * q) * Y := mul_nonneg w0 hY.le
      linarith
    have ha := price_anti hpos (show (1 - v / (2 * q)) * y + v / (2 * q) * Y ≤ y' by
      have e1 : (1 - v / (2 * q)) * y + v / (2 * q) * Y = y + v * (Y - y) / (2 * q) := by field_simp; ring
      have e2 : v * (Y - y) / (2 * q) ≤ k := by
        rw [div_le_iff₀ hq0]
        linarith
      rw [e1, hy']
      linarith)
    have h4 := mul_le_mul_of_nonneg_left (le_trans ha hmix) hq0.le
    have e3 : 2 * q * ((1 - v / (2 * q)) * price y + v / (2 * q) * price Y) = (2 * q - v) * price y + v * price Y := by
      have : q ≠ 0 := by linarith
      field_simp
    rw [e3] at h4
    have h5 : v * price Y ≤ q / 2 ^ 24 := by
      have a1 := mul_le_mul_of_nonneg_left hfl v0
      have a2 : 0 ≤ q / 2 ^ 29 := by positivity
      have a3 := mul_le_mul_of_nonneg_right v1 a2
      have a4 : q / 2 ^ 24 = 32 * (q / 2 ^ 29) := by ring
      linarith
    linarith
  · -- next to nothing to pay
    have h6 : v * price y ≤ q / 2 ^ 24 := by
      rw [not_le] at hu
      by_cases hb : (2 : ℝ) ^ 30 ≤ y
      · have e1 : price y = Real.logb 2 (1 + (2 ^ 31 - y) / y) := by
          rw [show 1 + ((2 : ℝ) ^ 31 - y) / y = 2 ^ 31 / y by field_simp; ring, Real.logb_div (by norm_num) hy.ne',
            logb_pow2]
          unfold price
          norm_num
        have e2 := logb_le (t := ((2 : ℝ) ^ 31 - y) / y) (div_nonneg (by linarith) hy.le)
        rw [← e1] at e2
        have e3 : ((2 : ℝ) ^ 31 - y) / y ≤ (2 ^ 31 - y) / 2 ^ 30 :=
          div_le_div_of_nonneg_left (by linarith) (by norm_num) hb
        have e4 : v * price y ≤ v * (3 / 2 * ((2 ^ 31 - y) / 2 ^ 30)) :=
          mul_le_mul_of_nonneg_left (by linarith) v0
        have e5 : v * (3 / 2 * (((2 : ℝ) ^ 31 - y) / 2 ^ 30)) = 3 / 2 * (v * (2 ^ 31 - q + 1 - y) + v * (q - 1)) / 2 ^ 30 := by
          ring
        have e6 : v * (q - 1) ≤ q := by nlinarith
        have e7 : 3 / 2 * (v * (2 ^ 31 - q + 1 - y) + v * (q - 1)) / 2 ^ 30 ≤ q / 2 ^ 24 := by
          rw [div_le_div_iff₀ (by norm_num) (by norm_num)]
          linarith
        linarith
      · rw [not_le] at hb
        have e1 : v * 2 ^ 29 ≤ q := by
          have : v * 2 ^ 29 ≤ v * (2 ^ 31 - q + 1 - y) := mul_le_mul_of_nonneg_left (by linarith) v0
          linarith
        have e2 := mul_le_mul_of_nonneg_left hpr v0
        rw [le_div_iff₀ (by norm_num)]
        linarith
    have h7 := mul_nonneg hq0.le (show 0 ≤ price y - price y' by linarith)
    linarith

/-- a miss raises the potential of the entry a little -/
theorem entry_miss {b c : Bool} {w rate x : Nat} (hw : w ≤ 2 ^ 31) (hr : 2 ≤ rate) (hx : EntryOk x) (h : c ≠ b) :
    2 ^ (rate + 1) * (price (sideOf c (learned b w rate x)) - price (sideOf c x)) ≤ 4 := by
  have hs := sideOf_ok (b := c) hx
  have e := learned_miss (w := w) (rate := rate) (x := x) h
  generalize sideOf c (learned b w rate x) = y' at *
  generalize sideOf c x = y at *
  obtain ⟨h1, h2⟩ := hs
  have hy : (0 : ℝ) < y := by exact_mod_cast (show 0 < y by omega)
  refine miss_raises hr hy ?_
  have hp : (0 : ℝ) < 2 ^ rate := by positivity
  have h4 := Nat.div_mul_le_self y (2 ^ rate)
  have hc : sq31 w (y / 2 ^ rate) ≤ y / 2 ^ rate := by rw [sq31_comm]; exact sq31_le' hw
  have hN : y ≤ y' + y / 2 ^ rate := by
    generalize sq31 w (y / 2 ^ rate) = k at *
    generalize y / 2 ^ rate = m at *
    omega
  have hR : (y : ℝ) ≤ y' + ((y / 2 ^ rate : ℕ) : ℝ) := by exact_mod_cast hN
  have hd : ((y / 2 ^ rate : ℕ) : ℝ) ≤ y / 2 ^ rate := by
    rw [le_div_iff₀ hp]
    exact_mod_cast h4
  linarith

/-! ## The map -/

/-- the worth of all entries of a map, where an entry `x` of the context `c` is worth `worth c x` -/
noncomputable def total (worth : Nat → Nat → ℝ) (contexts stops : Nat) (entries : List Nat) : ℝ :=
  ∑ p ∈ Finset.range contexts ×ˢ Finset.range stops, worth p.1 (entries.getD (p.1 * stops + p.2) 1)

/-- what an entry has left to learn about a guess: the price of the guessed bit -/
noncomputable def guessWorth (guess : Nat → Option Bool) (c x : Nat) : ℝ :=
  match guess c with
  | none => 0
  | some b => price (sideOf b x)

/-- what is left to learn: the prices of the guessed bits in all entries of the contexts with a guess -/
noncomputable def potential (guess : Nat → Option Bool) (contexts stops : Nat) (entries : List Nat) : ℝ :=
  total (guessWorth guess) contexts stops entries

theorem sum_two {s : Finset (ℕ × ℕ)} {F G : ℕ × ℕ → ℝ} {p q : ℕ × ℕ} (hp : p ∈ s) (hq : q ∈ s) (hpq : p ≠ q)
    (h : ∀ x ∈ s, x ≠ p → x ≠ q → F x = G x) :
    ∑ x ∈ s, F x - ∑ x ∈ s, G x = (F p - G p) + (F q - G q) := by
  rw [← Finset.sum_sub_distrib, ← Finset.sum_pair (f := fun x => F x - G x) hpq]
  symm
  refine Finset.sum_subset ?_ ?_
  · intro x hx
    rcases Finset.mem_insert.mp hx with rfl | hx
    · exact hp
    · obtain rfl := Finset.mem_singleton.mp hx
      exact hq
  · intro x hx hn
    rw [Finset.mem_insert, Finset.mem_singleton, not_or] at hn
    rw [h x hx hn.1 hn.2, sub_self]

/-- an update changes the worth of the two entries only -/
theorem total_set {worth : Nat → Nat → ℝ} {contexts n c i L R L' R' : Nat} {es : List Nat}
    (hc : c < contexts) (hi : i + 1 < n) (hL : es[c * n + i]? = some L)
    (hR : es[c * n + (i + 1)]? = some R) :
    total worth contexts n es - total worth contexts n ((es.set (c * n + i) L').set (c * n + (i + 1)) R') =
      worth c L - worth c L' + (worth c R - worth c R') := by
  have lt1 : c * n + i < es.length := (List.getElem?_eq_some_iff.mp hL).1
  have lt2 : c * n + (i + 1) < es.length := (List.getElem?_eq_some_iff.mp hR).1
  have g1 : es.getD (c * n + i) 1 = L := by rw [List.getD_eq_getElem?_getD, hL]; rfl
  have g2 : es.getD (c * n + (i + 1)) 1 = R := by rw [List.getD_eq_getElem?_getD, hR]; rfl
  have g3 : ((es.set (c * n + i) L').set (c * n + (i + 1)) R').getD (c * n + i) 1 = L' := by
    rw [List.getD_eq_getElem?_getD, List.getElem?_set_ne (by omega), List.getElem?_set_self lt1]; rfl
  have g4 : ((es.set (c * n + i) L').set (c * n + (i + 1)) R').getD (c * n + (i + 1)) 1 = R' := by
    rw [List.getD_eq_getElem?_getD, List.getElem?_set_self (by simpa using lt2)]; rfl
  unfold total
  rw [sum_two (p := (c, i)) (q := (c, i + 1))]
  · dsimp only
    rw [g1, g2, g3, g4]
  · simp only [Finset.mem_product, Finset.mem_range]; omega
  · simp only [Finset.mem_product, Finset.mem_range]; omega
  · simp
  · rintro ⟨d, k⟩ hx h1 h2
    simp only [Finset.mem_product, Finset.mem_range] at hx
    dsimp only
    have n1 : c * n + i ≠ d * n + k := by
      intro e
      obtain ⟨rfl, rfl⟩ := index_inj (by omega) hx.2 e
      exact h1 rfl
    have n2 : c * n + (i + 1) ≠ d * n + k := by
      intro e
      obtain ⟨rfl, rfl⟩ := index_inj hi hx.2 e
      exact h2 rfl
    rw [List.getD_eq_getElem?_getD (l := (es.set _ _).set _ _), List.getElem?_set_ne n2, List.getElem?_set_ne n1,
      ← List.getD_eq_getElem?_getD]

theorem total_nonneg {worth : Nat → Nat → ℝ} {contexts n : Nat} {es : List Nat}
    (hl : es.length = contexts * n) (h : ∀ x ∈ es, EntryOk x) (hw : ∀ c x, EntryOk x → 0 ≤ worth c x) :
    0 ≤ total worth contexts n es := by
  unfold total
  refine Finset.sum_nonneg ?_
  rintro ⟨c, k⟩ hx
  simp only [Finset.mem_product, Finset.mem_range] at hx
  have hlt : c * n + k < es.length := by
    rw [hl]
    calc c * n + k < c * n + n := by omega
      _ = (c + 1) * n := by rw [Nat.add_mul]; omega
      _ ≤ contexts * n := Nat.mul_le_mul_right _ hx.1
  rw [List.getD_eq_getElem?_getD, List.getElem?_eq_getElem hlt]
  exact hw _ _ (h _ (List.getElem_mem hlt))

/-- the exact interpolation between two entries, for the given bit -/
noncomputable def exactBlend (b : Bool) (L R w : Nat) : ℝ :=
  (1 - (w : ℝ) / 2 ^ 31) * (sideOf b L : ℕ) + (w : ℝ) / 2 ^ 31 * (sideOf b R : ℕ)

theorem exactBlend_bounds {b : Bool} {L R w : Nat} (hL : EntryOk L) (hR : EntryOk R) (hw : w < 2 ^ 31) :
    2 ≤ exactBlend b L R w ∧ exactBlend b L R w ≤ 2 ^ 31 ∧
      |((sideOf b (blend L R w) : ℕ) : ℝ) - exactBlend b L R w| ≤ 1 := by
  obtain ⟨l1, l2⟩ := sideOf_ok (b := b) hL
  obtain ⟨r1, r2⟩ := sideOf_ok (b := b) hR
  have hb := blend_bounds hL hR hw
  have w0 : (0 : ℝ) ≤ (w : ℝ) / 2 ^ 31 := by positivity
  have w1 : (w : ℝ) / 2 ^ 31 ≤ 1 := by
    rw [div_le_one (by norm_num)]
    exact_mod_cast hw.le
  have L1 : (2 : ℝ) ≤ (sideOf b L : ℕ) := by exact_mod_cast l1
  have R1 : (2 : ℝ) ≤ (sideOf b R : ℕ) := by exact_mod_cast r1
  have L2 : ((sideOf b L : ℕ) : ℝ) ≤ 2 ^ 31 := by exact_mod_cast (show sideOf b L ≤ 2 ^ 31 by omega)
  have R2 : ((sideOf b R : ℕ) : ℝ) ≤ 2 ^ 31 := by exact_mod_cast (show sideOf b R ≤ 2 ^ 31 by omega)
  refine ⟨?_, ?_, ?_⟩
  · unfold exactBlend
    nlinarith [mul_le_mul_of_nonneg_left L1 (show 0 ≤ 1 - (w : ℝ) / 2 ^ 31 by linarith), mul_le_mul_of_nonneg_left R1 w0]
  · unfold exactBlend
    nlinarith [mul_le_mul_of_nonneg_left L2 (show 0 ≤ 1 - (w : ℝ) / 2 ^ 31 by linarith), mul_le_mul_of_nonneg_left R2 w0]
  · have key : |((blend L R w : ℕ) : ℝ) - ((1 - (w : ℝ) / 2 ^ 31) * (L : ℕ) + (w : ℝ) / 2 ^ 31 * (R : ℕ))| ≤ 1 := by
      obtain ⟨a1, a2⟩ := sq31_exact L (2 ^ 31 - w)
      obtain ⟨b1, b2⟩ := sq31_exact R w
      have hX : ((L * (2 ^ 31 - w) : ℕ) : ℝ) = L * (2 ^ 31 - w) := by
        rw [Nat.cast_mul, Nat.cast_sub (by omega)]; push_cast; ring
      have hY : ((R * w : ℕ) : ℝ) = R * w := by push_cast; ring
      unfold blend
      have e : (1 - (w : ℝ) / 2 ^ 31) * (L : ℕ) + (w : ℝ) / 2 ^ 31 * (R : ℕ) =
        (((L * (2 ^ 31 - w) : ℕ) : ℝ) + ((R * w : ℕ) : ℝ)) / 2 ^ 31 := by
        rw [hX, hY]; field_simp
      rw [e]
      generalize L * (2 ^ 31 - w) = X at *
      generalize R * w = Y at *
      generalize sq31 L (2 ^ 31 - w) = u at *
      generalize sq31 R w = v at *
      have k1 : X + Y ≤ (u + v + 1) * 2 ^ 31 := by norm_num at *; omega
      have k2 : (u + v) * 2 ^ 31 ≤ X + Y + 2 ^ 31 := by norm_num at *; omega
      have k1' : (X : ℝ) + Y ≤ (u + v + 1) * 2 ^ 31 := by exact_mod_cast k1
      have k2' : ((u : ℝ) + v) * 2 ^ 31 ≤ X + Y + 2 ^ 31 := by exact_mod_cast k2
      rw [abs_le, Nat.cast_add]
      constructor
      · rw [le_sub_iff_add_le, ← sub_nonneg]
        have : (u : ℝ) + v - (-1 + (X + Y) / 2 ^ 31) = ((u + v + 1) * 2 ^ 31 - (X + Y)) / 2 ^ 31 := by field_simp; ring
        rw [this]
        exact div_nonneg (by linarith) (by norm_num)
      · rw [sub_le_iff_le_add, ← sub_nonneg]
        have : 1 + ((X : ℝ) + Y) / 2 ^ 31 - (u + v) = (X + Y + 2 ^ 31 - (u + v) * 2 ^ 31) / 2 ^ 31 := by field_simp; ring
        rw [this]
        exact div_nonneg (by linarith) (by norm_num)
    cases b
    · exact key
    · have hc : ∀ x : Nat, x ≤ 2 ^ 31 → ((sideOf true x : ℕ) : ℝ) = 2 ^ 31 - x := by
        intro x hx
        show ((2 ^ 31 - x : ℕ) : ℝ) = _
        rw [Nat.cast_sub hx]
        push_cast
        ring
      have lx := hL.2
      have rx := hR.2
      unfold exactBlend
      rw [hc _ (by omega), hc _ (by omega), hc _ (by omega)]
      rw [abs_sub_comm] at key
      have : (2 : ℝ) ^ 31 - ((blend L R w : ℕ) : ℝ) - ((1 - (w : ℝ) / 2 ^ 31) * (2 ^ 31 - (L : ℕ)) +
          (w : ℝ) / 2 ^ 31 * (2 ^ 31 - (R : ℕ))) =
        (1 - (w : ℝ) / 2 ^ 31) * (L : ℕ) + (w : ℝ) / 2 ^ 31 * (R : ℕ) - ((blend L R w : ℕ) : ℝ) := by ring
      rw [this]
      exact key

theorem floorPrice_nonneg {rate : Nat} (hr : rate < 30) : 0 ≤ floorPrice rate := by
  have hp : (2 : ℝ) ^ rate ≤ 2 ^ 30 := pow_le_pow_right₀ (by norm_num) (by omega)
  have h1 : (1 : ℝ) ≤ 2 ^ rate := one_le_pow₀ (by norm_num)
  refine price_nonneg (by nlinarith [hp]) (by linarith)

/-- one round: the exact interpolation is paid by the two entries, unless the guess is wrong or missing -/
theorem guess_step {guess : Nat → Option Bool} {c rate w wl L R : Nat} (bit : Bool)
    (hr : 2 ≤ rate) (hr2 : rate < 30) (hw : w < 2 ^ 31) (hwl : wl = 2 ^ 30 ∨ wl = 2 ^ 31 - w)
    (oL : EntryOk L) (oR : EntryOk R) :
    price (exactBlend bit L R w) ≤
      2 ^ (rate + 1) * (guessWorth guess c L - guessWorth guess c (learned bit wl rate L) +
        (guessWorth guess c R - guessWorth guess c (learned bit (2 ^ 31 - wl) rate R))) +
      (if guess c = some bit then 0 else 38) + (if wl = 2 ^ 30 then floorPrice rate else 2 ^ rate / 2 ^ 23) := by
  have hb := exactBlend_bounds (b := bit) oL oR hw
  have h30 := price_le hb.1
  have hf := floorPrice_nonneg hr2
  have hf2 : (0 : ℝ) ≤ (if wl = 2 ^ 30 then floorPrice rate else 2 ^ rate / 2 ^ 23) := by
    split
    · exact hf
    · positivity
  have hwl' : wl ≤ 2 ^ 31 := by omega
  have hq : (0 : ℝ) < 2 ^ (rate + 1) := by positivity
  unfold guessWorth
  rcases hg : guess c with _ | b
  · rw [if_neg (by simp)]
    dsimp only
    linarith
  · dsimp only
    by_cases hbb : b = bit
    · subst hbb
      rw [if_pos rfl]
      have w0 : (0 : ℝ) ≤ (w : ℝ) / 2 ^ 31 := by positivity
      have w1 : (w : ℝ) / 2 ^ 31 ≤ 1 := by
        rw [div_le_one (by norm_num)]
        exact_mod_cast hw.le
      have l1 := (sideOf_ok (b := b) oL).1
      have r1 := (sideOf_ok (b := b) oR).1
      have hm := price_mix (x := (sideOf b L : ℕ)) (y := (sideOf b R : ℕ)) (w := (w : ℝ) / 2 ^ 31)
        (by exact_mod_cast (show 0 < sideOf b L by omega)) (by exact_mod_cast (show 0 < sideOf b R by omega)) w0 w1
      unfold exactBlend
      refine le_trans hm ?_
      by_cases hfix : wl = 2 ^ 30
      · subst hfix
        rw [if_pos rfl, show 2 ^ 31 - 2 ^ 30 = 2 ^ 30 by norm_num]
        obtain ⟨a1, a2⟩ := entry_hit (b := b) hr hr2 oL
        obtain ⟨b1, b2⟩ := entry_hit (b := b) hr hr2 oR
        generalize price (sideOf b L : ℕ) = x at *
        generalize price (sideOf b R : ℕ) = y at *
        generalize price (sideOf b (learned b (2 ^ 30) rate L) : ℕ) = x' at *
        generalize price (sideOf b (learned b (2 ^ 30) rate R) : ℕ) = y' at *
        generalize (w : ℝ) / 2 ^ 31 = v at *
        generalize (2 : ℝ) ^ (rate + 1) = q at *
        have dx : 0 ≤ q * (x - x') := mul_nonneg hq.le (by linarith)
        have dy : 0 ≤ q * (y - y') := mul_nonneg hq.le (by linarith)
        have m1 := mul_le_mul_of_nonneg_left a1 (show 0 ≤ 1 - v by linarith)
        have m2 := mul_le_mul_of_nonneg_left b1 w0
        have m3 := mul_nonneg w0 dx
        have m4 := mul_nonneg (show 0 ≤ 1 - v by linarith) dy
        have e : q * (x - x' + (y - y')) + 0 + floorPrice rate =
          (1 - v) * (q * (x - x') + floorPrice rate) + v * (q * (y - y') + floorPrice rate) + v * (q * (x - x')) +
            (1 - v) * (q * (y - y')) := by ring
        linarith
      · rw [if_neg hfix]
        have hwe : wl = 2 ^ 31 - w := by omega
        subst hwe
        have a1 := entry_share (b := b) (w := 2 ^ 31 - w) (by omega) hr hr2 oL
        have b1 := entry_share (b := b) (w := 2 ^ 31 - (2 ^ 31 - w)) (by omega) hr hr2 oR
        have c1 : ((2 ^ 31 - w : ℕ) : ℝ) / 2 ^ 31 = 1 - (w : ℝ) / 2 ^ 31 := by
          rw [Nat.cast_sub hw.le]; push_cast; ring
        have c2 : ((2 ^ 31 - (2 ^ 31 - w) : ℕ) : ℝ) / 2 ^ 31 = (w : ℝ) / 2 ^ 31 := by
          rw [show 2 ^ 31 - (2 ^ 31 - w) = w by omega]
        rw [c1] at a1
        rw [c2] at b1
        have e : (2 : ℝ) ^ rate / 2 ^ 23 = 2 ^ rate / 2 ^ 24 + 2 ^ rate / 2 ^ 24 := by ring
        rw [e]
        linarith
    · rw [if_neg (by simpa using hbb)]
      have a := entry_miss (b := bit) (c := b) hwl' hr oL hbb
      have b' := entry_miss (b := bit) (c := b) (w := 2 ^ 31 - wl) (by omega) hr oR hbb
      generalize price (sideOf b L : ℕ) = x at *
      generalize price (sideOf b R : ℕ) = y at *
      generalize price (sideOf b (learned bit wl rate L) : ℕ) = x' at *
      generalize price (sideOf b (learned bit (2 ^ 31 - wl) rate R) : ℕ) = y' at *
      have e : (2 : ℝ) ^ (rate + 1) * (x - x' + (y - y')) = -(2 ^ (rate + 1) * (x' - x)) - 2 ^ (rate + 1) * (y' - y) := by
        ring
      rw [e]
      linarith

/-- one round: the exact interpolation is paid by the potential, unless the guess is wrong or missing -/
theorem learn_step {guess : Nat → Option Bool} {fb contexts c i rate w wl L R : Nat} {es : List Nat} (bit : Bool)
    (hr : 2 ≤ rate) (hr2 : rate < 30) (hc : c < contexts)
    (hi : i < 24 * 2 ^ fb) (hw : w < 2 ^ 31) (hwl : wl = 2 ^ 30 ∨ wl = 2 ^ 31 - w)
    (hL : es[c * (24 * 2 ^ fb + 1) + i]? = some L)
    (hR : es[c * (24 * 2 ^ fb + 1) + (i + 1)]? = some R) (oL : EntryOk L) (oR : EntryOk R) :
    price (exactBlend bit L R w) ≤
      2 ^ (rate + 1) * (potential guess contexts (24 * 2 ^ fb + 1) es - potential guess contexts (24 * 2 ^ fb + 1)
        ((es.set (c * (24 * 2 ^ fb + 1) + i) (learned bit wl rate L)).set
          (c * (24 * 2 ^ fb + 1) + (i + 1)) (learned bit (2 ^ 31 - wl) rate R))) +
      (if guess c = some bit then 0 else 38) + (if wl = 2 ^ 30 then floorPrice rate else 2 ^ rate / 2 ^ 23) := by
  unfold potential
  rw [total_set hc (by omega) hL hR]
  exact guess_step bit hr hr2 hw hwl oL oR

end Verif.Mix
