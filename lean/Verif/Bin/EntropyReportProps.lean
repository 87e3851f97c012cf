import Verif.Bin.EntropyProps
import Verif.Pred.ReportLemmas
import Verif.Est.RegretProps

/-!
# C69: the report of the entropy simulation
-/

namespace Verif.Bin

open Verif Verif.Fixed Verif.Est Verif.Log2 Verif.Float Verif.Pred

/-! ## Specification -/

/-- the logarithm has a relative error of at most `d` between 2^-14 and 1 -/
def LogNear (lg : ℚ → ℚ) (d : ℝ) : Prop := ∀ x : ℚ, 1 / 2 ^ 14 ≤ x → x < 1 →
  |((lg x : ℚ) : ℝ) - Real.logb 2 x| ≤ d * |Real.logb 2 x|

/-- 10000 times the entropy of a source of zeros and ones with the given frequencies -/
noncomputable def entropyBits (zeros ones : Nat) : ℝ :=
  zeros * Real.logb 2 (10000 / zeros) + ones * Real.logb 2 (10000 / ones)

/-! ## Rounding -/

theorem log_two_bounds : (0.69 : ℝ) < Real.log 2 ∧ Real.log 2 < 0.7 :=
  ⟨by linarith [Real.log_two_gt_d9], by linarith [Real.log_two_lt_d9]⟩

/-- an argument with a small relative error -/
theorem logb_near {x y e : ℝ} (hx : 0 < x) (he : e ≤ 1 / 8) (h : |y - x| ≤ e * x) : |Real.logb 2 y - Real.logb 2 x| ≤ 2 * e := by
  obtain ⟨h1, h2⟩ := abs_le.mp h
  have he0 : 0 ≤ e := by
    by_contra hc
    have := abs_nonneg (y - x)
    nlinarith
  have hy : 0 < y := by nlinarith
  have l2 := log_two_bounds
  have hl : Real.logb 2 y - Real.logb 2 x = Real.log (y / x) / Real.log 2 := by
    unfold Real.logb
    rw [Real.log_div hy.ne' hx.ne', sub_div]
  have u1 : Real.log (y / x) ≤ e := by
    have := Real.log_le_sub_one_of_pos (div_pos hy hx)
    have h3 : y / x - 1 ≤ e := by
      rw [sub_le_iff_le_add, div_le_iff₀ hx]
      linarith
    linarith
  have u2 : -(8 / 7 * e) ≤ Real.log (y / x) := by
    have := Real.log_le_sub_one_of_pos (div_pos hx hy)
    have h3 : x / y - 1 ≤ 8 / 7 * e := by
      rw [sub_le_iff_le_add, div_le_iff₀ hy]
      nlinarith
    rw [Real.log_div hx.ne' hy.ne'] at this
    rw [Real.log_div hy.ne' hx.ne']
    linarith
  rw [hl, abs_le, div_le_iff₀ (by linarith), le_div_iff₀ (by linarith)]
  constructor <;> nlinarith

/-- one summand of the ideal cost -/
theorem term_bounds {n : ℕ} (h1 : 1 ≤ n) (h2 : n ≤ 9999) :
    0.9 ≤ (n : ℝ) * Real.logb 2 (10000 / n) ∧ (n : ℝ) * Real.logb 2 (10000 / n) ≤ 14500 ∧ 0 ≤ Real.logb 2 (10000 / n) := by
  have f1 : (1 : ℝ) ≤ n := by exact_mod_cast h1
  have f2 : (n : ℝ) ≤ 9999 := by exact_mod_cast h2
  have l2 := log_two_bounds
  have p : (0 : ℝ) < 10000 / n := by positivity
  have u := Real.log_le_sub_one_of_pos p
  have v := Real.log_le_sub_one_of_pos (inv_pos.mpr p)
  rw [Real.log_inv, inv_div] at v
  have e1 : (n : ℝ) * (10000 / n) = 10000 := by field_simp
  have v' : 1 - (n : ℝ) / 10000 ≤ Real.log (10000 / n) := by linarith
  unfold Real.logb
  rw [← mul_div_assoc]
  refine ⟨?_, ?_, ?_⟩
  · rw [le_div_iff₀ (by linarith)]
    have : (n : ℝ) * (1 - n / 10000) ≤ n * Real.log (10000 / n) := mul_le_mul_of_nonneg_left v' (by linarith)
    nlinarith
  · rw [div_le_iff₀ (by linarith)]
    have : (n : ℝ) * Real.log (10000 / n) ≤ n * (10000 / n - 1) := mul_le_mul_of_nonneg_left u (by linarith)
    rw [mul_sub, e1] at this
    nlinarith
  · refine div_nonneg ?_ (by linarith)
    have : (n : ℝ) / 10000 ≤ 1 := by rw [div_le_one (by norm_num)]; linarith
    linarith

theorem term_ok {lg : ℚ → ℚ} {d : ℝ} (hlg : LogNear lg d) (hd : 0 ≤ d) (hd8 : d ≤ 1 / 8) {n : ℕ} (h1 : 1 ≤ n) (h2 : n ≤ 9999)
    {y : ℚ} (hy : |y - n / 10000| ≤ 1 / 2 ^ 38 * (n / 10000)) :
    ∃ a, fMul n (-lg y) = some a ∧ |(a : ℝ) - n * Real.logb 2 (10000 / n)| ≤ d * (n * Real.logb 2 (10000 / n)) + 1 / 2 ^ 21 := by
  have f1 : (1 : ℝ) ≤ n := by exact_mod_cast h1
  have f2 : (n : ℝ) ≤ 9999 := by exact_mod_cast h2
  have g1 : (1 : ℚ) ≤ n := by exact_mod_cast h1
  have g2 : (n : ℚ) ≤ 9999 := by exact_mod_cast h2
  obtain ⟨t1, t2, t3⟩ := term_bounds h1 h2
  set t := Real.logb 2 (10000 / n) with ht
  have hyb := abs_le.mp hy
  have y0 : 1 / 2 ^ 14 ≤ y := by linarith
  have y1 : y < 1 := by linarith
  have hr : |(y : ℝ) - n / 10000| ≤ 1 / 2 ^ 38 * (n / 10000) := by
    have : (((|y - n / 10000| : ℚ)) : ℝ) ≤ ((1 / 2 ^ 38 * (n / 10000) : ℚ) : ℝ) := by exact_mod_cast hy
    push_cast at this
    exact this
  have hl := logb_near (by positivity) (by norm_num) hr
  have hlx : Real.logb 2 ((n : ℝ) / 10000) = -t := by
    rw [ht, ← Real.logb_inv, inv_div]
  rw [hlx] at hl
  have hl := abs_le.mp hl
  have hp := hlg y y0 y1
  have hneg : Real.logb 2 (y : ℝ) ≤ 0 := by
    refine Real.logb_nonpos (by norm_num) ?_ ?_
    · have : (0 : ℚ) ≤ y := by linarith
      exact_mod_cast this
    · exact_mod_cast y1.le
  rw [abs_of_nonpos hneg] at hp
  have hp := abs_le.mp hp
  -- the product before rounding
  have hdl : d * -Real.logb 2 (y : ℝ) ≤ d * t + 1 / 2 ^ 38 := by nlinarith
  have c1 : -((lg y : ℚ) : ℝ) ≤ t + d * t + 1 / 2 ^ 36 := by linarith
  have c2 : t - d * t - 1 / 2 ^ 36 ≤ -((lg y : ℚ) : ℝ) := by linarith
  have m1 : (n : ℝ) * -((lg y : ℚ) : ℝ) ≤ n * t + d * (n * t) + 1 / 2 ^ 22 := by nlinarith
  have m2 : n * t - d * (n * t) - 1 / 2 ^ 22 ≤ (n : ℝ) * -((lg y : ℚ) : ℝ) := by nlinarith
  have b1 : (0.5 : ℝ) ≤ n * -((lg y : ℚ) : ℝ) := by nlinarith
  have b2 : (n : ℝ) * -((lg y : ℚ) : ℝ) ≤ 20000 := by nlinarith
  have q1 : (1 / 2 : ℚ) ≤ n * -lg y := by
    have : ((1 / 2 : ℚ) : ℝ) ≤ ((n * -lg y : ℚ) : ℝ) := by push_cast; linarith
    exact_mod_cast this
  have q2 : (n * -lg y : ℚ) ≤ 20000 := by
    have : ((n * -lg y : ℚ) : ℝ) ≤ ((20000 : ℚ) : ℝ) := by push_cast; linarith
    exact_mod_cast this
  obtain ⟨a, e1, -, e2⟩ := fl_rel (q := n * -lg y) (le_trans (by norm_num) q1) (le_trans q2 (by norm_num))
  refine ⟨a, e1, ?_⟩
  have e3 : |(a : ℝ) - n * -((lg y : ℚ) : ℝ)| ≤ n * -((lg y : ℚ) : ℝ) / 2 ^ 53 := by
    have : (((|a - n * -lg y| : ℚ)) : ℝ) ≤ (((n * -lg y) / 2 ^ 53 : ℚ) : ℝ) := by exact_mod_cast e2
    push_cast at this
    exact this
  have e3 := abs_le.mp e3
  rw [abs_le]
  constructor <;> linarith

theorem intoF64_small {n : ℕ} (h : n ≤ 2 ^ 53) : intoF64 n = some (n : ℚ) := by
  have := fl_fits (isF64_int (m := n) (k := 0) (by rw [abs_of_nonneg (by positivity)]; exact_mod_cast h) (by norm_num) (by norm_num))
  rw [zpow_zero, mul_one] at this
  exact this

theorem ideal_ok {lg : ℚ → ℚ} {d : ℝ} (hlg : LogNear lg d) (hd : 0 ≤ d) (hd8 : d ≤ 1 / 8) {zeros ones : ℕ} (hz : 0 < zeros)
    (ho : 0 < ones) (hs : zeros + ones = 10000) :
    ∃ ideal, idealCost lg zeros ones = some ideal ∧
      |(ideal : ℝ) - entropyBits zeros ones| ≤ d * entropyBits zeros ones + 1 / 2 ^ 19 ∧
      1.8 ≤ entropyBits zeros ones ∧ entropyBits zeros ones ≤ 29000 := by
  have z1 : (1 : ℚ) ≤ zeros := by exact_mod_cast hz
  have o1 : (1 : ℚ) ≤ ones := by exact_mod_cast ho
  have hsq : (zeros : ℚ) + ones = 10000 := by exact_mod_cast hs
  obtain ⟨p, p1, -, p2⟩ := fl_rel (q := (zeros : ℚ) / 10000) (by linarith [show (1 : ℚ) / 2 ^ 200 ≤ 1 / 10000 by norm_num])
    (by linarith [show (1 : ℚ) ≤ 2 ^ 200 by norm_num])
  have p3 := abs_le.mp p2
  obtain ⟨q, r1, -, r2⟩ := fl_rel (q := 1 - p) (by linarith [show (1 : ℚ) / 2 ^ 200 ≤ 1 / 20000 by norm_num])
    (by linarith [show (1 : ℚ) ≤ 2 ^ 200 by norm_num])
  have r3 := abs_le.mp r2
  obtain ⟨a, a1, a2⟩ := term_ok hlg hd hd8 (n := zeros) (y := p) hz (by omega) (p2.trans (by linarith))
  obtain ⟨b, b1, b2⟩ := term_ok hlg hd hd8 (n := ones) (y := q) ho (by omega) (by
    rw [abs_le]
    constructor <;> linarith)
  obtain ⟨t1, t2, -⟩ := term_bounds (n := zeros) hz (by omega)
  obtain ⟨t3, t4, -⟩ := term_bounds (n := ones) ho (by omega)
  have a3 := abs_le.mp a2
  have b3 := abs_le.mp b2
  unfold entropyBits
  set T := (zeros : ℝ) * Real.logb 2 (10000 / zeros)
  set U := (ones : ℝ) * Real.logb 2 (10000 / ones)
  have s1 : (1 : ℝ) ≤ a + b := by nlinarith
  have s2 : (a : ℝ) + b ≤ 40000 := by nlinarith
  have s1' : (1 : ℚ) ≤ a + b := by exact_mod_cast s1
  have s2' : a + b ≤ 40000 := by exact_mod_cast s2
  obtain ⟨c, c1, -, c2⟩ := fl_rel (q := a + b) (le_trans (by norm_num) s1') (le_trans s2' (by norm_num))
  have c3 : |(c : ℝ) - (a + b)| ≤ (a + b) / 2 ^ 53 := by
    have : (((|c - (a + b)| : ℚ)) : ℝ) ≤ (((a + b) / 2 ^ 53 : ℚ) : ℝ) := by exact_mod_cast c2
    push_cast at this
    exact this
  have c3 := abs_le.mp c3
  refine ⟨c, ?_, ?_, by linarith, by linarith⟩
  · unfold idealCost
    have e1 := intoF64_small (n := zeros) (by omega)
    have e2 := intoF64_small (n := 10000) (by norm_num)
    have e3 := intoF64_small (n := ones) (by omega)
    have e4 : fDiv (zeros : ℚ) 10000 = some p := by
      unfold fDiv
      rw [if_neg (by norm_num), p1]
    rw [e1, ob_some]
    push_cast at e2
    rw [e2, ob_some, e4, ob_some, a1, ob_some, e3, ob_some]
    rw [show fSub 1 p = some q from r1, ob_some, b1, ob_some]
    exact c1
  · rw [abs_le]
    constructor <;> linarith

theorem cost_ok {total : ℤ} (h0 : 10000 ≤ total) (h1 : total ≤ 23 * 2048 * 10000) :
    asF64I log2Q total = some ((total : ℚ) / 2048) := by
  unfold asF64I
  have e1 : intoF64 total = some (total : ℚ) := by
    have := fl_fits (isF64_int (m := total) (k := 0) (by rw [abs_of_nonneg (by omega)]; omega) (by norm_num) (by norm_num))
    rw [zpow_zero, mul_one] at this
    exact this
  have e2 : intoF64 (2 ^ log2Q.frac) = some (2048 : ℚ) := by
    have := fl_fits (isF64_int (m := 2048) (k := 0) (by norm_num) (by norm_num) (by norm_num))
    rw [zpow_zero, mul_one] at this
    unfold intoF64
    norm_num [log2Q] at this ⊢
    exact this
  rw [e1, ob_some, e2, ob_some]
  unfold fDiv
  rw [if_neg (by norm_num)]
  have := fl_fits (isF64_int (m := total) (k := -11) (by rw [abs_of_nonneg (by omega)]; omega) (by norm_num) (by norm_num))
  rw [show (2 : ℚ) ^ (-11 : ℤ) = 1 / 2048 by norm_num, mul_one_div] at this
  exact this

theorem fl_any {q : ℚ} (h : |q| ≤ 2 ^ 200) : ∃ r, fl q = some r ∧ |r - q| ≤ |q| / 2 ^ 53 + 1 / 2 ^ 100 := by
  refine ⟨rnd q, fl_some (h.trans (pow_le_pow_right₀ (by norm_num) (by norm_num))), ?_⟩
  by_cases hq : (2 : ℚ) ^ (-1022 : ℤ) ≤ |q|
  · have := rnd_relative hq
    rw [show (2 : ℚ) ^ (-53 : ℤ) = 1 / 2 ^ 53 by norm_num, mul_one_div] at this
    have : (0 : ℚ) ≤ 1 / 2 ^ 100 := by positivity
    linarith
  · have h1 := rounded_best (p := 53) (by norm_num) (e := -1074) q (fits_zero _ _)
    rw [zero_sub, abs_neg] at h1
    have h2 : (2 : ℚ) ^ (-1022 : ℤ) ≤ 2 ^ (-100 : ℤ) := zpow_le_zpow_right₀ (by norm_num) (by norm_num)
    rw [show (2 : ℚ) ^ (-100 : ℤ) = 1 / 2 ^ 100 by norm_num] at h2
    have h3 : 0 ≤ |q| / 2 ^ 53 := by positivity
    have h4 : |rnd q - q| ≤ |q| := h1
    linarith

/-! ## The report -/

variable {factor addend : Nat}

/-- **C69 (report).** For every probability between 1/10000 and 9999/10000 and every logarithm with a relative error of at
most `d`, the simulation ends with a report of finite numbers: the counts of zeros and ones, the total cost of
`C69_simulation` exactly, the entropy of the counts, by how much the cost exceeds it in relation to it, and the bits of
input per bit of cost. -/
theorem C69_report (hU : Est.Usable factor addend) {lg : ℚ → ℚ} {d : ℝ} (hlg : LogNear lg d) (hd : 0 ≤ d) (hd8 : d ≤ 1 / 8)
    (p : ℚ) (hp0 : 1 / 10000 ≤ p) (hp1 : p ≤ 9999 / 10000) (L : Nat) (hL : 0 < L) :
    ∃ total r, simulateWith factor addend p L = some (total, r.zeros, r.ones) ∧ simReport lg factor addend p L = some r ∧
      r.probability = p ∧ r.totalCost = total / 2048 ∧
      |(r.idealCost : ℝ) - entropyBits r.zeros r.ones| ≤ d * entropyBits r.zeros r.ones + 1 / 2 ^ 19 ∧
      |(r.overhead : ℝ) - (r.totalCost / entropyBits r.zeros r.ones - 1)| ≤
        (2 * d + 1 / 2 ^ 18) * (r.totalCost / entropyBits r.zeros r.ones) ∧
      |r.ratio - 10000 / r.totalCost| ≤ 10000 / r.totalCost / 2 ^ 53 := by
  obtain ⟨total, zeros, ones, e, hz, ho, hs⟩ := C69_both_bits hU p hp0 hp1 L hL
  obtain ⟨-, total', zeros', ones', e', -, -, -, -, t0, t1, -⟩ := C69_simulation hU p (by linarith) (by linarith) L hL
  rw [e, Option.some.injEq, Prod.mk.injEq] at e'
  rw [← e'.1] at t0 t1
  obtain ⟨ideal, i1, i2, i3, i4⟩ := ideal_ok hlg hd hd8 hz ho hs
  have hc := cost_ok t0 t1
  have c0 : (10000 / 2048 : ℚ) ≤ total / 2048 := by
    have : (10000 : ℚ) ≤ total := by exact_mod_cast t0
    linarith
  have c1 : (total / 2048 : ℚ) ≤ 230000 := by
    have : (total : ℚ) ≤ 23 * 2048 * 10000 := by exact_mod_cast t1
    linarith
  set C : ℚ := total / 2048 with hC
  set I := entropyBits zeros ones with hI
  have i5 := abs_le.mp i2
  have j1 : 4 / 5 * I ≤ (ideal : ℝ) := by nlinarith
  have j2 : (ideal : ℝ) ≤ 40000 := by nlinarith
  have j1' : (1 : ℚ) ≤ ideal := by
    have : (1 : ℝ) ≤ (ideal : ℝ) := by linarith
    exact_mod_cast this
  have j2' : ideal ≤ 40000 := by exact_mod_cast j2
  have jp : 0 < ideal := by linarith
  have cp : 0 < C := by linarith
  have q0 : 1 / 2 ^ 14 ≤ C / ideal := by rw [le_div_iff₀ jp]; linarith
  have q1 : C / ideal ≤ 230000 := by
    rw [div_le_iff₀ jp]
    nlinarith
  obtain ⟨r, r1, -, r2⟩ := fl_rel (q := C / ideal) (le_trans (by norm_num) q0) (le_trans q1 (by norm_num))
  have r3 := abs_le.mp r2
  have hr1 : |r - 1| ≤ r + 1 := by
    rw [abs_le]
    constructor <;> linarith
  obtain ⟨v, v1, v2⟩ := fl_any (q := r - 1) (hr1.trans (by linarith [show (300000 : ℚ) ≤ 2 ^ 200 by norm_num]))
  obtain ⟨w, w1, -, w2⟩ := fl_rel (q := 10000 / C)
    (le_trans (show (1 : ℚ) / 2 ^ 200 ≤ 1 / 1000 by norm_num) (by rw [le_div_iff₀ cp]; linarith))
    (le_trans (show 10000 / C ≤ 10000 by rw [div_le_iff₀ cp]; linarith) (by norm_num))
  refine ⟨total, ⟨p, C, ideal, v, w, zeros, ones⟩, e, ?_, rfl, rfl, i2, ?_, w2⟩
  · unfold simReport
    rw [e, ob_some]
    dsimp only
    have e2 := intoF64_small (n := 10000) (by norm_num)
    push_cast at e2
    rw [i1, ob_some, hc, ob_some]
    have d1 : fDiv C ideal = some r := by unfold fDiv; rw [if_neg jp.ne', r1]
    have d2 : fDiv 10000 C = some w := by unfold fDiv; rw [if_neg cp.ne', w1]
    rw [d1, ob_some, show fSub r 1 = some v from v1, ob_some, e2, ob_some, d2, ob_some]
  · dsimp only
    -- the quotient of the exact numbers
    have Ip : 0 < I := by linarith
    have Cr0 : (10000 / 2048 : ℝ) ≤ (C : ℝ) := by
      have : ((10000 / 2048 : ℚ) : ℝ) ≤ (C : ℝ) := by exact_mod_cast c0
      push_cast at this
      exact this
    have jr : (0 : ℝ) < ideal := by exact_mod_cast jp
    set ρ := (C : ℝ) / I with hρ
    have hρ0 : 1 / 2 ^ 14 ≤ ρ := by rw [hρ, le_div_iff₀ Ip]; linarith
    have s1 : |(C : ℝ) / ideal - ρ| ≤ ρ * (5 / 4 * d + 1 / 2 ^ 19) := by
      have e3 : (C : ℝ) / ideal - ρ = ρ * ((I - ideal) / ideal) := by
        rw [hρ]
        field_simp
      rw [e3, abs_mul, abs_of_pos (lt_of_lt_of_le (by positivity) hρ0)]
      refine mul_le_mul_of_nonneg_left ?_ (le_trans (by positivity) hρ0)
      rw [abs_div, abs_of_pos jr, div_le_iff₀ jr, abs_sub_comm]
      refine i2.trans ?_
      nlinarith
    have s2 : |(r : ℝ) - C / ideal| ≤ C / ideal / 2 ^ 53 := by
      have : (((|r - C / ideal| : ℚ)) : ℝ) ≤ ((C / ideal / 2 ^ 53 : ℚ) : ℝ) := by exact_mod_cast r2
      push_cast at this
      exact this
    have s3 : |(v : ℝ) - (r - 1)| ≤ (r + 1) / 2 ^ 53 + 1 / 2 ^ 100 := by
      have h3 : |v - (r - 1)| ≤ (r + 1) / 2 ^ 53 + 1 / 2 ^ 100 := by
        refine v2.trans ?_
        have := div_le_div_of_nonneg_right hr1 (show (0 : ℚ) ≤ 2 ^ 53 by positivity)
        linarith
      have : (((|v - (r - 1)| : ℚ)) : ℝ) ≤ (((r + 1) / 2 ^ 53 + 1 / 2 ^ 100 : ℚ) : ℝ) := by exact_mod_cast h3
      push_cast at this
      exact this
    have s1 := abs_le.mp s1
    have s2 := abs_le.mp s2
    have s3 := abs_le.mp s3
    have hdp : ρ * (5 / 4 * d + 1 / 2 ^ 19) ≤ ρ / 4 := by
      have : 5 / 4 * d + 1 / 2 ^ 19 ≤ 1 / 4 := by linarith
      nlinarith
    have hmul : 0 ≤ ρ * d := mul_nonneg (by linarith [show (0 : ℝ) ≤ 1 / 2 ^ 14 by positivity]) hd
    have k1 : (C : ℝ) / ideal ≤ 2 * ρ := by linarith
    rw [abs_le]
    constructor <;> nlinarith

/-! ## The overhead -/

/-- length of the code of the bits for fixed probabilities of zero and one -/
noncomputable def fixedLength (q : ℝ) (bits : List Bool) : ℝ :=
  bits.count false * -Real.logb 2 q + bits.count true * -Real.logb 2 (1 - q)

theorem gibbs_term {n k : ℕ} {q : ℝ} (hq : 0 < q) (hn : 0 < n) :
    (k : ℝ) * Real.log (n / k) ≤ k * -Real.log q + (q * n - k) := by
  by_cases hk : k = 0
  · subst hk
    simp only [Nat.cast_zero, zero_mul, zero_add, sub_zero]
    positivity
  · have hk0 : (0 : ℝ) < k := by exact_mod_cast Nat.pos_of_ne_zero hk
    have hn0 : (0 : ℝ) < n := by exact_mod_cast hn
    have h := Real.log_le_sub_one_of_pos (show 0 < q * (n / k) by positivity)
    rw [Real.log_mul hq.ne' (by positivity)] at h
    have h2 := mul_le_mul_of_nonneg_left h hk0.le
    have e : (k : ℝ) * (q * (n / k) - 1) = q * n - k := by field_simp
    rw [e] at h2
    linarith

/-- knowing the frequencies is better than any fixed probabilities -/
theorem gibbs {q : ℝ} (h0 : 0 < q) (h1 : q < 1) (bits : List Bool) : frequencyLength bits ≤ fixedLength q bits := by
  by_cases hb : bits = []
  · subst hb
    simp [frequencyLength, fixedLength]
  have hn : 0 < bits.length := List.length_pos_of_ne_nil hb
  have a := gibbs_term (k := bits.count false) h0 hn
  have b := gibbs_term (k := bits.count true) (show 0 < 1 - q by linarith) hn
  have hs : (bits.count false : ℝ) + bits.count true = bits.length := by exact_mod_cast count_sum bits
  have l2 := log_two_bounds
  unfold frequencyLength fixedLength Real.logb
  have e : ∀ x y u v : ℝ, x * (u / Real.log 2) + y * (v / Real.log 2) = (x * u + y * v) / Real.log 2 := by
    intro x y u v
    ring
  rw [← neg_div, ← neg_div, e, e]
  refine div_le_div_of_nonneg_right ?_ (by linarith)
  have hq : (1 - q) * bits.length = bits.length - q * bits.length := by ring
  linarith

theorem predicted_eq (pre : List Bool) : predicted 1 2 pre = chanceOfZero pre := rfl

/-- bits without a restart -/
theorem contentOf_short {L : Nat} {bits : List Bool} (h : bits.length ≤ L) : contentOf 1 2 L bits = codeLength bits := by
  unfold contentOf codeLength
  refine Finset.sum_congr rfl fun k hk => ?_
  rw [Finset.mem_range] at hk
  rw [Nat.div_eq_of_lt (by omega), Nat.zero_mul, List.drop_zero]
  rfl

/-- bits behind a restart -/
theorem contentOf_append {L : Nat} (hL : 0 < L) {a : List Bool} (ha : a.length = L) (b : List Bool) :
    contentOf factor addend L (a ++ b) = contentOf factor addend L a + contentOf factor addend L b := by
  unfold contentOf
  rw [List.length_append, Finset.sum_range_add]
  congr 1
  · refine Finset.sum_congr rfl fun k hk => ?_
    rw [Finset.mem_range] at hk
    rw [List.take_append_of_le_length hk.le, List.getD_eq_getElem?_getD, List.getD_eq_getElem?_getD,
      List.getElem?_append_left hk]
  · refine Finset.sum_congr rfl fun k _ => ?_
    rw [List.getD_eq_getElem?_getD, List.getD_eq_getElem?_getD, List.getElem?_append_right (by omega), Nat.add_sub_cancel_left,
      List.take_append, List.take_of_length_le (by omega), Nat.add_sub_cancel_left, ha, Nat.add_comm, Nat.add_div_right _ hL,
      Nat.succ_mul, Nat.add_comm, ← List.drop_drop, List.drop_left' ha]

/-- what learning the frequencies of a run of `L` bits may cost, at most -/
noncomputable def learningCost (L : ℕ) : ℝ := Real.logb 2 L / 2 + 1 + 2 * ((L : ℝ) / 1000) ^ 2

theorem learningCost_mono {m n : ℕ} (hm : 0 < m) (h : m ≤ n) : learningCost m ≤ learningCost n := by
  unfold learningCost
  have h1 : (0 : ℝ) < m := by exact_mod_cast hm
  have h2 : (m : ℝ) ≤ n := by exact_mod_cast h
  have h3 := Real.logb_le_logb_of_le (by norm_num : (1 : ℝ) < 2) h1 h2
  have h4 : ((m : ℝ) / 1000) ^ 2 ≤ ((n : ℝ) / 1000) ^ 2 := by
    refine pow_le_pow_left₀ (by positivity) ?_ 2
    linarith
  linarith

theorem learningCost_nonneg {n : ℕ} (h : 0 < n) : 0 ≤ learningCost n := by
  unfold learningCost
  have : 0 ≤ Real.logb 2 (n : ℝ) := Real.logb_nonneg (by norm_num) (by exact_mod_cast h)
  positivity

theorem contentOf_le {L : Nat} (hL : 0 < L) (hL2 : L ≤ 1001) {q : ℝ} (h0 : 0 < q) (h1 : q < 1) : ∀ (k : ℕ) (bits : List Bool),
    bits.length ≤ k * L → contentOf 1 2 L bits ≤ fixedLength q bits + k * learningCost L := by
  have hrun : ∀ bits : List Bool, bits.length ≤ L → contentOf 1 2 L bits ≤ fixedLength q bits + learningCost L := by
    intro bits hb
    rw [contentOf_short hb]
    have hg := gibbs h0 h1 bits
    by_cases hne : bits = []
    · subst hne
      have := learningCost_nonneg hL
      have e : codeLength [] = 0 := by simp [codeLength]
      have e' : fixedLength q [] = 0 := by simp [fixedLength]
      rw [e, e']
      linarith
    · have := C71_regret bits hne (by omega)
      have h2 := learningCost_mono (List.length_pos_of_ne_nil hne) hb
      unfold learningCost at h2 ⊢
      linarith
  intro k
  induction k with
  | zero =>
    intro bits hb
    have : bits = [] := List.length_eq_zero_iff.mp (by omega)
    subst this
    simp [contentOf, fixedLength]
  | succ k ih =>
    intro bits hb
    have hk := learningCost_nonneg hL
    by_cases hs : bits.length ≤ L
    · have h2 := hrun bits hs
      push_cast
      have : 0 ≤ (k : ℝ) * learningCost L := by positivity
      linarith
    · have ht : (bits.take L).length = L := by rw [List.length_take]; omega
      have h2 := hrun (bits.take L) (by omega)
      have h3 := ih (bits.drop L) (by rw [List.length_drop, Nat.succ_mul] at *; omega)
      have h4 := contentOf_append (factor := 1) (addend := 2) hL ht (bits.drop L)
      rw [List.take_append_drop] at h4
      have h5 : fixedLength q bits = fixedLength q (bits.take L) + fixedLength q (bits.drop L) := by
        conv_lhs => rw [← List.take_append_drop L bits]
        unfold fixedLength
        rw [List.count_append, List.count_append]
        push_cast
        ring
      rw [h4, h5]
      push_cast
      linarith

/-- **C69 (overhead).** With the table of `factor = 1` and `addend = 2` and a run length of at most 1001, the total cost
exceeds the entropy of the counts by at most the cost of learning the frequencies anew in each of the runs, and the
rounding of the logarithms. -/
theorem C69_overhead (p : ℚ) (hp0 : 1 / 10000 ≤ p) (hp1 : p ≤ 9999 / 10000) (L runs : Nat) (hL : 0 < L) (hL2 : L ≤ 1001)
    (hr : 10000 ≤ runs * L) : ∃ total zeros ones, simulateWith 1 2 p L = some (total, zeros, ones) ∧
      (total : ℝ) / 2048 ≤ entropyBits zeros ones + runs * learningCost L + 10000 / 1024 := by
  have hU : Est.Usable 1 2 := by unfold Est.Usable; omega
  obtain ⟨bits, total, zeros, ones, e, hl, -, hz, ho, -, -, ht⟩ := C69_simulation hU p (by linarith) (by linarith) L hL
  obtain ⟨total', zeros', ones', e', z0, o0, hs⟩ := C69_both_bits hU p hp0 hp1 L hL
  rw [e, Option.some.injEq, Prod.mk.injEq, Prod.mk.injEq] at e'
  obtain ⟨-, rfl, rfl⟩ := e'
  refine ⟨total, zeros, ones, e, ?_⟩
  have zr : (0 : ℝ) < zeros := by exact_mod_cast z0
  have or' : (0 : ℝ) < ones := by exact_mod_cast o0
  have hsr : (zeros : ℝ) + ones = 10000 := by exact_mod_cast hs
  have h1 := contentOf_le hL hL2 (q := (zeros : ℝ) / 10000) (by positivity) (by rw [div_lt_one (by norm_num)]; linarith) runs bits
    (by omega)
  have h2 : fixedLength ((zeros : ℝ) / 10000) bits = entropyBits zeros ones := by
    unfold fixedLength entropyBits
    rw [← hz, ← ho, ← Real.logb_inv, ← Real.logb_inv, inv_div,
      show (1 - (zeros : ℝ) / 10000) = ones / 10000 by rw [← hsr]; field_simp; ring, inv_div]
  have h3 := (abs_le.mp ht).2
  linarith

/-- the exponential is within one percent for exponents from -9 to 9 -/
def ExpNear (ex : ℚ → ℚ) : Prop := ∀ x : ℚ, -9 ≤ x → x ≤ 9 → |((ex x : ℚ) : ℝ) - Real.exp x| ≤ Real.exp x / 100

theorem exp_nine : Real.exp 9 < 8200 := by
  have h := Real.exp_one_lt_d9
  have e : Real.exp 9 = Real.exp 1 ^ 9 := by rw [← Real.exp_nat_mul]; norm_num
  rw [e]
  calc Real.exp 1 ^ 9 < 2.7182818286 ^ 9 := pow_lt_pow_left₀ h (Real.exp_pos 1).le (by norm_num)
    _ < 8200 := by norm_num

theorem mapM_forall {α β : Type} {f : α → Option β} : ∀ {l : List α}, (∀ a ∈ l, ∃ b, f a = some b) → ∃ r, l.mapM f = some r ∧
    r.length = l.length ∧ ∀ (i : ℕ) a b, l[i]? = some a → r[i]? = some b → f a = some b := by
  intro l
  induction l with
  | nil => intro _; exact ⟨[], rfl, rfl, by simp⟩
  | cons a l ih =>
    intro h
    obtain ⟨b, hb⟩ := h a List.mem_cons_self
    obtain ⟨r, h1, h2, h3⟩ := ih fun a ha => h a (List.mem_cons_of_mem _ ha)
    refine ⟨b :: r, by rw [List.mapM_cons, hb, ob_some, h1, ob_some]; rfl, by simp [h2], ?_⟩
    intro i a' b' ha hb'
    cases i with
    | zero =>
      simp only [List.getElem?_cons_zero, Option.some.injEq] at ha hb'
      rw [← ha, ← hb', hb]
    | succ i => exact h3 i a' b' (by simpa using ha) (by simpa using hb')

/-- **C69 (program).** With an exponential that is within one percent and a logarithm with a relative error of at most 1/8,
the program runs to its end and prints the reports (which are finite numbers, see `C69_report`) of 16 run lengths and four
tables for each of 37 probabilities. The power of number `i` is `(18 - i) / 2`. -/
theorem C69_main {ex lg : ℚ → ℚ} (hex : ExpNear ex) {d : ℝ} (hlg : LogNear lg d) (hd : 0 ≤ d) (hd8 : d ≤ 1 / 8) :
    ∃ out, simMain ex lg = some out ∧ out.length = 37 ∧ ∀ (i : ℕ) power reports, out[i]? = some (power, reports) →
      power = (18 - (i : ℚ)) / 2 ∧ ∃ p, simProbability (ex power) = some p ∧ 1 / 10000 ≤ p ∧ p ≤ 9999 / 10000 ∧
        ∀ (k : ℕ) l, [1, 2, 3, 5, 8, 13, 21, 34, 55, 89, 100, 200, 300, 1000, 2000, 10000][k]? = some l →
          ∀ (j : ℕ) factor addend, [(1, 2), (1, 3), (2, 2), (2, 3)][j]? = some (factor, addend) →
            ∃ row r, reports[k]? = some row ∧ row[j]? = some r ∧ simReport lg factor addend p l = some r := by
  have key : ∀ i ∈ List.range 37, ∃ b : ℚ × List (List SimReport), (do
      let x ← intoF64 (-((i : ℤ) - 18))
      let power ← fDiv x 2
      let p ← simProbability (ex power)
      let out ← simLengths.mapM fun l => simTables.mapM fun t => simReport lg t.1 t.2 p l
      some (power, out)) = some b ∧ b.1 = (18 - (i : ℚ)) / 2 ∧ ∃ p, simProbability (ex b.1) = some p ∧ 1 / 10000 ≤ p ∧
        p ≤ 9999 / 10000 ∧ ∀ (k : ℕ) l, simLengths[k]? = some l → ∀ (j : ℕ) t, simTables[j]? = some t →
          ∃ row r, b.2[k]? = some row ∧ row[j]? = some r ∧ simReport lg t.1 t.2 p l = some r := by
    intro i hi
    rw [List.mem_range] at hi
    have e1 : intoF64 (-((i : ℤ) - 18)) = some (18 - (i : ℚ)) := by
      have := fl_fits (isF64_int (m := -((i : ℤ) - 18)) (k := 0) (by rw [abs_le]; constructor <;> omega) (by norm_num) (by norm_num))
      rw [zpow_zero, mul_one] at this
      unfold intoF64
      rw [this]
      push_cast
      ring_nf
    have e2 : fDiv (18 - (i : ℚ)) 2 = some ((18 - (i : ℚ)) / 2) := by
      have := fl_fits (isF64_int (m := 18 - (i : ℤ)) (k := -1) (by rw [abs_le]; constructor <;> omega) (by norm_num) (by norm_num))
      rw [show (2 : ℚ) ^ (-1 : ℤ) = 1 / 2 by norm_num, mul_one_div] at this
      unfold fDiv
      rw [if_neg (by norm_num)]
      push_cast at this
      exact this
    have i1 : (i : ℚ) ≤ 36 := by exact_mod_cast (by omega : i ≤ 36)
    have i0 : (0 : ℚ) ≤ i := by positivity
    set x : ℚ := (18 - (i : ℚ)) / 2 with hx
    have hy := abs_le.mp (hex x (by linarith) (by linarith))
    have x1 : (x : ℝ) ≤ 9 := by
      have : x ≤ 9 := by linarith
      exact_mod_cast this
    have x0 : -9 ≤ (x : ℝ) := by
      have : -9 ≤ x := by linarith
      exact_mod_cast this
    have u1 : Real.exp x ≤ 8200 := (Real.exp_le_exp.mpr x1).trans exp_nine.le
    have u0 : 1 / 8200 ≤ Real.exp x := by
      refine le_trans ?_ (Real.exp_le_exp.mpr x0)
      rw [Real.exp_neg, ← one_div]
      exact one_div_le_one_div_of_le (Real.exp_pos 9) exp_nine.le
    obtain ⟨p, p1, p2, p3⟩ := C69_probability (ex x)
      (by have : ((1 / 9000 : ℚ) : ℝ) ≤ ((ex x : ℚ) : ℝ) := by push_cast; linarith
          exact_mod_cast this)
      (by have : ((ex x : ℚ) : ℝ) ≤ ((9000 : ℚ) : ℝ) := by push_cast; linarith
          exact_mod_cast this)
    have hrow : ∀ l ∈ simLengths, ∃ row, (simTables.mapM fun t => simReport lg t.1 t.2 p l) = some row := by
      intro l hl
      have hl0 : 0 < l := by
        revert l
        decide
      obtain ⟨row, h1, -⟩ := mapM_forall (l := simTables) (f := fun t => simReport lg t.1 t.2 p l) fun t ht => by
        have hU : Est.Usable t.1 t.2 := by
          simp only [simTables, List.mem_cons, List.not_mem_nil, or_false] at ht
          rcases ht with rfl | rfl | rfl | rfl <;> (unfold Est.Usable; omega)
        obtain ⟨-, r, -, hr, -⟩ := C69_report hU hlg hd hd8 p p2 p3 l hl0
        exact ⟨r, hr⟩
      exact ⟨row, h1⟩
    obtain ⟨out, o1, o2, o3⟩ := mapM_forall hrow
    refine ⟨(x, out), ?_, rfl, p, p1, p2, p3, ?_⟩
    · rw [e1, ob_some, e2, ob_some, p1, ob_some, o1, ob_some]
    · intro k l hk j t hj
      have hkl : k < out.length := by
        rw [o2]
        exact (List.getElem?_eq_some_iff.mp hk).1
      have hrow' := o3 k l _ hk (List.getElem?_eq_getElem hkl)
      obtain ⟨row, h1, h2, h3⟩ := mapM_forall (l := simTables) (f := fun t => simReport lg t.1 t.2 p l) fun t ht => by
        have hU : Est.Usable t.1 t.2 := by
          simp only [simTables, List.mem_cons, List.not_mem_nil, or_false] at ht
          rcases ht with rfl | rfl | rfl | rfl <;> (unfold Est.Usable; omega)
        obtain ⟨-, r, -, hr, -⟩ := C69_report hU hlg hd hd8 p p2 p3 l (by
          have := List.mem_of_getElem? hk
          revert this
          clear * -
          revert l
          decide)
        exact ⟨r, hr⟩
      rw [h1, Option.some.injEq] at hrow'
      have hjl : j < row.length := by
        rw [h2]
        exact (List.getElem?_eq_some_iff.mp hj).1
      exact ⟨row, row[j], by rw [List.getElem?_eq_getElem hkl, ← hrow'], List.getElem?_eq_getElem hjl,
        h3 j t _ hj (List.getElem?_eq_getElem hjl)⟩
  obtain ⟨out, o1, o2, o3⟩ := mapM_forall fun i hi => ⟨(key i hi).choose, (key i hi).choose_spec.1⟩
  refine ⟨out, o1, by rw [o2, List.length_range], ?_⟩
  intro i power reports ho
  have hi : i < 37 := by
    have := (List.getElem?_eq_some_iff.mp ho).1
    rwa [o2, List.length_range] at this
  obtain ⟨b, b1, b2, p, b3, b4, b5, b6⟩ := key i (List.mem_range.mpr hi)
  have := o3 i i _ (List.getElem?_range hi) ho
  rw [b1, Option.some.injEq] at this
  subst this
  exact ⟨b2, p, b3, b4, b5, fun k l hk j f a hj => b6 k l hk j (f, a) hj⟩

/-- logarithms with a small relative error exist -/
theorem near_exists : ∃ lg, LogNear lg (1 / 2 ^ 52) := by
  have : ∀ x : ℚ, ∃ r : ℚ, Real.logb 2 x ≠ 0 → |(r : ℝ) - Real.logb 2 x| ≤ 1 / 2 ^ 52 * |Real.logb 2 x| := by
    intro q
    by_cases h : Real.logb 2 q = 0
    · exact ⟨0, fun h' => absurd h h'⟩
    · have hp : 0 < 1 / 2 ^ 52 * |Real.logb 2 (q : ℝ)| := mul_pos (by positivity) (abs_pos.mpr h)
      obtain ⟨r, h1, h2⟩ := exists_rat_btwn (lt_add_of_pos_right (Real.logb 2 (q : ℝ)) hp)
      refine ⟨r, fun _ => ?_⟩
      rw [abs_of_pos (by linarith)]
      linarith
  choose lg hlg using this
  refine ⟨lg, fun x h0 h1 => hlg x ?_⟩
  have x0 : (0 : ℝ) < x := by
    have : (0 : ℚ) < x := lt_of_lt_of_le (by positivity) h0
    exact_mod_cast this
  exact (Real.logb_neg (by norm_num) x0 (by exact_mod_cast h1)).ne

/-- the hypotheses are met -/
example : ∃ lg, ∃ r, simReport lg 1 3 (1 / 2) 55 = some r := by
  obtain ⟨lg, h⟩ := near_exists
  obtain ⟨-, r, -, e, -⟩ := C69_report (factor := 1) (addend := 3) (by unfold Est.Usable; omega) h (by positivity) (by norm_num)
    (1 / 2) (by norm_num) (by norm_num) 55 (by norm_num)
  exact ⟨lg, r, e⟩

/-- such an exponential exists -/
example : ∃ ex, ExpNear ex := by
  have : ∀ x : ℚ, ∃ r : ℚ, |(r : ℝ) - Real.exp x| ≤ Real.exp x / 100 := by
    intro x
    have hp := Real.exp_pos (x : ℝ)
    obtain ⟨r, h1, h2⟩ := exists_rat_btwn (lt_add_of_pos_right (Real.exp x) (show 0 < Real.exp x / 100 by positivity))
    exact ⟨r, by rw [abs_of_pos (by linarith)]; linarith⟩
  choose ex h using this
  exact ⟨ex, fun x _ _ => h x⟩

end Verif.Bin
