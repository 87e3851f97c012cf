import Verif.Lut.Accuracy

/-!
# Stretch is the logit, squash the logistic function (C47)
-/

namespace Verif.Lut

open Verif Verif.Fixed Verif.Log2

theorem logit_odds {p : ℝ} (h0 : 0 < p) (h : p < 2 ^ 31) : logit (p / 2 ^ 31) = -odds p := by
  unfold logit odds
  have h1 : (0 : ℝ) < 2 ^ 31 - p := by linarith
  rw [show p / 2 ^ 31 / (1 - p / 2 ^ 31) = p / (2 ^ 31 - p) by
    have : (1 : ℝ) - p / 2 ^ 31 = (2 ^ 31 - p) / 2 ^ 31 := by field_simp
    rw [this]; field_simp, ← Real.log_inv, inv_div]

theorem logit_flip {x : ℝ} : logit (1 - x) = -logit x := by
  unfold logit
  rw [← Real.log_inv, inv_div]
  congr 2
  ring

/-- **C47 (table).** Every entry of the stretch table differs by less than 10^-6 from the logit of its input; this is the
assertion the constructor makes with `f64` arithmetic (`src/lut/stretch.rs:81`). -/
theorem C47_table (level index : Nat) (hl : level < 8) (hi : index < 512) (h : ¬ (level = 7 ∧ index = 0)) :
    ∃ p v, entryInput level index = some p ∧ 0 < p ∧ p < 2 ^ 30 ∧ stretchEntry level index = some v ∧
      |(v : ℝ) / 2 ^ 21 - logit ((p : ℝ) / 2 ^ 31)| < 1 / 10 ^ 6 := by
  obtain ⟨e1, e2⟩ := entryInput_eq hl hi
  have e0 := entryIn_pos hl h
  have hk := entry_facts (k := 512 * level + index) (by omega) (by omega)
  rw [show (512 * level + index) / 512 = level by omega, show (512 * level + index) % 512 = index by omega] at hk
  obtain ⟨h1, -, -, h4, -⟩ := hk
  refine ⟨_, _, e1, e0, e2, (stretchEntry_eq hl hi h).1, ?_⟩
  unfold entryMag at h1
  have := entryMag_real e0 e2 h4
  rw [h1] at this
  rw [logit_odds (by exact_mod_cast e0) (by
    have : entryIn level index < 2 ^ 31 := by omega
    exact_mod_cast this)]
  rw [abs_le] at this
  push_cast
  rw [abs_lt]
  norm_num at this ⊢
  constructor <;> linarith

example : (3 : Nat) < 8 ∧ 17 < 512 ∧ ¬ ((3 : Nat) = 7 ∧ 17 = 0) ∧ (stretchEntry 3 17).isSome := by decide +kernel

/-- both halves at once -/
theorem stOut_real {p : Nat} {e : ℝ} (h0 : 0 < p) (h : p < 2 ^ 30)
    (hb : |(stretchMag p : ℝ) / 2 ^ 21 - odds p| ≤ e) :
    |(stOut p : ℝ) / 2 ^ 21 - logit ((p : ℝ) / 2 ^ 31)| ≤ e ∧
    |(stOut (2 ^ 31 - p) : ℝ) / 2 ^ 21 - logit (((2 ^ 31 - p : ℕ) : ℝ) / 2 ^ 31)| ≤ e := by
  have hlg := logit_odds (p := (p : ℝ)) (by exact_mod_cast h0) (by
    have : p < 2 ^ 31 := by omega
    exact_mod_cast this)
  have e1 : |(stOut p : ℝ) / 2 ^ 21 - logit ((p : ℝ) / 2 ^ 31)| ≤ e := by
    rw [hlg, stOut_lower h, ← abs_neg]
    push_cast
    rw [show -(-(stretchMag p : ℝ) / 2 ^ 21 - -odds p) = (stretchMag p : ℝ) / 2 ^ 21 - odds p by ring]
    exact hb
  refine ⟨e1, ?_⟩
  rw [stOut_neg h0 (by omega), Nat.cast_sub (by omega)]
  push_cast
  rw [show ((2147483648 : ℝ) - p) / 2 ^ 31 = 1 - (p : ℝ) / 2 ^ 31 by norm_num; ring, logit_flip, ← abs_neg,
    show -(-(stOut p : ℝ) / 2 ^ 21 - -logit ((p : ℝ) / 2 ^ 31)) = (stOut p : ℝ) / 2 ^ 21 - logit ((p : ℝ) / 2 ^ 31) by
      ring]
  exact e1

theorem stretchMag_central {p : Nat} (h1 : 2 ^ 23 ≤ p) (h2 : p < 2 ^ 30) :
    |(stretchMag p : ℝ) / 2 ^ 21 - odds p| ≤ 2 / 10 ^ 6 := by
  obtain ⟨n, hn, d, hd, rfl⟩ := cell_exists h2
  have hn2 : 512 ≤ n := by
    by_contra hc
    have := gPoint_mono (m := n + 1) (n := 512) (by omega)
    rw [← gPoint_succ, show gPoint 512 = 2 ^ 23 from rfl] at this
    omega
  refine le_trans (stretchMag_real (by omega) hn hd) ?_
  have hs : (0 : ℝ) < 2 ^ gExp n := by positivity
  have hg : (512 : ℝ) * 2 ^ gExp n ≤ gPoint n := by
    have : 512 * 2 ^ gExp n ≤ gPoint n := by
      unfold gExp gPoint
      rw [if_neg (by omega), if_neg (by omega)]
      exact Nat.mul_le_mul_right _ (by omega)
    exact_mod_cast this
  have : ((2 : ℝ) ^ gExp n) ^ 2 / (4 * (gPoint n : ℝ) * (gPoint n + 2 ^ gExp n)) ≤ 1 / 2 ^ 20 := by
    rw [div_le_div_iff₀ (by nlinarith) (by positivity)]
    nlinarith
  norm_num at this ⊢
  linarith

theorem stretchMag_tail {i p : Nat} (hi : 1 ≤ i) (hi2 : i < 512) (h1 : i * 2 ^ 14 ≤ p) (h2 : p < (i + 1) * 2 ^ 14) :
    |(stretchMag p : ℝ) / 2 ^ 21 - odds p| ≤ 1 / (4 * (i : ℝ) * (i + 1)) + 8 / 10 ^ 7 := by
  have he : gExp i = 14 := by unfold gExp; rw [if_pos hi2]
  have hp : gPoint i = i * 16384 := by unfold gPoint; rw [if_pos hi2]
  have := stretchMag_real (n := i) (d := p - i * 2 ^ 14) (by omega) (by omega) (by rw [he]; omega)
  rw [he, hp, show i * 16384 + (p - i * 2 ^ 14) = p by omega] at this
  refine le_trans this (le_of_eq ?_)
  have hir : (0 : ℝ) < i := by exact_mod_cast hi
  push_cast
  rw [add_comm]
  congr 1
  rw [div_eq_div_iff (by positivity) (by positivity)]
  ring

/-- **C47 (stretch).** For probabilities between 1/256 and 255/256 stretch differs from the logit by at most 2 * 10^-6. -/
theorem C47_stretch (lut : List (List Int)) (hlut : stretchLutNew = some lut) (p : Nat) (h1 : 2 ^ 23 ≤ p)
    (h2 : p ≤ 2 ^ 31 - 2 ^ 23) :
    ∃ r, stretch lut p = some r ∧ |(r : ℝ) / 2 ^ 21 - logit ((p : ℝ) / 2 ^ 31)| ≤ 2 / 10 ^ 6 := by
  rw [stretchLut_eq] at hlut
  obtain rfl := Option.some.inj hlut
  refine ⟨_, (stretch_eq stretchTable_ok (by omega) (by omega)).1, ?_⟩
  rcases Nat.lt_trichotomy p (2 ^ 30) with h | h | h
  · exact (stOut_real (by omega) h (stretchMag_central h1 h)).1
  · subst h
    rw [show stOut (2 ^ 30) = 0 from rfl]
    unfold logit
    norm_num
  · have := (stOut_real (by omega) (by omega) (stretchMag_central (p := 2 ^ 31 - p) (by omega) (by omega))).2
    rwa [show 2 ^ 31 - (2 ^ 31 - p) = p by omega] at this

example : (2 : Nat) ^ 23 ≤ 300000000 ∧ 300000000 ≤ 2 ^ 31 - 2 ^ 23 := by norm_num

/-- **C47 (stretch, tails).** For probabilities `q` and `1 - q` with `i * 2^-17 ≤ q < (i + 1) * 2^-17`, `i` from 1 to 511,
stretch differs from the logit by at most `1 / (4 i (i+1)) + 10^-6`. -/
theorem C47_stretch_tails (lut : List (List Int)) (hlut : stretchLutNew = some lut) (i p : Nat) (hi : 1 ≤ i)
    (hi2 : i < 512) (h1 : i * 2 ^ 14 ≤ p) (h2 : p < (i + 1) * 2 ^ 14) :
    ∃ r s, stretch lut p = some r ∧ stretch lut (2 ^ 31 - p) = some s ∧
      |(r : ℝ) / 2 ^ 21 - logit ((p : ℝ) / 2 ^ 31)| ≤ 1 / (4 * (i : ℝ) * (i + 1)) + 1 / 10 ^ 6 ∧
      |(s : ℝ) / 2 ^ 21 - logit (((2 ^ 31 - p : ℕ) : ℝ) / 2 ^ 31)| ≤ 1 / (4 * (i : ℝ) * (i + 1)) + 1 / 10 ^ 6 := by
  rw [stretchLut_eq] at hlut
  obtain rfl := Option.some.inj hlut
  have h3 := le_trans (stretchMag_tail hi hi2 h1 h2) (show (1 : ℝ) / (4 * i * (i + 1)) + 8 / 10 ^ 7 ≤
    1 / (4 * (i : ℝ) * (i + 1)) + 1 / 10 ^ 6 by norm_num)
  obtain ⟨a, b⟩ := stOut_real (by omega) (by omega) h3
  exact ⟨_, _, (stretch_eq stretchTable_ok (by omega) (by omega)).1,
    (stretch_eq stretchTable_ok (by omega) (by omega)).1, a, b⟩

example : (3 : Nat) * 2 ^ 14 ≤ 50000 ∧ 50000 < (3 + 1) * 2 ^ 14 := by norm_num

/-! ## Squash -/

theorem logistic_pos (x : ℝ) : 0 < logistic x := by
  unfold logistic
  have := Real.exp_pos (-x)
  positivity

theorem logistic_lt (x : ℝ) : logistic x < 1 := by
  unfold logistic
  have := Real.exp_pos (-x)
  rw [div_lt_one (by linarith)]
  linarith

theorem logistic_neg (x : ℝ) : logistic (-x) = 1 - logistic x := by
  unfold logistic
  have h1 := Real.exp_pos (-x)
  have h2 := Real.exp_pos x
  rw [neg_neg, show Real.exp x = (Real.exp (-x))⁻¹ by rw [Real.exp_neg, inv_inv]]
  field_simp
  ring

theorem logistic_logit {q : ℝ} (h0 : 0 < q) (h1 : q < 1) : logistic (logit q) = q := by
  unfold logistic logit
  rw [Real.exp_neg, Real.exp_log (div_pos h0 (by linarith)), inv_div]
  field_simp
  ring

/-- secants of the logistic function -/
theorem logistic_diff {x y : ℝ} (h : x ≤ y) :
    (y - x) * (logistic x * (1 - logistic y)) ≤ logistic y - logistic x ∧
    logistic y - logistic x ≤ (y - x) * (logistic y * (1 - logistic x)) := by
  have hu := Real.exp_pos (-x)
  have hv := Real.exp_pos (-y)
  have e1 : Real.exp (-y) = Real.exp (-x) * Real.exp (-(y - x)) := by rw [← Real.exp_add]; congr 1; ring
  have e2 : Real.exp (-x) = Real.exp (-y) * Real.exp (y - x) := by rw [← Real.exp_add]; congr 1; ring
  have k1 : Real.exp (-x) - Real.exp (-y) ≤ (y - x) * Real.exp (-x) := by
    have := Real.add_one_le_exp (-(y - x))
    rw [e1]
    nlinarith
  have k2 : (y - x) * Real.exp (-y) ≤ Real.exp (-x) - Real.exp (-y) := by
    have := Real.add_one_le_exp (y - x)
    rw [e2]
    nlinarith
  unfold logistic
  generalize Real.exp (-x) = u at *
  generalize Real.exp (-y) = v at *
  have d1 : 1 / (1 + v) - 1 / (1 + u) = (u - v) / ((1 + u) * (1 + v)) := by field_simp; ring
  have d2 : 1 / (1 + u) * (1 - 1 / (1 + v)) = v / ((1 + u) * (1 + v)) := by field_simp; ring
  have d3 : 1 / (1 + v) * (1 - 1 / (1 + u)) = u / ((1 + u) * (1 + v)) := by field_simp; ring
  rw [d1, d2, d3, ← mul_div_assoc, ← mul_div_assoc]
  have hpos : 0 < (1 + u) * (1 + v) := by positivity
  exact ⟨div_le_div_of_nonneg_right k2 hpos.le, div_le_div_of_nonneg_right k1 hpos.le⟩

/-- the straight line between two points of the logistic function -/
theorem chord_logistic {a t : ℝ} (t0 : 0 ≤ t) (t1 : t ≤ 1) :
    |((1 - t) * logistic a + t * logistic (a + 1 / 128)) - logistic (a + t * (1 / 128))| ≤ 4 / 10 ^ 6 := by
  obtain ⟨p1, p2⟩ := logistic_diff (show a ≤ a + t * (1 / 128) by linarith)
  obtain ⟨q1, q2⟩ := logistic_diff (show a + t * (1 / 128) ≤ a + 1 / 128 by linarith)
  obtain ⟨r1, r2⟩ := logistic_diff (show a ≤ a + 1 / 128 by linarith)
  have a0 := logistic_pos a
  have a1 := logistic_lt a
  have b0 := logistic_pos (a + 1 / 128)
  have b1 := logistic_lt (a + 1 / 128)
  have x0 := logistic_pos (a + t * (1 / 128))
  have x1 := logistic_lt (a + t * (1 / 128))
  rw [show a + t * (1 / 128) - a = t * (1 / 128) by ring] at p1 p2
  rw [show a + 1 / 128 - (a + t * (1 / 128)) = (1 - t) * (1 / 128) by ring] at q1 q2
  rw [show a + 1 / 128 - a = 1 / 128 by ring] at r1 r2
  generalize logistic a = A at *
  generalize logistic (a + 1 / 128) = B at *
  generalize logistic (a + t * (1 / 128)) = X at *
  have hBA : B - A ≤ 1 / 128 * (1 / 4 + 1 / 128) := by
    have h1 : B * (1 - A) ≤ 1 := by nlinarith
    have h2 : B ≤ A + 1 / 128 := by linarith
    have h3 : B * (1 - A) ≤ (A + 1 / 128) * (1 - A) := mul_le_mul_of_nonneg_right h2 (by linarith)
    have h4 : (A + 1 / 128) * (1 - A) ≤ 1 / 4 + 1 / 128 := by nlinarith [sq_nonneg (A - 1 / 2)]
    linarith
  have hAB : 0 ≤ B - A := by
    have : 0 ≤ A * (1 - B) := mul_nonneg a0.le (by linarith)
    linarith
  have ht : t * (1 - t) ≤ 1 / 4 := by nlinarith [sq_nonneg (t - 1 / 2)]
  have ht0 : 0 ≤ t * (1 - t) := mul_nonneg t0 (by linarith)
  have hm : t * (1 - t) * (B - A) ≤ 1 / 4 * (1 / 128 * (1 / 4 + 1 / 128)) := mul_le_mul ht hBA hAB (by norm_num)
  have hm0 : 0 ≤ t * (1 - t) * (B - A) := mul_nonneg ht0 hAB
  have u1 := mul_le_mul_of_nonneg_left q2 t0
  have u2 := mul_le_mul_of_nonneg_left p1 (show 0 ≤ 1 - t by linarith)
  have u3 := mul_le_mul_of_nonneg_left q1 t0
  have u4 := mul_le_mul_of_nonneg_left p2 (show 0 ≤ 1 - t by linarith)
  have w1 : t * (1 - t) * (B - A) * (1 - X) ≤ t * (1 - t) * (B - A) := by nlinarith
  have w2 : t * (1 - t) * (B - A) * X ≤ t * (1 - t) * (B - A) := by nlinarith
  norm_num at hm ⊢
  rw [abs_le]
  constructor
  · have : -(t * (1 - t) * (B - A) * X) * (1 / 128) ≤ t * (B - X) - (1 - t) * (X - A) := by nlinarith
    linarith
  · have : t * (B - X) - (1 - t) * (X - A) ≤ t * (1 - t) * (B - A) * (1 - X) * (1 / 128) := by nlinarith
    linarith

/-- distance of a probability from the logistic function, given the distance of its logit -/
theorem logistic_near {q x e : ℝ} (h0 : 0 < q) (h1 : q < 1) (he : |logit q - x| ≤ e) (he7 : e ≤ 1 / 7) :
    |q - logistic x| ≤ 7 / 6 * (e * (1 - q)) := by
  have hq := logistic_logit h0 h1
  have x0 := logistic_pos x
  have x1 := logistic_lt x
  rw [abs_le] at he
  rcases le_total x (logit q) with h | h
  · obtain ⟨d1, d2⟩ := logistic_diff h
    rw [hq] at d1 d2
    generalize logistic x = s at *
    have e0 : 0 ≤ e := by linarith
    have d3 : q - s ≤ e * (1 - s) := by
      have : q * (1 - s) ≤ 1 * (1 - s) := mul_le_mul_of_nonneg_right h1.le (by linarith)
      have h5 : 0 ≤ q * (1 - s) := mul_nonneg h0.le (by linarith)
      nlinarith
    have d4 : 0 ≤ q - s := by
      have : 0 ≤ s * (1 - q) := mul_nonneg x0.le (by linarith)
      nlinarith
    rw [abs_of_nonneg d4]
    nlinarith
  · obtain ⟨d1, d2⟩ := logistic_diff h
    rw [hq] at d1 d2
    generalize logistic x = s at *
    have e0 : 0 ≤ e := by linarith
    have d4 : 0 ≤ s - q := by
      have : 0 ≤ q * (1 - s) := mul_nonneg h0.le (by linarith)
      nlinarith
    have d3 : s - q ≤ e * (1 - q) := by
      have : s * (1 - q) ≤ 1 * (1 - q) := mul_le_mul_of_nonneg_right x1.le (by linarith)
      have h5 : 0 ≤ s * (1 - q) := mul_nonneg x0.le (by linarith)
      nlinarith
    have d5 : 0 ≤ e * (1 - q) := mul_nonneg e0 (by linarith)
    rw [abs_sub_comm, abs_of_nonneg d4]
    linarith

/-- round trip at a table point, relative to the probability of the rarer bit -/
def backRel (k : Nat) : Bool :=
  (Nat.ble (((stMag (sqField k)) - k * 16384) * (2147483648 - sqField k)) 27533350) &&
  (Nat.ble ((k * 16384 - (stMag (sqField k))) * (2147483648 - sqField k)) 27533350)

set_option maxRecDepth 100000 in
theorem back_rel : (List.range 1509).all backRel = true := by decide +kernel

/-- the error of stretch times the probability -/
theorem stretch_rel {r : Nat} (h1 : 2 ^ 14 ≤ r) (h2 : r < 2 ^ 30) :
    |(stretchMag r : ℝ) / 2 ^ 21 - odds r| ≤ 1 / 8 + 1 / 10 ^ 6 ∧
    |(stretchMag r : ℝ) / 2 ^ 21 - odds r| * ((r : ℝ) / 2 ^ 31) ≤ 1913 / 10 ^ 9 := by
  by_cases hc : 2 ^ 23 ≤ r
  · have := stretchMag_central hc h2
    refine ⟨le_trans this (by norm_num), ?_⟩
    have hr : (r : ℝ) / 2 ^ 31 ≤ 1 / 2 := by
      rw [div_le_iff₀ (by positivity)]
      have : (r : ℝ) ≤ ((2 ^ 30 : ℕ) : ℝ) := by exact_mod_cast h2.le
      norm_num at this ⊢
      linarith
    refine le_trans (mul_le_mul this hr (by positivity) (by norm_num)) ?_
    norm_num
  · obtain ⟨i, hi⟩ : ∃ i, i = r / 2 ^ 14 := ⟨_, rfl⟩
    have hi1 : 1 ≤ i := by omega
    have hi2 : i < 512 := by omega
    have h3 : i * 2 ^ 14 ≤ r := by omega
    have h4 : r < (i + 1) * 2 ^ 14 := by omega
    have := stretchMag_tail hi1 hi2 h3 h4
    have hir : (1 : ℝ) ≤ i := by exact_mod_cast hi1
    have hr : (r : ℝ) / 2 ^ 31 ≤ (i + 1) / 2 ^ 17 := by
      rw [div_le_div_iff₀ (by positivity) (by positivity)]
      have : (r : ℝ) ≤ (((i + 1) * 2 ^ 14 : ℕ) : ℝ) := by exact_mod_cast h4.le
      push_cast at this
      norm_num at this ⊢
      linarith
    constructor
    · refine le_trans this ?_
      have : (1 : ℝ) / (4 * (i : ℝ) * (i + 1)) ≤ 1 / 8 := by
        apply one_div_le_one_div_of_le (by norm_num)
        nlinarith
      norm_num at this ⊢
      linarith
    · refine le_trans (mul_le_mul this hr (by positivity) (by positivity)) ?_
      have e : (1 / (4 * (i : ℝ) * (i + 1)) + 8 / 10 ^ 7) * ((i + 1) / 2 ^ 17) =
          1 / (4 * 2 ^ 17 * i) + 8 / 10 ^ 7 * ((i + 1) / 2 ^ 17) := by
        field_simp
      rw [e]
      have f1 : (1 : ℝ) / (4 * 2 ^ 17 * i) ≤ 1 / (4 * 2 ^ 17) := by
        apply one_div_le_one_div_of_le (by norm_num)
        nlinarith
      have f2 : ((i : ℝ) + 1) / 2 ^ 17 ≤ 512 / 2 ^ 17 := by
        have : (i : ℝ) + 1 ≤ 512 := by exact_mod_cast hi2
        exact div_le_div_of_nonneg_right this (by positivity)
      norm_num at f1 f2 ⊢
      linarith

theorem sqField_real {k : Nat} (h0 : 0 < k) (hk : k ≤ 1508) :
    |(sqField k : ℝ) / 2 ^ 31 - logistic ((k : ℝ) / 128)| ≤ 23 / 10 ^ 7 := by
  obtain ⟨f1, f2, -⟩ := sq_facts (k := k) (by omega)
  have hb := List.all_eq_true.mp back_ok k (List.mem_range.mpr (by omega))
  unfold backOk at hb
  rw [show Nat.ble k 1508 = true by rw [Nat.ble_eq]; exact hk, cond_true, Bool.and_eq_true, Nat.ble_eq, Nat.ble_eq] at hb
  have hr := List.all_eq_true.mp back_rel k (List.mem_range.mpr (by omega))
  unfold backRel at hr
  rw [Bool.and_eq_true, Nat.ble_eq, Nat.ble_eq] at hr
  obtain ⟨b3, -⟩ := sqAt_bounds (j := 1536 - k) (by omega)
  have b4 := sqAt_symm (j := 1536 - k) (by omega)
  rw [show 3072 - (1536 - k) = k + 1536 by omega, sqAt_upper] at b4
  have hq : sqField k ≠ 2 ^ 30 := by
    intro h
    rw [h, stMag_half] at hb
    omega
  rw [stMag_upper (by omega)] at hb hr
  generalize sqField k = q at *
  obtain ⟨r, rfl⟩ : ∃ r, q = 2 ^ 31 - r := ⟨2 ^ 31 - q, by omega⟩
  rw [show 2 ^ 31 - (2 ^ 31 - r) = r by omega] at hb hr
  rw [show 2147483648 - (2 ^ 31 - r) = r by omega] at hr
  obtain ⟨s1, s2⟩ := stretch_rel (r := r) (by omega) (by omega)
  have hrR : (r : ℝ) ≤ 2 ^ 31 := by
    have : r ≤ 2 ^ 31 := by omega
    exact_mod_cast this
  have hr0 : (0 : ℝ) < r := by
    have : 0 < r := by omega
    exact_mod_cast this
  have hr1 : (r : ℝ) < 2 ^ 31 := by
    have : r < 2 ^ 31 := by omega
    exact_mod_cast this
  have hq' : ((2 ^ 31 - r : ℕ) : ℝ) / 2 ^ 31 = 1 - (r : ℝ) / 2 ^ 31 := by
    rw [Nat.cast_sub (by omega)]
    push_cast
    norm_num
    ring
  rw [hq']
  have hp0 : 0 < (r : ℝ) / 2 ^ 31 := by positivity
  have hp1 : (r : ℝ) / 2 ^ 31 < 1 := by rw [div_lt_one (by positivity)]; exact hr1
  have hl : logit (1 - (r : ℝ) / 2 ^ 31) = odds r := by rw [logit_flip, logit_odds hr0 hr1, neg_neg]
  -- the distance between stretch of the entry and the table point
  have hd1 : |(stretchMag r : ℝ) / 2 ^ 21 - (k : ℝ) / 128| ≤ 45 / 2 ^ 21 := by
    have c1 : (stretchMag r : ℝ) ≤ k * 16384 + 45 := by exact_mod_cast hb.1
    have c2 : (k : ℝ) * 16384 ≤ stretchMag r + 45 := by exact_mod_cast hb.2
    rw [abs_le]
    norm_num
    constructor <;> linarith
  have hd2 : |(stretchMag r : ℝ) / 2 ^ 21 - (k : ℝ) / 128| * ((r : ℝ) / 2 ^ 31) ≤ 27533350 / 2 ^ 52 := by
    rw [show (stretchMag r : ℝ) / 2 ^ 21 - (k : ℝ) / 128 = ((stretchMag r : ℝ) - k * 16384) / 2 ^ 21 by norm_num; ring,
      abs_div, abs_of_pos (show (0 : ℝ) < 2 ^ 21 by positivity), div_mul_div_comm,
      show (2 : ℝ) ^ 21 * 2 ^ 31 = 2 ^ 52 by norm_num]
    apply div_le_div_of_nonneg_right _ (by positivity)
    rcases le_total (k * 16384) (stretchMag r) with h | h
    · have := hr.1
      have c : (((stretchMag r - k * 16384) * r : ℕ) : ℝ) ≤ ((27533350 : ℕ) : ℝ) := by exact_mod_cast this
      rw [Nat.cast_mul, Nat.cast_sub h] at c
      push_cast at c
      have h' : (k : ℝ) * 16384 ≤ stretchMag r := by exact_mod_cast h
      rw [abs_of_nonneg (by linarith)]
      exact c
    · have := hr.2
      have c : (((k * 16384 - stretchMag r) * r : ℕ) : ℝ) ≤ ((27533350 : ℕ) : ℝ) := by exact_mod_cast this
      rw [Nat.cast_mul, Nat.cast_sub h] at c
      push_cast at c
      have h' : (stretchMag r : ℝ) ≤ (k : ℝ) * 16384 := by exact_mod_cast h
      rw [abs_sub_comm, abs_of_nonneg (by linarith)]
      exact c
  have htri : |odds r - (k : ℝ) / 128| ≤
      |(stretchMag r : ℝ) / 2 ^ 21 - odds r| + |(stretchMag r : ℝ) / 2 ^ 21 - (k : ℝ) / 128| := by
    have := abs_sub_le (odds r) ((stretchMag r : ℝ) / 2 ^ 21) ((k : ℝ) / 128)
    rwa [abs_sub_comm (odds (r : ℝ)) ((stretchMag r : ℝ) / 2 ^ 21)] at this
  have hn := logistic_near (q := 1 - (r : ℝ) / 2 ^ 31) (x := (k : ℝ) / 128)
    (e := |(stretchMag r : ℝ) / 2 ^ 21 - odds r| + |(stretchMag r : ℝ) / 2 ^ 21 - (k : ℝ) / 128|)
    (by linarith) (by linarith) (by rw [hl]; exact htri) (by norm_num at s1 hd1 ⊢; linarith)
  rw [sub_sub_cancel, add_mul] at hn
  refine le_trans hn ?_
  norm_num at s2 hd2 ⊢
  linarith

/-- the saturated end -/
theorem logistic_end {k : Nat} (h1 : 1509 ≤ k) (h2 : k ≤ 1536) :
    |(2147467264 : ℝ) / 2 ^ 31 - logistic ((k : ℝ) / 128)| ≤ 23 / 10 ^ 7 := by
  have k1 : (1509 : ℝ) ≤ k := by exact_mod_cast h1
  have k2 : (k : ℝ) ≤ 1536 := by exact_mod_cast h2
  have lo : (104000 : ℝ) ≤ Real.exp ((k : ℝ) / 128) := by
    have a1 : Real.exp (11 + 3 / 4) ≤ Real.exp ((k : ℝ) / 128) := Real.exp_le_exp.mpr (by linarith)
    have a2 : Real.exp (11 + 3 / 4) = Real.exp 1 ^ 11 * Real.exp (3 / 4) := by
      rw [Real.exp_add, ← Real.exp_nat_mul]; norm_num
    have a3 : (2.718 : ℝ) ^ 11 ≤ Real.exp 1 ^ 11 :=
      pow_le_pow_left₀ (by norm_num) (by have := Real.exp_one_gt_d9; linarith) 11
    have a4 := Real.add_one_le_exp (3 / 4 : ℝ)
    have a5 : (2.718 : ℝ) ^ 11 * (3 / 4 + 1) ≤ Real.exp 1 ^ 11 * Real.exp (3 / 4) :=
      mul_le_mul a3 a4 (by norm_num) (by positivity)
    have a6 : (104000 : ℝ) ≤ (2.718 : ℝ) ^ 11 * (3 / 4 + 1) := by norm_num
    linarith
  have hi : Real.exp ((k : ℝ) / 128) ≤ 163000 := by
    have a1 : Real.exp ((k : ℝ) / 128) ≤ Real.exp 12 := Real.exp_le_exp.mpr (by linarith)
    have a2 : Real.exp 12 = Real.exp 1 ^ 12 := by rw [← Real.exp_nat_mul]; norm_num
    have a3 : Real.exp 1 ^ 12 ≤ (2.7183 : ℝ) ^ 12 :=
      pow_le_pow_left₀ (Real.exp_pos 1).le (by have := Real.exp_one_lt_d9; linarith) 12
    have a6 : (2.7183 : ℝ) ^ 12 ≤ 163000 := by norm_num
    linarith
  have e : logistic ((k : ℝ) / 128) = 1 - 1 / (1 + Real.exp ((k : ℝ) / 128)) := by
    have := logistic_neg ((k : ℝ) / 128)
    have h3 : logistic (-((k : ℝ) / 128)) = 1 / (1 + Real.exp ((k : ℝ) / 128)) := by unfold logistic; rw [neg_neg]
    linarith
  rw [e]
  generalize Real.exp ((k : ℝ) / 128) = u at *
  have c1 : 1 / (1 + u) ≤ 1 / 104001 := one_div_le_one_div_of_le (by norm_num) (by linarith)
  have c2 : 1 / 163001 ≤ 1 / (1 + u) := one_div_le_one_div_of_le (by linarith) (by linarith)
  rw [abs_le]
  norm_num at c1 c2 ⊢
  constructor <;> linarith

theorem sqAt_real_upper {k : Nat} (hk : k ≤ 1536) :
    |(sqAt (k + 1536) : ℝ) / 2 ^ 31 - logistic ((k : ℝ) / 128)| ≤ 23 / 10 ^ 7 := by
  rw [sqAt_upper]
  rcases Nat.eq_zero_or_pos k with h | h
  · subst h
    rw [squash_zero]
    unfold logistic
    norm_num
  · by_cases h2 : k ≤ 1508
    · exact sqField_real h h2
    · have hb := List.all_eq_true.mp back_ok k (List.mem_range.mpr (by omega))
      unfold backOk at hb
      rw [show Nat.ble k 1508 = false by rw [Bool.eq_false_iff, ne_eq, Nat.ble_eq]; exact h2, cond_false,
        Nat.beq_eq] at hb
      rw [hb]
      exact_mod_cast logistic_end (by omega) hk

theorem sqAt_real {j : Nat} (hj : j ≤ 3072) :
    |(sqAt j : ℝ) / 2 ^ 31 - logistic (((j : ℝ) - 1536) / 128)| ≤ 23 / 10 ^ 7 := by
  rcases Nat.le_total 1536 j with h | h
  · obtain ⟨k, rfl⟩ := Nat.exists_eq_add_of_le' h
    have := sqAt_real_upper (k := k) (by omega)
    rw [Nat.cast_add]
    push_cast
    rwa [add_sub_cancel_right]
  · have h3 := sqAt_real_upper (k := 1536 - j) (by omega)
    have h4 := sqAt_symm hj
    rw [show 3072 - j = 1536 - j + 1536 by omega] at h4
    have h5 : (sqAt (1536 - j + 1536) : ℝ) = 2147483648 - sqAt j := by
      have : (sqAt (1536 - j + 1536) : ℝ) + sqAt j = 2147483648 := by exact_mod_cast h4
      linarith
    rw [h5, Nat.cast_sub h] at h3
    rw [show ((j : ℝ) - 1536) / 128 = -((((1536 : ℕ) : ℝ) - j) / 128) by push_cast; ring, logistic_neg, ← abs_neg]
    generalize logistic ((((1536 : ℕ) : ℝ) - j) / 128) = s at *
    rw [show -((sqAt j : ℝ) / 2 ^ 31 - (1 - s)) = (2147483648 - (sqAt j : ℝ)) / 2 ^ 31 - s by norm_num; ring]
    exact h3

/-- **C47 (squash).** On its whole domain squash differs by at most `7·10^-6` from the logistic function. -/
theorem C47_squash (lut : List (List Int)) (table : List Nat) (hlut : stretchLutNew = some lut)
    (htab : squashLutNew lut = some table) (x : Int) (hx : |x| ≤ 12 * 2 ^ 21) :
    ∃ r, squash table x = some r ∧ |(r : ℝ) / 2 ^ 31 - logistic ((x : ℝ) / 2 ^ 21)| ≤ 7 / 10 ^ 6 := by
  rw [stretchLut_eq] at hlut
  obtain rfl := Option.some.inj hlut
  rw [squashLut_eq stretchTable_ok] at htab
  obtain rfl := Option.some.inj htab
  obtain ⟨j, d, hd, hj, hjd, rfl⟩ := squash_int hx
  refine ⟨sqOut j d, squash_cell hd hjd, ?_⟩
  have hx : ((((16384 * j + d : ℕ) : ℤ) - 25165824 : ℤ) : ℝ) / 2 ^ 21 =
      ((j : ℝ) - 1536) / 128 + (d : ℝ) / 16384 * (1 / 128) := by
    push_cast
    norm_num
    ring
  rw [hx]
  have r1 := sqAt_real hj
  by_cases h : j = 3072
  · obtain rfl : d = 0 := by omega
    rw [sqOut_zero]
    norm_num at r1 ⊢
    linarith
  · have r2 := sqAt_real (j := j + 1) (by omega)
    have hc : ((((j + 1 : ℕ) : ℝ)) - 1536) / 128 = ((j : ℝ) - 1536) / 128 + 1 / 128 := by push_cast; ring
    rw [hc] at r2
    have t0 : (0 : ℝ) ≤ (d : ℝ) / 16384 := by positivity
    have t1 : (d : ℝ) / 16384 ≤ 1 := by
      rw [div_le_one (by norm_num)]
      exact_mod_cast hd.le
    have ch := chord_logistic (a := ((j : ℝ) - 1536) / 128) t0 t1
    have hle := sq31_le (a := sqAt j) (w := d * 131072) (by omega)
    have hout : (sqOut j d : ℝ) = sqAt j - sq31 (sqAt j) (d * 131072) + sq31 (sqAt (j + 1)) (d * 131072) := by
      unfold sqOut
      rw [if_neg h, Nat.cast_add, Nat.cast_sub hle]
    obtain ⟨a1, a2⟩ := sq31_exact (sqAt j) (d * 131072)
    obtain ⟨b1, b2⟩ := sq31_exact (sqAt (j + 1)) (d * 131072)
    have a1' : 2147483648 * (sq31 (sqAt j) (d * 131072) : ℝ) ≤ sqAt j * (d * 131072) + 1073741824 := by
      exact_mod_cast a1
    have a2' : (sqAt j : ℝ) * (d * 131072) ≤ 2147483648 * sq31 (sqAt j) (d * 131072) + 1073741824 := by
      exact_mod_cast a2.le
    have b1' : 2147483648 * (sq31 (sqAt (j + 1)) (d * 131072) : ℝ) ≤ sqAt (j + 1) * (d * 131072) + 1073741824 := by
      exact_mod_cast b1
    have b2' : (sqAt (j + 1) : ℝ) * (d * 131072) ≤ 2147483648 * sq31 (sqAt (j + 1)) (d * 131072) + 1073741824 := by
      exact_mod_cast b2.le
    rw [hout]
    generalize (sq31 (sqAt j) (d * 131072) : ℝ) = s1 at *
    generalize (sq31 (sqAt (j + 1)) (d * 131072) : ℝ) = s2 at *
    generalize (sqAt j : ℝ) = l at *
    generalize (sqAt (j + 1) : ℝ) = r at *
    generalize logistic (((j : ℝ) - 1536) / 128) = A at *
    generalize logistic (((j : ℝ) - 1536) / 128 + 1 / 128) = B at *
    generalize logistic (((j : ℝ) - 1536) / 128 + (d : ℝ) / 16384 * (1 / 128)) = X at *
    obtain ⟨t, ht⟩ : ∃ t : ℝ, t = (d : ℝ) / 16384 := ⟨_, rfl⟩
    have hdt : (d : ℝ) = t * 16384 := by rw [ht]; ring
    rw [← ht] at t0 t1 ch
    rw [hdt] at a1' a2' b1' b2'
    rw [abs_le] at r1 r2 ch ⊢
    have m1 := mul_le_mul_of_nonneg_left r1.1 (show 0 ≤ 1 - t by linarith)
    have m2 := mul_le_mul_of_nonneg_left r1.2 (show 0 ≤ 1 - t by linarith)
    have m3 := mul_le_mul_of_nonneg_left r2.1 t0
    have m4 := mul_le_mul_of_nonneg_left r2.2 t0
    norm_num at m1 m2 m3 m4 ch ⊢
    constructor <;> nlinarith

example : ∃ lut table, stretchLutNew = some lut ∧ squashLutNew lut = some table ∧ |(-12345678 : Int)| ≤ 12 * 2 ^ 21 :=
  ⟨_, _, stretchLut_eq, squashLut_eq stretchTable_ok, by norm_num⟩

end Verif.Lut
