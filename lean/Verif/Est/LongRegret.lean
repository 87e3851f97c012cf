import Verif.Est.CodedProps
import Verif.Est.RatesProps

/-!
# C94: the estimator in the long run

After 1000 bits the rate of the estimator stays at 1/1002. The cost of a bit is paid by a potential, the cost of the own
predictions by a fixed probability, each prediction raised by `slack`, which absorbs the rounding.
-/

namespace Verif.Est

open Verif Verif.Fixed Verif.Coding

/-! ## Specification -/

/-- length in bits of the ideal code of a bit sequence for a coder that gives zeros the fixed probability `q` -/
noncomputable def fixedLength (q : ℝ) (bits : List Bool) : ℝ :=
  bits.count false * Real.logb 2 (1 / q) + bits.count true * Real.logb 2 (1 / (1 - q))

/-! ## Real arithmetic -/

/-- the largest rounding error of a step, times 1002 -/
noncomputable def slack : ℝ := 257 * 1002 / 2 ^ 31

theorem slack_pos : 0 < slack := by unfold slack; norm_num

/-- a logarithm against a fraction, on one piece -/
theorem log_piece {σ lo hi B : ℝ} (h0 : 0 < lo) (h1 : lo ≤ σ) (h2 : σ ≤ hi) (hB : Real.log ((lo + 2) / lo) ≤ B)
    (h3 : B * (hi + 3 / 2) ≤ 107 / 25) (hB0 : 0 ≤ B) : Real.log ((σ + 2) / σ) ≤ 107 / 25 / (σ + 3 / 2) := by
  have hs : 0 < σ := by linarith
  have e1 : (σ + 2) / σ ≤ (lo + 2) / lo := by
    rw [div_le_div_iff₀ hs h0]
    nlinarith
  have e2 := Real.log_le_log (by positivity) e1
  rw [le_div_iff₀ (by linarith)]
  have : B * (σ + 3 / 2) ≤ B * (hi + 3 / 2) := mul_le_mul_of_nonneg_left (by linarith) hB0
  nlinarith

theorem log_over {σ : ℝ} (h : 24 / 125 ≤ σ) : Real.log ((σ + 2) / σ) ≤ 107 / 25 / (σ + 3 / 2) := by
  have l1 := Real.log_two_gt_d9
  have l2 := Real.log_two_lt_d9
  have p2 : ∀ n : ℕ, Real.log (2 ^ n) = n * Real.log 2 := fun n => by rw [Real.log_pow]
  have near : ∀ (n : ℕ) (y : ℝ), 0 < y → Real.log (2 ^ n * y) ≤ n * Real.log 2 + (y - 1) := by
    intro n y hy
    rw [Real.log_mul (by positivity) hy.ne', p2]
    have := Real.log_le_sub_one_of_pos hy
    linarith
  by_cases c1 : σ ≤ 1 / 4
  · refine log_piece (lo := 24 / 125) (hi := 1 / 4) (B := 2441 / 1000) (by norm_num) h c1 ?_ (by norm_num) (by norm_num)
    have h2 := near 7 (((24 / 125 + 2) / (24 / 125)) ^ 2 / 2 ^ 7) (by positivity)
    rw [mul_div_cancel₀ _ (by positivity), Real.log_pow] at h2
    norm_num at h2 ⊢
    linarith
  · by_cases c2 : σ ≤ 2 / 5
    · refine log_piece (lo := 1 / 4) (hi := 2 / 5) (B := 221 / 100) (by norm_num) (by linarith) c2 ?_ (by norm_num) (by norm_num)
      have h2 := near 3 (9 / 8) (by norm_num)
      norm_num at h2 ⊢
      linarith
    · by_cases c3 : σ ≤ 4 / 5
      · refine log_piece (lo := 2 / 5) (hi := 4 / 5) (B := 184 / 100) (by norm_num) (by linarith) c3 ?_ (by norm_num) (by norm_num)
        have h2 := near 3 (3 / 4) (by norm_num)
        norm_num at h2 ⊢
        linarith
      · by_cases c4 : σ ≤ 7 / 5
        · refine log_piece (lo := 4 / 5) (hi := 7 / 5) (B := 127 / 100) (by norm_num) (by linarith) c4 ?_ (by norm_num) (by norm_num)
          have h2 := near 2 (7 / 8) (by norm_num)
          norm_num at h2 ⊢
          linarith
        · have hs : 0 < σ := by linarith
          have h3 := Real.log_le_sub_one_of_pos (show 0 < (σ + 2) / σ by positivity)
          refine h3.trans ?_
          rw [div_sub_one hs.ne', div_le_div_iff₀ hs (by linarith)]
          linarith

/-- a raised prediction against any probability: the raise costs little -/
theorem raise_cost {r s c : ℝ} (hr : 0 < r) (hc : 0 < c) (hs : 24 / 125 * c ≤ s) :
    Real.log (r / s) ≤ r / (s + c) - 1 + 23 / 5 * c / r := by
  have hs0 : 0 < s := by nlinarith
  have hσ : 24 / 125 ≤ s / c := by rwa [le_div_iff₀ hc]
  have h1 := log_over hσ
  have e1 : (s / c + 2) / (s / c) = (s + 2 * c) / s := by field_simp
  rw [e1] at h1
  have e2 : 107 / 25 / (s / c + 3 / 2) = 107 / 25 * c / (s + 3 / 2 * c) := by
    rw [div_eq_div_iff (by positivity) (by positivity)]
    field_simp
  rw [e2] at h1
  have h2 := Real.log_le_sub_one_of_pos (show 0 < r / (s + 2 * c) by positivity)
  have e3 : Real.log (r / s) = Real.log (r / (s + 2 * c)) + Real.log ((s + 2 * c) / s) := by
    rw [← Real.log_mul (by positivity) (by positivity)]
    congr 1
    field_simp
  rw [e3]
  -- `c r / ((s+c)(s+2c)) + 23/5 c / r` is at least `107/25 c / (s + 3/2 c)`
  have h3 : 107 / 25 * c / (s + 3 / 2 * c) ≤ r / (s + c) - r / (s + 2 * c) + 23 / 5 * c / r := by
    have e4 : r / (s + c) - r / (s + 2 * c) = r * c / ((s + c) * (s + 2 * c)) := by
      rw [div_sub_div _ _ (by positivity) (by positivity)]
      congr 1
      ring
    have h4 : r * c / (s + 3 / 2 * c) ^ 2 ≤ r * c / ((s + c) * (s + 2 * c)) :=
      div_le_div_of_nonneg_left (by positivity) (by positivity) (by nlinarith [sq_nonneg c])
    have h5 : 107 / 25 * c / (s + 3 / 2 * c) ≤ r * c / (s + 3 / 2 * c) ^ 2 + 23 / 5 * c / r := by
      have hy : 0 < s + 3 / 2 * c := by positivity
      generalize s + 3 / 2 * c = y at hy
      rw [div_add_div _ _ (by positivity) (by positivity), div_le_div_iff₀ hy (by positivity)]
      have : 107 / 25 * (r * y) ≤ r ^ 2 + 23 / 5 * y ^ 2 := by nlinarith [sq_nonneg (r - 107 / 50 * y), sq_nonneg y]
      have h6 := mul_le_mul_of_nonneg_left this (show 0 ≤ c * y by positivity)
      nlinarith
    linarith
  linarith

/-- what is left to learn: the cost of the raised predictions `p` and `1 - p` by the probabilities `r` and `1 - r` -/
noncomputable def left (r p : ℝ) : ℝ :=
  1002 * (-(r * Real.log (p + slack)) - (1 - r) * Real.log (1 - p + slack))

theorem left_flip (r p : ℝ) : left (1 - r) (1 - p) = left r p := by
  unfold left
  rw [sub_sub_cancel, sub_sub_cancel]
  ring

/-- the price of a probability -/
noncomputable def extra (r : ℝ) : ℝ := 23 / 5 * (slack + 1 / 2004) / r + 1 / 1001

/-- one step: the bit seen had the prediction `s`, then it has `s'` -/
theorem long_step {r s s' : ℝ} (hr : 0 < r) (hr1 : r ≤ 1) (hs0 : 499 / 2 ^ 22 ≤ s) (hs1 : s ≤ 1 - 499 / 2 ^ 22)
    (hup : s ≤ s') (h : |s' - (s + (1 - s) / 1002)| ≤ slack / 1002) :
    -Real.log s ≤ -Real.log r + (left r s - left r s') + extra r := by
  have hδ := slack_pos
  have hs : 0 < s := lt_of_lt_of_le (by norm_num) hs0
  have ht : 0 < 1 - s := by
    have : (0 : ℝ) < 499 / 2 ^ 22 := by norm_num
    linarith
  obtain ⟨h1, h2⟩ := abs_le.mp h
  set a := s + slack with ha
  have ha0 : 0 < a := by linarith
  -- the side of the bit
  have g1 : r * ((1 - a) / (a + 1 / 2004)) ≤ 1002 * r * (Real.log (s' + slack) - Real.log a) := by
    have hle : a ≤ s' + slack := by linarith
    by_cases h1a : 1 ≤ a
    · have : (1 - a) / (a + 1 / 2004) ≤ 0 := div_nonpos_of_nonpos_of_nonneg (by linarith) (by linarith)
      have h3 := Real.log_le_log ha0 hle
      have h4 : r * ((1 - a) / (a + 1 / 2004)) ≤ 0 := mul_nonpos_of_nonneg_of_nonpos hr.le this
      have h5 : 0 ≤ 1002 * r * (Real.log (s' + slack) - Real.log a) := by
        apply mul_nonneg <;> linarith
      linarith
    · have h1a := not_le.mp h1a
      set x := (1 - a) / (1002 * a) with hx
      have hx0 : 0 ≤ x := div_nonneg (by linarith) (by positivity)
      have h3 := Real.le_log_one_add_of_nonneg hx0
      have h4 : a * (1 + x) ≤ s' + slack := by
        have : a * (1 + x) = a + (1 - a) / 1002 := by
          rw [hx]
          field_simp
        rw [this, ha]
        linarith
      have h5 := Real.log_le_log (by positivity) h4
      rw [Real.log_mul ha0.ne' (by positivity)] at h5
      have h6 : (1 - a) / (a + 1 / 2004) ≤ 1002 * (2 * x / (x + 2)) := by
        have e : 1002 * (2 * x / (x + 2)) = (1 - a) / (a + (1 - a) / 2004) := by
          rw [hx]
          have : 0 < (1 - a) / (1002 * a) + 2 := by positivity
          have h7 : 0 < a + (1 - a) / 2004 := by
            have : 0 ≤ (1 - a) / 2004 := div_nonneg (by linarith) (by norm_num)
            linarith
          field_simp
          ring
        rw [e]
        refine div_le_div_of_nonneg_left (by linarith) ?_ ?_
        · have : 0 ≤ (1 - a) / 2004 := div_nonneg (by linarith) (by norm_num)
          linarith
        · linarith
      have h7 : (1 - a) / (a + 1 / 2004) ≤ 1002 * (Real.log (s' + slack) - Real.log a) := by linarith
      calc r * ((1 - a) / (a + 1 / 2004)) ≤ r * (1002 * (Real.log (s' + slack) - Real.log a)) :=
            mul_le_mul_of_nonneg_left h7 hr.le
        _ = _ := by ring
  -- the other side
  have g2 : -(1002 / 1001) ≤ 1002 * (Real.log (1 - s' + slack) - Real.log (1 - s + slack)) := by
    have h3 : (1 - s + slack) * (1001 / 1002) ≤ 1 - s' + slack := by linarith
    have h4 := Real.log_le_log (by positivity) h3
    rw [Real.log_mul (by positivity) (by norm_num)] at h4
    have h5 := Real.log_le_sub_one_of_pos (show (0 : ℝ) < 1002 / 1001 by norm_num)
    have h6 : Real.log (1001 / 1002 : ℝ) = -Real.log (1002 / 1001) := by
      rw [← Real.log_inv]
      norm_num
    rw [h6] at h4
    linarith
  have g2' := mul_le_mul_of_nonneg_left g2 (show 0 ≤ 1 - r by linarith)
  -- the raise
  have g3 := raise_cost (r := r) (s := s) (c := slack + 1 / 2004) hr (by linarith) (by
    refine le_trans ?_ hs0
    unfold slack
    norm_num)
  have e1 : Real.log (r / s) = Real.log r - Real.log s := Real.log_div hr.ne' hs.ne'
  rw [e1] at g3
  have e2 : s + (slack + 1 / 2004) = a + 1 / 2004 := by rw [ha]; ring
  rw [e2] at g3
  have hb : 0 < a + 1 / 2004 := by linarith
  have e3 : r * ((1 - a) / (a + 1 / 2004)) = r / (a + 1 / 2004) - r + r / 2004 / (a + 1 / 2004) := by
    field_simp
    ring
  have h8 : 0 ≤ r / 2004 / (a + 1 / 2004) := by positivity
  rw [e3] at g1
  unfold left extra
  rw [← ha]
  have e4 : (1002 : ℝ) * (-(r * Real.log a) - (1 - r) * Real.log (1 - s + slack)) -
      1002 * (-(r * Real.log (s' + slack)) - (1 - r) * Real.log (1 - s' + slack)) =
      1002 * r * (Real.log (s' + slack) - Real.log a) +
        (1 - r) * (1002 * (Real.log (1 - s' + slack) - Real.log (1 - s + slack))) := by ring
  rw [e4]
  linarith

/-! ## The estimator -/

theorem replay_with (bits : List Bool) : replay bits = replayWith 1 2 bits := rfl

/-- the estimator takes a step -/
theorem chance_step (bits : List Bool) (b : Bool) (h : 1000 ≤ bits.length) :
    |chanceOfZero (bits ++ [b]) - (chanceOfZero bits + ((if b then 0 else 1) - chanceOfZero bits) / 1002)| ≤ slack / 1002 ∧
    (b = false → chanceOfZero bits ≤ chanceOfZero (bits ++ [b])) ∧
    (b = true → chanceOfZero (bits ++ [b]) ≤ chanceOfZero bits) := by
  obtain ⟨e, e', h1, h2, h3, h4, h5⟩ := C15_step 1 2 ⟨by norm_num, by norm_num, by norm_num⟩ bits b
  unfold chanceOfZero
  rw [replay_with, replay_with, h1, h2, Option.map_some, Option.map_some, Option.getD_some, Option.getD_some]
  rw [min_eq_right h] at h3
  refine ⟨?_, fun hb => ?_, fun hb => ?_⟩
  · have h6 := (Rat.cast_le (K := ℝ)).mpr h3
    push_cast at h6
    rw [show ((decPrediction e' : ℕ) : ℝ) / 2 ^ 31 - (((decPrediction e : ℕ) : ℝ) / 2 ^ 31 +
      ((if b = true then 0 else 1) - ((decPrediction e : ℕ) : ℝ) / 2 ^ 31) / 1002) =
        (((decPrediction e' : ℕ) : ℝ) - (((decPrediction e : ℕ) : ℝ) + ((if b = true then 0 else 2 ^ 31) -
          ((decPrediction e : ℕ) : ℝ)) / (1000 * 1 + 2))) / 2 ^ 31 by
      cases b
      · simp only [Bool.false_eq_true, if_false]; ring
      · simp only [if_true]; ring]
    rw [abs_div, abs_of_pos (show (0 : ℝ) < 2 ^ 31 by positivity), slack, div_le_iff₀ (by positivity)]
    have h7 : (((if b = true then 0 else 2 ^ 31 : ℚ) : ℚ) : ℝ) = if b = true then 0 else 2 ^ 31 := by
      cases b <;> simp
    norm_num at h6 h7 ⊢
    rw [h7] at h6
    exact h6
  · exact div_le_div_of_nonneg_right (by exact_mod_cast h4 hb) (by positivity)
  · exact div_le_div_of_nonneg_right (by exact_mod_cast h5 hb) (by positivity)

/-- predictions are multiples of `2 ^ -22` -/
theorem chance_grid (bits : List Bool) : ∃ m : ℕ, chanceOfZero bits = (m : ℝ) / 2 ^ 22 := by
  obtain ⟨e, h1, -⟩ := C13_range bits
  refine ⟨decPrediction e / 512, ?_⟩
  unfold chanceOfZero
  rw [h1, Option.map_some, Option.getD_some]
  have : decPrediction e = 512 * (decPrediction e / 512) := by
    unfold decPrediction wrapU32
    omega
  rw [eq_comm, div_eq_div_iff (by positivity) (by positivity)]
  have h2 : ((decPrediction e : ℕ) : ℝ) = 512 * ((decPrediction e / 512 : ℕ) : ℝ) := by exact_mod_cast this
  rw [h2]
  ring

/-- predictions stay away from 0 and 1 -/
theorem chance_range (bits : List Bool) (h : 1000 ≤ bits.length) :
    499 / 2 ^ 22 ≤ chanceOfZero bits ∧ chanceOfZero bits ≤ 1 - 499 / 2 ^ 22 := by
  induction bits using List.reverseRecOn with
  | nil => simp at h
  | append_singleton bits b ih =>
    rw [List.length_append, List.length_singleton] at h
    by_cases h1 : bits.length = 999
    · have near := chance_near (bits ++ [b]) 1001 le_rfl (by rw [List.length_append, List.length_singleton]; omega)
      have hs : (bits ++ [b]).count false ≤ (bits ++ [b]).length := List.count_le_length
      rw [List.length_append, List.length_singleton, h1] at near hs
      have hs1 : (((bits ++ [b]).count false : ℕ) : ℝ) ≤ 1000 := by exact_mod_cast hs
      have hs0 : (0 : ℝ) ≤ (((bits ++ [b]).count false : ℕ) : ℝ) := by positivity
      generalize (((bits ++ [b]).count false : ℕ) : ℝ) = z at near hs0 hs1
      obtain ⟨n1, n2⟩ := abs_le.mp near
      norm_num at n1 n2 ⊢
      constructor <;> linarith
    · obtain ⟨i1, i2⟩ := ih (by omega)
      obtain ⟨s1, s2, s3⟩ := chance_step bits b (by omega)
      obtain ⟨m, hm⟩ := chance_grid bits
      obtain ⟨m', hm'⟩ := chance_grid (bits ++ [b])
      rw [hm] at i1 i2 s1 s2 s3
      rw [hm'] at s1 s2 s3 ⊢
      have p22 : (0 : ℝ) < 2 ^ 22 := by positivity
      have i1' : 499 ≤ m := by
        have := (div_le_div_iff_of_pos_right p22).mp i1
        exact_mod_cast this
      have i2' : m + 499 ≤ 2 ^ 22 := by
        have : (m : ℝ) + 499 ≤ 2 ^ 22 := by
          rw [le_sub_iff_add_le, ← add_div, div_le_one p22] at i2
          exact i2
        exact_mod_cast this
      obtain ⟨t1, t2⟩ := abs_le.mp s1
      have goal : 499 ≤ m' ∧ m' + 499 ≤ 2 ^ 22 := by
        cases b with
        | false =>
          have h2 : m ≤ m' := by
            have := (div_le_div_iff_of_pos_right p22).mp (s2 rfl)
            exact_mod_cast this
          refine ⟨by omega, ?_⟩
          by_contra hc
          have hc : (2 : ℝ) ^ 22 - 498 ≤ m' := by
            have : 2 ^ 22 ≤ m' + 498 := by omega
            have : ((2 ^ 22 : ℕ) : ℝ) ≤ ((m' + 498 : ℕ) : ℝ) := by exact_mod_cast this
            push_cast at this
            linarith
          have h3 : (m : ℝ) + 499 ≤ 2 ^ 22 := by exact_mod_cast i2'
          simp only [Bool.false_eq_true, if_false] at t2
          unfold slack at t2
          norm_num at t2
          linarith
        | true =>
          have h2 : m' ≤ m := by
            have := (div_le_div_iff_of_pos_right p22).mp (s3 rfl)
            exact_mod_cast this
          refine ⟨?_, by omega⟩
          by_contra hc
          have hc : (m' : ℝ) ≤ 498 := by exact_mod_cast (by omega : m' ≤ 498)
          have h3 : (499 : ℝ) ≤ m := by exact_mod_cast i1'
          simp only [if_true] at t1
          unfold slack at t1
          norm_num at t1
          linarith
      obtain ⟨k1, k2⟩ := goal
      constructor
      · exact div_le_div_of_nonneg_right (by exact_mod_cast k1) p22.le
      · rw [le_sub_iff_add_le, ← add_div, div_le_one p22]
        exact_mod_cast k2

/-! ## Sums -/

/-- a probability that may be fixed for the bits: those that occur have a chance -/
def Allows (q : ℝ) (bits : List Bool) : Prop := 0 ≤ q ∧ q ≤ 1 ∧ (false ∈ bits → 0 < q) ∧ (true ∈ bits → q < 1)

theorem fixed_nats (q : ℝ) (bits : List Bool) : fixedLength q bits * Real.log 2 =
    bits.count false * -Real.log q + bits.count true * -Real.log (1 - q) := by
  have l2 : Real.log 2 ≠ 0 := (Real.log_pos (by norm_num)).ne'
  unfold fixedLength Real.logb
  rw [one_div, one_div, Real.log_inv, Real.log_inv]
  field_simp

theorem Allows.take {q : ℝ} {bits : List Bool} {b : Bool} (h : Allows q (bits ++ [b])) : Allows q bits :=
  ⟨h.1, h.2.1, fun hm => h.2.2.1 (List.mem_append_left _ hm), fun hm => h.2.2.2 (List.mem_append_left _ hm)⟩

/-- the bits after the first ones -/
theorem long_sum (q : ℝ) (pre rest : List Bool) (hpre : 1000 ≤ pre.length) (hq : Allows q rest) :
    codeLength (pre ++ rest) * Real.log 2 ≤ codeLength pre * Real.log 2 + fixedLength q rest * Real.log 2 +
      (rest.count false * extra q + rest.count true * extra (1 - q)) +
      (left q (chanceOfZero pre) - left q (chanceOfZero (pre ++ rest))) := by
  have l2 : (0 : ℝ) < Real.log 2 := Real.log_pos (by norm_num)
  have hlog : ∀ x, -Real.logb 2 x * Real.log 2 = -Real.log x := by
    intro x
    unfold Real.logb
    field_simp
  induction rest using List.reverseRecOn with
  | nil => simp [fixedLength]
  | append_singleton rest b ih =>
    have i := ih hq.take
    have hlen : 1000 ≤ (pre ++ rest).length := by rw [List.length_append]; omega
    obtain ⟨r1, r2⟩ := chance_range (pre ++ rest) hlen
    obtain ⟨s1, s2, s3⟩ := chance_step (pre ++ rest) b hlen
    rw [← List.append_assoc, codeLength_snoc, add_mul, hlog]
    rw [fixed_nats] at i ⊢
    cases b with
    | false =>
      have hz : (rest ++ [false]).count false = rest.count false + 1 := by simp
      have ho : (rest ++ [false]).count true = rest.count true := by simp
      rw [hz, ho]
      simp only [Bool.false_eq_true, if_false] at s1 ⊢
      have k := long_step (r := q) (hq.2.2.1 (by simp)) hq.2.1 r1 r2 (s2 rfl) s1
      push_cast
      linarith
    | true =>
      have hz : (rest ++ [true]).count false = rest.count false := by simp
      have ho : (rest ++ [true]).count true = rest.count true + 1 := by simp
      rw [hz, ho]
      simp only [if_true] at s1 ⊢
      have k := long_step (r := 1 - q) (s := 1 - chanceOfZero (pre ++ rest)) (s' := 1 - chanceOfZero (pre ++ rest ++ [true]))
        (by linarith [hq.2.2.2 (by simp)]) (by linarith [hq.1]) (by linarith) (by linarith) (by linarith [s3 rfl]) (by
          rw [← abs_neg]
          refine le_trans (le_of_eq ?_) s1
          congr 1
          ring)
      rw [left_flip, left_flip] at k
      push_cast
      linarith

/-- a fixed probability is never better than the frequencies -/
theorem frequency_le_fixed (q : ℝ) (bits : List Bool) (hq : Allows q bits) : frequencyLength bits ≤ fixedLength q bits := by
  have l2 : (0 : ℝ) < Real.log 2 := Real.log_pos (by norm_num)
  refine le_of_mul_le_mul_right ?_ l2
  have hs := count_sum bits
  have part : ∀ (a : ℕ) (r : ℝ), a ≤ bits.length → (0 < a → 0 < r) → 0 ≤ r →
      (a : ℝ) * Real.logb 2 (bits.length / a) * Real.log 2 ≤ a * -Real.log r + (bits.length * r - a) := by
    intro a r ha hr hr0
    rcases Nat.eq_zero_or_pos a with rfl | h0
    · simp only [Nat.cast_zero, zero_mul, sub_zero, zero_add]
      positivity
    · have h1 : (0 : ℝ) < a := by exact_mod_cast h0
      have h2 : (0 : ℝ) < bits.length := by exact_mod_cast (by omega : 0 < bits.length)
      have h3 := hr h0
      have h4 := Real.log_le_sub_one_of_pos (show 0 < bits.length * r / a by positivity)
      rw [Real.log_div (by positivity) h1.ne', Real.log_mul h2.ne' h3.ne'] at h4
      have h5 := mul_le_mul_of_nonneg_left h4 h1.le
      have e1 : (a : ℝ) * (bits.length * r / a - 1) = bits.length * r - a := by field_simp
      have e2 : (a : ℝ) * Real.logb 2 (bits.length / a) * Real.log 2 = a * (Real.log bits.length - Real.log a) := by
        rw [Real.logb, Real.log_div h2.ne' h1.ne']
        field_simp
      rw [e1] at h5
      rw [e2]
      linarith
  have p0 := part (bits.count false) q (by omega) (fun h => hq.2.2.1 (List.count_pos_iff.mp h)) hq.1
  have p1 := part (bits.count true) (1 - q) (by omega) (fun h => by linarith [hq.2.2.2 (List.count_pos_iff.mp h)])
    (by linarith [hq.2.1])
  have hcs : (bits.count false : ℝ) + bits.count true = bits.length := by exact_mod_cast hs
  rw [fixed_nats, frequencyLength, add_mul]
  linarith

theorem fixed_append (q : ℝ) (a b : List Bool) : fixedLength q (a ++ b) = fixedLength q a + fixedLength q b := by
  unfold fixedLength
  rw [List.count_append, List.count_append]
  push_cast
  ring

/-- the first 1000 bits -/
theorem first_bits (q : ℝ) (bits : List Bool) (h : bits.length ≤ 1000) (hq : Allows q bits) :
    codeLength bits ≤ fixedLength q bits + 8 := by
  by_cases h0 : bits = []
  · subst h0
    simp [codeLength, fixedLength]
  · have h1 := C71_regret bits h0 (by omega)
    have h2 := frequency_le_fixed q bits hq
    have h3 : (bits.length : ℝ) ≤ 1000 := by exact_mod_cast h
    have h4 : (0 : ℝ) < bits.length := by exact_mod_cast List.length_pos_iff.mpr h0
    have h5 : Real.logb 2 bits.length ≤ 10 := by
      rw [Real.logb_le_iff_le_rpow (by norm_num) h4]
      norm_num
      linarith
    have h6 : ((bits.length : ℝ) / 1000) ^ 2 ≤ 1 := by
      have : (bits.length : ℝ) / 1000 ≤ 1 := by rw [div_le_one (by norm_num)]; exact h3
      exact pow_le_one₀ (by positivity) this
    linarith

/-- what is left to learn after 1000 bits -/
theorem left_first (q : ℝ) (bits : List Bool) (h : bits.length = 1000) (hq0 : 0 ≤ q) (hq1 : q ≤ 1) :
    left q (chanceOfZero bits) ≤ 11022 * Real.log 2 := by
  have near := chance_near bits 1001 le_rfl (by omega)
  have hs : bits.count false ≤ bits.length := List.count_le_length
  rw [h] at near hs
  have hs1 : ((bits.count false : ℕ) : ℝ) ≤ 1000 := by exact_mod_cast hs
  have hs0 : (0 : ℝ) ≤ ((bits.count false : ℕ) : ℝ) := by positivity
  generalize ((bits.count false : ℕ) : ℝ) = z at near hs0 hs1
  generalize chanceOfZero bits = p at near ⊢
  obtain ⟨n1, n2⟩ := abs_le.mp near
  norm_num at n1 n2
  have side : ∀ x, (1 : ℝ) / 2 ^ 11 ≤ x → -Real.log x ≤ 11 * Real.log 2 := by
    intro x hx
    have h1 := Real.log_le_log (by positivity) hx
    rw [one_div, Real.log_inv, Real.log_pow] at h1
    push_cast at h1
    linarith
  have h1 := side (p + slack) (by unfold slack; norm_num; linarith)
  have h2 := side (1 - p + slack) (by unfold slack; norm_num; linarith)
  have h3 := mul_le_mul_of_nonneg_left h1 hq0
  have h4 := mul_le_mul_of_nonneg_left h2 (show 0 ≤ 1 - q by linarith)
  unfold left
  linarith

theorem left_last (q p : ℝ) (h0 : 0 ≤ p) (h1 : p ≤ 1) (hq0 : 0 ≤ q) (hq1 : q ≤ 1) : -(1002 * slack) ≤ left q p := by
  have hδ := slack_pos
  have side : ∀ x, 0 ≤ x → x ≤ 1 → Real.log (x + slack) ≤ slack := by
    intro x hx hx1
    have := Real.log_le_sub_one_of_pos (show 0 < x + slack by linarith)
    linarith
  have h2 := mul_le_mul_of_nonneg_left (side p h0 h1) hq0
  have h3 := mul_le_mul_of_nonneg_left (side (1 - p) (by linarith) (by linarith)) (show 0 ≤ 1 - q by linarith)
  unfold left
  linarith

theorem extra_le {r : ℝ} (h : 0 ≤ r) : extra r ≤ (1 / r / 243 + 1 / 690) * Real.log 2 := by
  have l1 := Real.log_two_gt_d9
  have h1 : (23 / 5 * (slack + 1 / 2004)) ≤ 1 / 243 * Real.log 2 := by
    unfold slack
    norm_num
    linarith
  have h2 : 23 / 5 * (slack + 1 / 2004) / r ≤ 1 / 243 * Real.log 2 / r := div_le_div_of_nonneg_right h1 h
  unfold extra
  have e : (1 / r / 243 + 1 / 690) * Real.log 2 = 1 / 243 * Real.log 2 / r + Real.log 2 / 690 := by ring
  rw [e]
  have h3 : (1 : ℝ) / 1001 ≤ Real.log 2 / 690 := by linarith
  linarith

/-! ## Theorems -/

/-- **C94 (fixed probabilities).** For any number of bits, the code for the predictions of a new estimator is at most 11100 bits,
and for each bit `1 / (243 r) + 1 / 690` bits, longer than the code for a fixed probability of a zero; `r` is the fixed
probability of the bit. -/
theorem C94_fixed (q : ℝ) (bits : List Bool) (hq : Allows q bits) :
    codeLength bits ≤ fixedLength q bits + (bits.count false / q + bits.count true / (1 - q)) / 243 + bits.length / 690 + 11100 := by
  have l1 := Real.log_two_gt_d9
  have l2 : (0 : ℝ) < Real.log 2 := by linarith
  have hq1 : 0 ≤ 1 - q := by linarith [hq.2.1]
  have hz : (0 : ℝ) ≤ bits.count false / q := div_nonneg (by positivity) hq.1
  have ho : (0 : ℝ) ≤ bits.count true / (1 - q) := div_nonneg (by positivity) hq1
  by_cases h : bits.length ≤ 1000
  · have := first_bits q bits h hq
    have : (0 : ℝ) ≤ (bits.length : ℝ) / 690 := by positivity
    linarith
  · have hsplit := List.take_append_drop 1000 bits
    have htl : (bits.take 1000).length = 1000 := by rw [List.length_take]; omega
    have hq' : ∀ l : List Bool, (∀ x ∈ l, x ∈ bits) → Allows q l :=
      fun l hl => ⟨hq.1, hq.2.1, fun hm => hq.2.2.1 (hl _ hm), fun hm => hq.2.2.2 (hl _ hm)⟩
    have h1 := first_bits q (bits.take 1000) htl.le (hq' _ fun x hx => List.mem_of_mem_take hx)
    have h2 := long_sum q (bits.take 1000) (bits.drop 1000) htl.ge (hq' _ fun x hx => List.mem_of_mem_drop hx)
    have h3 := left_first q (bits.take 1000) htl hq.1 hq.2.1
    have h4 := fixed_append q (bits.take 1000) (bits.drop 1000)
    rw [hsplit] at h2 h4
    obtain ⟨r1, r2⟩ := chance_range bits (by omega)
    have h5 := left_last q (chanceOfZero bits) (le_trans (by norm_num) r1) (r2.trans (by norm_num)) hq.1 hq.2.1
    have c0 : (bits.drop 1000).count false ≤ bits.count false := List.Sublist.count_le false (List.drop_sublist _ _)
    have c1 : (bits.drop 1000).count true ≤ bits.count true := List.Sublist.count_le true (List.drop_sublist _ _)
    have part : ∀ (a b : ℕ) (r : ℝ), a ≤ b → 0 ≤ r → (a : ℝ) * extra r ≤ (b / r / 243 + b / 690) * Real.log 2 := by
      intro a b r hab hr
      have e1 := mul_le_mul_of_nonneg_left (extra_le hr) (Nat.cast_nonneg (α := ℝ) a)
      have hab' : (a : ℝ) ≤ b := by exact_mod_cast hab
      have e2 : 0 ≤ (1 / r / 243 + 1 / 690) * Real.log 2 := by positivity
      have e3 := mul_le_mul_of_nonneg_right hab' e2
      have e4 : (b : ℝ) * ((1 / r / 243 + 1 / 690) * Real.log 2) = (b / r / 243 + b / 690) * Real.log 2 := by ring
      linarith
    have p0 := part _ _ q c0 hq.1
    have p1 := part _ _ (1 - q) c1 hq1
    have hcs : (bits.count false : ℝ) + bits.count true = bits.length := by exact_mod_cast count_sum bits
    have h6 := mul_le_mul_of_nonneg_right h1 l2.le
    have hδ : 1002 * slack ≤ 1 := by unfold slack; norm_num
    refine le_of_mul_le_mul_right ?_ l2
    have e5 : (fixedLength q bits + (bits.count false / q + bits.count true / (1 - q)) / 243 + bits.length / 690 + 11100) * Real.log 2 =
        fixedLength q bits * Real.log 2 + (bits.count false / q / 243 + bits.count false / 690) * Real.log 2 +
        (bits.count true / (1 - q) / 243 + bits.count true / 690) * Real.log 2 + 11100 * Real.log 2 := by
      rw [← hcs]
      ring
    rw [e5, h4, add_mul]
    rw [add_mul] at h6
    linarith

/-- the share of zeros -/
noncomputable def shareOfZeros (bits : List Bool) : ℝ := bits.count false / bits.length

theorem allows_share (bits : List Bool) (h : bits ≠ []) : Allows (shareOfZeros bits) bits ∧
    fixedLength (shareOfZeros bits) bits = frequencyLength bits ∧
    bits.count false / shareOfZeros bits + bits.count true / (1 - shareOfZeros bits) ≤ 2 * bits.length := by
  have h1 : (0 : ℝ) < bits.length := by exact_mod_cast List.length_pos_iff.mpr h
  have hs : (bits.count false : ℝ) + bits.count true = bits.length := by exact_mod_cast count_sum bits
  have e1 : 1 - shareOfZeros bits = bits.count true / bits.length := by
    unfold shareOfZeros
    rw [← hs] at h1 ⊢
    field_simp
    ring
  have h2 : (0 : ℝ) ≤ bits.count true := by positivity
  refine ⟨⟨by unfold shareOfZeros; positivity, ?_, ?_, ?_⟩, ?_, ?_⟩
  · have : 0 ≤ 1 - shareOfZeros bits := by rw [e1]; positivity
    linarith
  · intro hm
    have : (0 : ℝ) < bits.count false := by exact_mod_cast List.count_pos_iff.mpr hm
    unfold shareOfZeros
    positivity
  · intro hm
    have : (0 : ℝ) < bits.count true := by exact_mod_cast List.count_pos_iff.mpr hm
    have : 0 < 1 - shareOfZeros bits := by rw [e1]; positivity
    linarith
  · unfold fixedLength frequencyLength
    rw [e1, shareOfZeros, one_div_div, one_div_div]
  · have part : ∀ a : ℝ, 0 ≤ a → a / (a / bits.length) ≤ bits.length := by
      intro a ha
      rcases ha.eq_or_lt with rfl | ha
      · simp
      · rw [div_div_eq_mul_div, mul_div_right_comm, div_self ha.ne', one_mul]
    rw [e1, shareOfZeros]
    have := part _ (Nat.cast_nonneg (α := ℝ) (bits.count false))
    have := part _ h2
    linarith

/-- **C94 (frequencies).** For any number of bits, in any order, the code for the predictions of a new estimator is at most one
hundredth of a bit for each bit, and 11100 bits, longer than that of a coder that knows the frequencies of zeros and ones. -/
theorem C94_regret (bits : List Bool) : codeLength bits ≤ frequencyLength bits + bits.length / 100 + 11100 := by
  by_cases h : bits = []
  · subst h
    simp [codeLength, frequencyLength]
  · obtain ⟨h1, h2, h3⟩ := allows_share bits h
    have h4 := C94_fixed _ bits h1
    rw [h2] at h4
    have : (0 : ℝ) ≤ bits.length := by positivity
    linarith

/-- frequencies never cost more than a bit for each bit -/
theorem frequency_le_length (bits : List Bool) : frequencyLength bits ≤ bits.length := by
  have h := frequency_le_fixed (1 / 2) bits ⟨by norm_num, by norm_num, fun _ => by norm_num, fun _ => by norm_num⟩
  refine h.trans (le_of_eq ?_)
  have hs : (bits.count false : ℝ) + bits.count true = bits.length := by exact_mod_cast count_sum bits
  unfold fixedLength
  rw [show (1 : ℝ) / (1 / 2) = 2 by norm_num, show (1 : ℝ) / (1 - 1 / 2) = 2 by norm_num, Real.logb_self_eq_one (by norm_num),
    mul_one, mul_one]
  exact hs

/-- loss by rounding down the part of the interval that belongs to a zero, any number of bits -/
theorem share_loss_any {rates : List Nat} (hr : ratesDefault = some rates) (pre : List Bool) (b : Bool) :
    contentOf (share (.bit (finalAfter pre) b)) ≤
      -Real.logb 2 (if b then 1 - chanceOfZero pre else chanceOfZero pre) + 1 / 690 := by
  by_cases hlen : pre.length < 1001
  · have := share_loss hr pre b hlen
    linarith
  · obtain ⟨-, -, -, h1, h2, h3, -⟩ := after_ok hr pre
    obtain ⟨hlo, -⟩ := chance_range pre (by omega)
    cases b with
    | true =>
      unfold contentOf share
      dsimp only
      rw [if_pos rfl, h3, Nat.cast_sub h2.le]
      have e : (((2 ^ 23 : ℕ) : ℝ) - (finalAfter pre : ℝ)) / ((2 ^ 23 : ℕ) : ℝ) = 1 - (finalAfter pre : ℝ) / 2 ^ 23 := by
        push_cast; ring
      rw [e]
      linarith
    | false =>
      have hf0 : (0 : ℝ) < finalAfter pre := by exact_mod_cast h1
      have hbig : (998 : ℝ) ≤ finalAfter pre := by
        rw [h3, div_le_div_iff₀ (by positivity) (by positivity)] at hlo
        norm_num at hlo
        linarith
      unfold contentOf share
      dsimp only
      rw [if_neg (by decide), h3]
      have e : ((finalAfter pre * finalAfter pre : ℕ) : ℝ) / (((finalAfter pre + 1) * 2 ^ 23 : ℕ) : ℝ) =
          (finalAfter pre : ℝ) / 2 ^ 23 * (1 + 1 / (finalAfter pre : ℝ))⁻¹ := by
        push_cast
        field_simp
        try ring
      rw [e, Real.logb_mul (by positivity) (by positivity), Real.logb_inv]
      have hl : Real.logb 2 (1 + 1 / (finalAfter pre : ℝ)) ≤ 1 / 690 := by
        have g1 := Real.log_le_sub_one_of_pos (show (0 : ℝ) < 1 + 1 / (finalAfter pre : ℝ) by positivity)
        have g2 : 1 / (finalAfter pre : ℝ) ≤ 1 / 998 := one_div_le_one_div_of_le (by norm_num) hbig
        have g3 := Real.log_two_gt_d9
        rw [Real.logb, div_le_iff₀ (by linarith)]
        linarith
      linarith

theorem trace_content_any {rates : List Nat} (hr : ratesDefault = some rates) (bits : List Bool) : ∀ pre,
    ((estTrace pre bits).map fun ev => contentOf (share ev)).sum ≤
      codeLength (pre ++ bits) - codeLength pre + bits.length / 690 := by
  induction bits with
  | nil => intro pre; simp [estTrace]
  | cons b bits ih =>
    intro pre
    have i := ih (pre ++ [b])
    rw [codeLength_snoc, List.append_assoc, List.singleton_append] at i
    have s := share_loss_any hr pre b
    rw [estTrace, List.map_cons, List.sum_cons, List.length_cons]
    push_cast
    linarith

/-- the content of the coded events -/
theorem trace_total {rates : List Nat} (hr : ratesDefault = some rates) (bits : List Bool) :
    ((estTrace [] bits).map fun ev => contentOf (share ev)).sum ≤ frequencyLength bits + bits.length / 87 + 11100 := by
  have t := trace_content_any hr bits []
  have c : codeLength [] = 0 := rfl
  rw [List.nil_append, c, sub_zero] at t
  have r := C94_regret bits
  have : (0 : ℝ) ≤ bits.length := by positivity
  linarith

/-- **C94 (size and round trip).** Up to 16 billion bits coded with an estimator take, beyond the four final bytes, at most one
bit in 87 and 11100 bits more than a coder that knows the frequencies needs; they are restored exactly and data that follows is
left unread. -/
theorem C94_size (bits : List Bool) (h : bits.length ≤ 16000000000) (trail : List Nat) :
    ∃ bytes, compressEst bits = some bytes ∧ decompressEst (bytes ++ trail) bits.length = some (bits, trail) ∧
      4 ≤ bytes.length ∧ 8 * ((bytes.length : ℝ) - 4) ≤ frequencyLength bits + bits.length / 87 + 11100 := by
  obtain ⟨rates, hr, -⟩ := rates_exist
  obtain ⟨f1, f2, f3⟩ := estTrace_facts bits []
  have tot := trace_total hr bits
  have hfit : emitted (estTrace [] bits) + 5 < 2 ^ 31 := by
    have h1 := (bits_emitted (estTrace [] bits) f1).2
    have h2 := frequency_le_length bits
    have h3 : (bits.length : ℝ) ≤ 16000000000 := by exact_mod_cast h
    have h4 : 8 * (emitted (estTrace [] bits) : ℝ) ≤ 16200000000 := by
      refine h1.trans (tot.trans ?_)
      linarith
    have h5 : (emitted (estTrace [] bits) : ℝ) ≤ 2025000000 := by linarith
    have h6 : emitted (estTrace [] bits) ≤ 2025000000 := by exact_mod_cast h5
    omega
  obtain ⟨bytes, h1, h4, -, h2⟩ := C03_bits (estTrace [] bits) f1 hfit
  obtain ⟨bytes', h1', -, d, hd, hd3⟩ := C01_round_trip (estTrace [] bits) f1 hfit trail
  obtain rfl := Option.some.inj (h1.symm.trans h1')
  have hnew : ∃ s, decNew = some s ∧ replay [] = some s := by
    refine ⟨_, decNew_eq, ?_⟩
    rw [replay_eq hr]
    rfl
  obtain ⟨s, hs, hs'⟩ := hnew
  simp only [encode, Option.bind_eq_bind, Option.bind_eq_some_iff] at h1
  obtain ⟨e, he, hf⟩ := h1
  simp only [decode, Option.bind_eq_bind, Option.bind_eq_some_iff] at hd
  obtain ⟨d0, hd0, hq⟩ := hd
  rw [f3] at hq
  refine ⟨bytes, ?_, ?_, h4, h2.trans tot⟩
  · unfold compressEst
    rw [hr, ob_some, hs, ob_some, packEst_eq hr bits [] s _ _ hs' he, ob_some, hf]
  · unfold decompressEst
    rw [hr, ob_some, hs, ob_some, hd0, ob_some, unpackEst_eq hr bits [] s _ _ hs' hq, ob_some]
    dsimp only
    rw [hd3]

/-- **C94 (runs).** A run of equal bits of any length up to 16 billion takes at most one bit in 87, and 1392 bytes. -/
theorem C94_run (b : Bool) (n : Nat) (hn : n ≤ 16000000000) :
    ∃ bytes, compressEst (List.replicate n b) = some bytes ∧ (bytes.length : ℝ) ≤ 1392 + n / 87 / 8 := by
  obtain ⟨bytes, h1, -, -, h2⟩ := C94_size (List.replicate n b) (by simpa using hn) []
  refine ⟨bytes, h1, ?_⟩
  have e : frequencyLength (List.replicate n b) = 0 := by
    rcases Nat.eq_zero_or_pos n with rfl | h0
    · simp [frequencyLength]
    · have hne : (n : ℝ) ≠ 0 := by positivity
      cases b <;> simp [frequencyLength, List.count_replicate, hne]
  rw [e, List.length_replicate] at h2
  linarith

/-! ## Examples -/

/-- half the bits zero, in any order -/
example (n : ℕ) : Allows (1 / 2) (List.replicate n false ++ List.replicate n true) ∧
    (List.replicate n false ++ List.replicate n true).length = 2 * n :=
  ⟨⟨by norm_num, by norm_num, fun _ => by norm_num, fun _ => by norm_num⟩, by simp; omega⟩

/-- a sequence of zeros only allows the probability 1, which costs nothing -/
example (n : ℕ) : Allows 1 (List.replicate n false) ∧ fixedLength 1 (List.replicate n false) = 0 :=
  ⟨⟨by norm_num, le_rfl, fun _ => by norm_num, fun h => by simp [List.mem_replicate] at h⟩, by simp [fixedLength, List.count_replicate]⟩

end Verif.Est
