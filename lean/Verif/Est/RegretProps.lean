import Verif.Est.Regret

/-!
# C71: the estimator costs little more than knowing the frequency of zeros
-/

namespace Verif.Est

open Verif Verif.Fixed

/-- probability the estimator gives a zero bit after the bits `pre` -/
noncomputable def chanceOfZero (pre : List Bool) : ℝ := (((replay pre).map decPrediction).getD 0 : ℕ) / 2 ^ 31

/-- length in bits of the ideal code of a bit sequence under the predictions of an estimator fed with it -/
noncomputable def codeLength (bits : List Bool) : ℝ :=
  ∑ k ∈ Finset.range bits.length,
    -Real.logb 2 (if bits.getD k false then 1 - chanceOfZero (bits.take k) else chanceOfZero (bits.take k))

/-- length in bits of the ideal code of a bit sequence for a coder that knows the frequencies of zeros and ones in it -/
noncomputable def frequencyLength (bits : List Bool) : ℝ :=
  bits.count false * Real.logb 2 (bits.length / bits.count false) +
    bits.count true * Real.logb 2 (bits.length / bits.count true)

theorem count_sum (bits : List Bool) : bits.count false + bits.count true = bits.length := by
  induction bits with
  | nil => rfl
  | cons b bits ih => cases b <;> simp <;> omega

theorem countZeros_count (bits : List Bool) : countZeros bits = bits.count false := by rw [countZeros_eq]; rfl

theorem codeLength_snoc (bits : List Bool) (b : Bool) : codeLength (bits ++ [b]) =
    codeLength bits + -Real.logb 2 (if b then 1 - chanceOfZero bits else chanceOfZero bits) := by
  unfold codeLength
  rw [List.length_append, List.length_singleton, Finset.sum_range_succ]
  congr 1
  · refine Finset.sum_congr rfl fun k hk => ?_
    rw [Finset.mem_range] at hk
    rw [List.take_append_of_le_length hk.le, List.getD_eq_getElem?_getD, List.getD_eq_getElem?_getD,
      List.getElem?_append_left hk]
  · rw [List.take_append_of_le_length (le_refl _), List.take_length, List.getD_eq_getElem?_getD,
      List.getElem?_append_right (le_refl _), Nat.sub_self]
    rfl

/-- the prediction is near the estimate of Krichevsky and Trofimov -/
theorem chance_near (bits : List Bool) (N : ℕ) (hN : N ≤ 1001) (h : bits.length < N) :
    |((bits.length : ℝ) + 1) * chanceOfZero bits - (bits.count false + 1 / 2)| ≤ 290 * (N : ℝ) ^ 2 / 2 ^ 32 := by
  obtain ⟨e, h1, h2⟩ := C15_error bits (by omega)
  unfold chanceOfZero
  rw [h1, Option.map_some, Option.getD_some]
  rw [countZeros_count] at h2
  have h3 := (Int.cast_le (R := ℝ)).mpr h2
  push_cast at h3
  have hn : (bits.length : ℝ) + 1 ≤ N := by exact_mod_cast h
  have h0 : (0 : ℝ) ≤ bits.length := by positivity
  clear h1 h2
  generalize (bits.length : ℝ) = n at *
  generalize ((decPrediction e : ℕ) : ℝ) = p at *
  generalize ((bits.count false : ℕ) : ℝ) = z at *
  generalize (N : ℝ) = N at *
  have e1 : (n + 1) * (p / 2 ^ 31) - (z + 1 / 2) = ((n + 1) * p - (2 ^ 31 * z + 2 ^ 30)) / 2 ^ 31 := by ring
  rw [e1, abs_div, abs_of_pos (show (0 : ℝ) < 2 ^ 31 by positivity), div_le_div_iff₀ (by positivity) (by positivity)]
  have h4 : 257 * (n * (n - 1)) + 1026 * n ≤ 290 * N ^ 2 := by nlinarith [sq_nonneg (66 * n - 189)]
  rw [show (2 : ℝ) ^ 31 * z + 2 ^ 30 = 2147483648 * z + 1073741824 by norm_num]
  norm_num
  linarith

theorem ideal_comm (a b : ℕ) : ideal a b = ideal b a := by
  unfold ideal
  rw [Nat.add_comm]
  ring

/-- the bound for the bits so far, in nats -/
theorem regret_nats (N : ℕ) (hN : N ≤ 1001) (bits : List Bool) (h : bits.length ≤ N) (h0 : bits ≠ []) :
    codeLength bits * Real.log 2 ≤ Real.log 2 + ideal (bits.count false) (bits.count true) + Real.log bits.length / 2 +
      50 / 43 * (290 * (N : ℝ) ^ 2 / 2 ^ 32) * (spread (bits.count false) + spread (bits.count true)) := by
  have hN2 : (N : ℝ) ≤ 1001 := by exact_mod_cast hN
  have hE0 : (0 : ℝ) ≤ 290 * (N : ℝ) ^ 2 / 2 ^ 32 := by positivity
  have hE1 : 290 * (N : ℝ) ^ 2 / 2 ^ 32 ≤ 7 / 100 := by
    rw [div_le_iff₀ (by positivity)]
    nlinarith [(Nat.cast_nonneg N : (0 : ℝ) ≤ N)]
  have l2 : (0 : ℝ) < Real.log 2 := Real.log_pos (by norm_num)
  have hlog : ∀ x, -Real.logb 2 x * Real.log 2 = -Real.log x := by
    intro x
    unfold Real.logb
    field_simp
  induction bits using List.reverseRecOn with
  | nil => exact absurd rfl h0
  | append_singleton bits b ih =>
    rw [List.length_append, List.length_singleton] at h
    rw [codeLength_snoc, add_mul, hlog]
    have near := chance_near bits N hN (by omega)
    have hs := count_sum bits
    have hcs : (bits.count false : ℝ) + bits.count true = bits.length := by exact_mod_cast hs
    -- the step, for a value seen `a` times
    have key : ∀ (a c : ℕ) (p : ℝ), a + c = bits.length →
        |((bits.length : ℝ) + 1) * p - ((a : ℝ) + 1 / 2)| ≤ 290 * (N : ℝ) ^ 2 / 2 ^ 32 →
        codeLength bits * Real.log 2 + -Real.log p ≤ Real.log 2 + ideal (a + 1) c + Real.log (bits.length + 1 : ℕ) / 2 +
          50 / 43 * (290 * (N : ℝ) ^ 2 / 2 ^ 32) * (spread (a + 1) + spread c) ∨
        ¬(bits ≠ [] → codeLength bits * Real.log 2 ≤ Real.log 2 + ideal a c + Real.log bits.length / 2 +
          50 / 43 * (290 * (N : ℝ) ^ 2 / 2 ^ 32) * (spread a + spread c)) := by
      intro a c p hac hp
      by_cases hi : bits ≠ [] → codeLength bits * Real.log 2 ≤ Real.log 2 + ideal a c + Real.log bits.length / 2 +
          50 / 43 * (290 * (N : ℝ) ^ 2 / 2 ^ 32) * (spread a + spread c)
      · left
        obtain ⟨p0, hw⟩ := wrong_step (a := a) (n := (bits.length : ℝ)) (p := p) (by positivity) hE0 hE1 hp rfl
        rcases List.eq_nil_or_concat bits with rfl | ⟨_, _, hne⟩
        · rw [List.length_nil] at *
          have ha : a = 0 := by omega
          have hc : c = 0 := by omega
          subst ha hc
          have e1 : codeLength [] = 0 := rfl
          have e2 : ideal (0 + 1) 0 = 0 := ideal_first
          have e3 : spread 0 = 0 := by simp [spread]
          have e4 : Real.log (((0 : ℕ) : ℝ) + 1 / 2) = -Real.log 2 := by
            rw [Nat.cast_zero, zero_add, one_div, Real.log_inv]
          rw [e3, sub_zero, Nat.cast_zero, zero_add (1 : ℝ), div_one, ← Nat.cast_zero (R := ℝ), e4] at hw
          rw [e1, e2, e3]
          simp only [zero_add, zero_mul, Nat.cast_one, Real.log_one, zero_div, add_zero]
          simp only [zero_add] at hw
          linarith
        · have hb : bits ≠ [] := by rw [hne]; simp
          have h1 := hi hb
          have h2 := ideal_step a c (by have := List.length_pos_of_ne_nil hb; omega)
          rw [hac] at h2
          set E := 50 / 43 * (290 * (N : ℝ) ^ 2 / 2 ^ 32)
          linarith
      · exact Or.inr hi
    cases b with
    | false =>
      have hz : (bits ++ [false]).count false = bits.count false + 1 := by simp
      have ho : (bits ++ [false]).count true = bits.count true := by simp
      rw [hz, ho, List.length_append, List.length_singleton]
      rcases key _ _ (chanceOfZero bits) hs near with h1 | h1
      · exact h1
      · exact absurd (fun hb => ih (by omega) hb) h1
    | true =>
      have hz : (bits ++ [true]).count false = bits.count false := by simp
      have ho : (bits ++ [true]).count true = bits.count true + 1 := by simp
      rw [hz, ho, List.length_append, List.length_singleton]
      have near' : |((bits.length : ℝ) + 1) * (1 - chanceOfZero bits) - ((bits.count true : ℝ) + 1 / 2)| ≤
          290 * (N : ℝ) ^ 2 / 2 ^ 32 := by
        rw [← abs_neg]
        refine le_trans (le_of_eq ?_) near
        congr 1
        rw [← hcs]
        ring
      rcases key (bits.count true) (bits.count false) (1 - chanceOfZero bits) (by omega) near' with h1 | h1
      · rw [ideal_comm, add_comm (spread (bits.count false))]
        exact h1
      · refine absurd (fun hb => ?_) h1
        have := ih (by omega) hb
        rw [ideal_comm, add_comm (spread (bits.count false))] at this
        exact this

theorem frequency_ideal (bits : List Bool) :
    frequencyLength bits * Real.log 2 = ideal (bits.count false) (bits.count true) := by
  have l2 : (0 : ℝ) < Real.log 2 := Real.log_pos (by norm_num)
  have hs := count_sum bits
  have key : ∀ a : ℕ, a ≤ bits.length → (a : ℝ) * Real.logb 2 (bits.length / a) * Real.log 2 =
      a * Real.log bits.length - a * Real.log a := by
    intro a ha
    rcases Nat.eq_zero_or_pos a with rfl | h0
    · simp
    · have h1 : (a : ℝ) ≠ 0 := by positivity
      have h2 : (bits.length : ℝ) ≠ 0 := by
        have : 0 < bits.length := by omega
        positivity
      rw [Real.logb, Real.log_div h2 h1]
      field_simp
  unfold frequencyLength ideal
  rw [add_mul, key _ (by omega), key _ (by omega), hs, ← hs]
  push_cast
  ring

/-- **C71.** For every sequence of one to 1001 bits, the code for the predictions of an estimator that starts without
knowledge and learns from the bits is at most `log2(n) / 2 + 1` bits, plus a rounding part of at most `2 * (n / 1000) ^ 2`
bits, longer than that of a coder that knows the frequencies of zeros and ones in advance. -/
theorem C71_regret (bits : List Bool) (h0 : bits ≠ []) (h : bits.length ≤ 1001) :
    codeLength bits ≤ frequencyLength bits + Real.logb 2 bits.length / 2 + 1 + 2 * ((bits.length : ℝ) / 1000) ^ 2 := by
  have l2 : (0 : ℝ) < Real.log 2 := Real.log_pos (by norm_num)
  have l3 := Real.log_two_gt_d9
  have h1 := regret_nats bits.length h bits (le_refl _) h0
  rw [← frequency_ideal] at h1
  have h2 : Real.log bits.length = Real.logb 2 bits.length * Real.log 2 := by
    unfold Real.logb
    field_simp
  rw [h2] at h1
  have hs := spread_sum (a := bits.count false) (b := bits.count true) (by rw [count_sum]; exact h)
  have h4 : 50 / 43 * (290 * (bits.length : ℝ) ^ 2 / 2 ^ 32) * (spread (bits.count false) + spread (bits.count true)) ≤
      2 * ((bits.length : ℝ) / 1000) ^ 2 * Real.log 2 := by
    have hn : (0 : ℝ) ≤ (bits.length : ℝ) ^ 2 := by positivity
    have := mul_le_mul_of_nonneg_left hs (show (0 : ℝ) ≤ 50 / 43 * (290 * (bits.length : ℝ) ^ 2 / 2 ^ 32) by positivity)
    nlinarith
  refine le_of_mul_le_mul_right ?_ l2
  linarith

/-- 900 zeros and 100 ones in any order -/
example (bits : List Bool) (h : bits.Perm (List.replicate 900 false ++ List.replicate 100 true)) :
    codeLength bits ≤ frequencyLength bits + Real.logb 2 bits.length / 2 + 1 + 2 * ((bits.length : ℝ) / 1000) ^ 2 := by
  have hl : bits.length = 1000 := by rw [h.length_eq, List.length_append, List.length_replicate, List.length_replicate]
  exact C71_regret bits (fun e => by rw [e] at hl; simp at hl) (by omega)

end Verif.Est
