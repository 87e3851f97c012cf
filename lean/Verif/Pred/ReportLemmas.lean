import Verif.Pred.ReportModel
import Verif.Pred.Report

/-! # Lemmas for the report of the program (C74) -/

namespace Verif.Pred

open Verif Verif.Coding Verif.Float Verif.Fixed

theorem fl_isF64 {q r : ℚ} (h : fl q = some r) : IsF64 r := by
  unfold fl at h
  split_ifs at h with hb
  obtain rfl := Option.some.inj h
  exact ⟨fits_rounded (by norm_num) _ _, hb⟩

theorem fl_nearest {q : ℚ} (h : |q| ≤ 2 ^ 1023) : fl q = some (rnd q) ∧ NearestF64 q (rnd q) :=
  ⟨fl_some h, isF64_rnd h, fun _ hy => rounded_best (by norm_num) q hy.1⟩

theorem rnd_nonneg {q : ℚ} (h : 0 ≤ q) : 0 ≤ rnd q := by
  have := rounded_mono (p := 53) (by norm_num) (-1074) h
  rwa [rounded_zero] at this

/-- a positive result of moderate size -/
theorem fl_rel {q : ℚ} (h1 : 1 / 2 ^ 200 ≤ q) (h2 : q ≤ 2 ^ 200) : ∃ r, fl q = some r ∧ 0 < r ∧ |r - q| ≤ q / 2 ^ 53 := by
  have hq : 0 < q := lt_of_lt_of_le (by positivity) h1
  have ha : |q| = q := abs_of_pos hq
  have hr := rnd_relative (q := q) (by
    rw [ha]
    refine le_trans ?_ h1
    rw [show (1 : ℚ) / 2 ^ 200 = 2 ^ (-200 : ℤ) by norm_num]
    exact zpow_le_zpow_right₀ (by norm_num) (by norm_num))
  rw [ha, show (2 : ℚ) ^ (-53 : ℤ) = 1 / 2 ^ 53 by norm_num, mul_one_div] at hr
  refine ⟨rnd q, fl_some (by rw [ha]; exact h2.trans (pow_le_pow_right₀ (by norm_num) (by norm_num))), ?_, hr⟩
  have := (abs_le.mp hr).1
  have : q / 2 ^ 53 ≤ q / 2 := by
    apply div_le_div_of_nonneg_left hq.le (by norm_num) (by norm_num)
  linarith

/-- division of positive numbers of moderate size -/
theorem div_rel {a b : ℚ} (ha : 1 / 2 ^ 100 ≤ a) (ha' : a ≤ 2 ^ 100) (hb : 1 / 2 ^ 100 ≤ b) (hb' : b ≤ 2 ^ 100) :
    ∃ r, numDiv a b = .fin r ∧ 0 < r ∧ |r - a / b| ≤ a / b / 2 ^ 53 := by
  have pa : 0 < a := lt_of_lt_of_le (by positivity) ha
  have pb : 0 < b := lt_of_lt_of_le (by positivity) hb
  obtain ⟨r, h1, h2, h3⟩ := fl_rel (q := a / b)
    (by rw [le_div_iff₀ pb]
        refine le_trans ?_ ha
        calc (1 : ℚ) / 2 ^ 200 * b ≤ 1 / 2 ^ 200 * 2 ^ 100 := mul_le_mul_of_nonneg_left hb' (by positivity)
          _ = 1 / 2 ^ 100 := by norm_num)
    (by rw [div_le_iff₀ pb]
        refine ha'.trans ?_
        calc (2 : ℚ) ^ 100 = 2 ^ 200 * (1 / 2 ^ 100) := by norm_num
          _ ≤ 2 ^ 200 * b := mul_le_mul_of_nonneg_left hb (by positivity))
  refine ⟨r, ?_, h2, h3⟩
  unfold numDiv fDiv
  rw [if_neg pb.ne', if_neg pb.ne', h1]
  rfl

/-- dividing by 8 is exact -/
theorem eighth {x : ℚ} (hx : IsF64 x) (h : x = 0 ∨ 1 / 2 ^ 100 ≤ x) (h2 : x ≤ 2 ^ 100) : numDiv x 8 = .fin (x / 8) := by
  unfold numDiv fDiv
  rw [if_neg (by norm_num), if_neg (by norm_num)]
  rcases h with rfl | h
  · rw [zero_div, show fl 0 = some 0 by
      have := fl_fits (isF64_int (m := 0) (k := 0) (by norm_num) (by norm_num) (by norm_num))
      rwa [Int.cast_zero, zero_mul] at this]
    rfl
  · obtain ⟨⟨m, k, hm, hk, rfl⟩, -⟩ := hx
    have hpos : (0 : ℚ) < m * 2 ^ k := lt_of_lt_of_le (by positivity) h
    have hlt := fits_abs (k := k) hm
    rw [abs_of_pos hpos] at hlt
    have hk1 : -100 < (53 : ℤ) + k := by
      rw [show (1 : ℚ) / 2 ^ 100 = 2 ^ (-100 : ℤ) by norm_num] at h
      exact (zpow_lt_zpow_iff_right₀ (show (1 : ℚ) < 2 by norm_num)).mp (lt_of_le_of_lt h hlt)
    have hf : IsF64 ((m : ℚ) * 2 ^ k / 8) := by
      refine ⟨⟨m, k - 3, hm, by omega, ?_⟩, ?_⟩
      · rw [zpow_sub₀ (by norm_num)]
        norm_num
        ring
      · rw [abs_of_pos (by positivity)]
        calc (m : ℚ) * 2 ^ k / 8 ≤ m * 2 ^ k := by linarith
          _ ≤ 2 ^ 100 := h2
          _ < 2 ^ 1024 := pow_lt_pow_right₀ (by norm_num) (by norm_num)
    rw [fl_fits hf]
    rfl

theorem costTotal_isF64 {lg : ℚ → ℚ} : ∀ (fs : List ℕ) (bits : List Bool) (a T : ℚ), IsF64 a →
    costTotal lg a fs bits = some T → IsF64 T := by
  intro fs
  induction fs with
  | nil =>
    intro bits a T ha h
    cases bits <;> exact Option.some.inj h ▸ ha
  | cons f fs ih =>
    intro bits a T ha h
    cases bits with
    | nil => exact Option.some.inj h ▸ ha
    | cons b bits =>
      rw [costTotal] at h
      cases hs : costStep lg a f b with
      | none => rw [hs] at h; cases h
      | some r =>
        rw [hs, ob_some] at h
        refine ih bits r T ?_ h
        unfold costStep at hs
        cases hp : asF64U finalProbability f with
        | none => rw [hp] at hs; cases hs
        | some p =>
          rw [hp, ob_some] at hs
          cases b with
          | false => exact fl_isF64 hs
          | true =>
            rw [if_pos rfl] at hs
            cases hq : fSub 1 p with
            | none => rw [hq] at hs; cases hs
            | some q => rw [hq, ob_some] at hs; exact fl_isF64 hs

theorem estimate_bounds : ∀ {fs : List ℕ}, (∀ f ∈ fs, 1 ≤ f ∧ f < 2 ^ 23) → ∀ {bits : List Bool}, fs.length = bits.length →
    (fs.length : ℝ) / 2 ^ 23 ≤ estimate fs bits ∧ estimate fs bits ≤ 23 * fs.length := by
  intro fs
  induction fs with
  | nil => intro _ bits _; simp [estimate]
  | cons f fs ih =>
    intro h bits hl
    cases bits with
    | nil => cases hl
    | cons b bits =>
      obtain ⟨h1, h2⟩ := ih (fun f hf => h f (by simp [hf])) (bits := bits) (by simpa using hl)
      obtain ⟨f1, f2⟩ := h f (by simp)
      obtain ⟨c, -, -, h3, h4⟩ := costStep_eq (lg := fun _ => 0) (d := 1) (fun g g1 g2 => by simp) (a := 0) f1 f2 b
      have e : estimate (f :: fs) (b :: bits) = -Real.logb 2 (chance f b) + estimate fs bits := by
        simp only [estimate, List.zipWith_cons_cons, List.sum_cons]
      rw [e, List.length_cons]
      push_cast
      rw [add_div]
      constructor <;> linarith

/-- time between two readings -/
theorem seconds_some {s n : ℕ} (h : s ≤ n) (hb : n - s < 2 ^ 64 * 1000000000) : ∃ r, secondsBetween s n = some r ∧ 0 ≤ r ∧
    (n = s → r = 0) ∧ |r - ((n - s : ℕ) : ℚ) / 1000000000| ≤ ((n - s : ℕ) : ℚ) / 1000000000 / 2 ^ 51 := by
  unfold secondsBetween
  rw [check_pos h, ob_some]
  generalize hD : n - s = D at hb
  have hsec : D / 1000000000 < 2 ^ 64 := by omega
  have hns : D % 1000000000 < 2 ^ 30 := by omega
  have hsum : (D : ℚ) / 1000000000 = ((D / 1000000000 : ℕ) : ℚ) + ((D % 1000000000 : ℕ) : ℚ) / 1000000000 := by
    have : (D : ℚ) = 1000000000 * ((D / 1000000000 : ℕ) : ℚ) + ((D % 1000000000 : ℕ) : ℚ) := by
      exact_mod_cast (Nat.div_add_mod D 1000000000).symm
    rw [this]
    ring
  have hsq : ((D / 1000000000 : ℕ) : ℚ) ≤ 2 ^ 64 := by exact_mod_cast hsec.le
  have hnq : ((D % 1000000000 : ℕ) : ℚ) ≤ 2 ^ 30 := by exact_mod_cast hns.le
  have hn0 : (n = s) → D = 0 := by omega
  generalize hA : D / 1000000000 = A at *
  generalize hB : D % 1000000000 = B at *
  -- the seconds
  obtain ⟨a, ea, a0, az, ra⟩ : ∃ a, intoF64 (A : ℤ) = some a ∧ 0 ≤ a ∧ (A = 0 → a = 0) ∧ |a - A| ≤ (A : ℚ) / 2 ^ 53 := by
    rcases Nat.eq_zero_or_pos A with rfl | hp
    · exact ⟨0, by
        have := intoF64_small (z := 0) (by norm_num)
        simpa using this, le_refl _, fun _ => rfl, by simp⟩
    · have hp' : (1 : ℚ) ≤ A := by exact_mod_cast hp
      obtain ⟨r, h1, h2, h3⟩ := fl_rel (q := (A : ℚ)) (le_trans (by norm_num) hp')
        (hsq.trans (pow_le_pow_right₀ (by norm_num) (by norm_num)))
      refine ⟨r, ?_, h2.le, by omega, h3⟩
      unfold intoF64
      rw [Int.cast_natCast]
      exact h1
  have hn53 : |(B : ℤ)| ≤ 2 ^ 53 := by
    rw [abs_of_nonneg (by omega)]
    exact_mod_cast (by omega : B ≤ 2 ^ 53)
  have eb := intoF64_small hn53
  rw [Int.cast_natCast] at eb
  rw [ea, ob_some, eb, ob_some]
  -- the literal
  obtain ⟨c, hc, c0, rc⟩ := fl_rel (q := 1 / 1000000000) (by norm_num) (by norm_num)
  have hnano : nano = c := by
    have := fl_some (q := 1 / 1000000000) (by
      rw [abs_of_pos (by norm_num)]
      exact le_trans (by norm_num) (one_le_pow₀ (by norm_num)))
    rw [hc] at this
    exact (Option.some.inj this).symm
  rw [hnano]
  -- the product
  obtain ⟨m, em, m0, mz, rm⟩ : ∃ m, fMul (B : ℚ) c = some m ∧ 0 ≤ m ∧ (B = 0 → m = 0) ∧
      |m - (B : ℚ) * c| ≤ (B : ℚ) * c / 2 ^ 53 := by
    rcases Nat.eq_zero_or_pos B with rfl | hp
    · refine ⟨0, ?_, le_refl _, fun _ => rfl, by simp⟩
      have := fl_fits (isF64_int (m := 0) (k := 0) (by norm_num) (by norm_num) (by norm_num))
      rw [Int.cast_zero, zero_mul] at this
      unfold fMul
      rw [Nat.cast_zero, zero_mul]
      exact this
    · have hp' : (1 : ℚ) ≤ B := by exact_mod_cast hp
      have c1 : (1 : ℚ) / 2 ^ 40 ≤ c := by
        have := (abs_le.mp rc).1
        norm_num at this ⊢
        linarith
      have c2 : c ≤ 1 := by
        have := (abs_le.mp rc).2
        norm_num at this ⊢
        linarith
      obtain ⟨r, h1, h2, h3⟩ := fl_rel (q := (B : ℚ) * c)
        (by calc (1 : ℚ) / 2 ^ 200 ≤ 1 * (1 / 2 ^ 40) := by norm_num
              _ ≤ B * c := mul_le_mul hp' c1 (by positivity) (by positivity))
        (by calc (B : ℚ) * c ≤ 2 ^ 30 * 1 := mul_le_mul hnq c2 c0.le (by positivity)
              _ ≤ 2 ^ 200 := by norm_num)
      exact ⟨r, h1, h2.le, by omega, h3⟩
  rw [em, ob_some]
  obtain ⟨a1, a2⟩ := abs_le.mp ra
  obtain ⟨m1, m2⟩ := abs_le.mp rm
  obtain ⟨c1, c2⟩ := abs_le.mp rc
  have hB0 : (0 : ℚ) ≤ B := by positivity
  have hA0 : (0 : ℚ) ≤ A := by positivity
  have k1 : (B : ℚ) * c ≤ B * (1 / 1000000000 + 1 / 1000000000 / 2 ^ 53) := mul_le_mul_of_nonneg_left (by linarith) hB0
  have k2 : (B : ℚ) * (1 / 1000000000 - 1 / 1000000000 / 2 ^ 53) ≤ B * c := mul_le_mul_of_nonneg_left (by linarith) hB0
  generalize hm' : (B : ℚ) * c = y at *
  rcases Nat.eq_zero_or_pos D with hz | hp
  · have hA' : A = 0 := by omega
    have hB' : B = 0 := by omega
    refine ⟨0, ?_, le_refl _, fun _ => rfl, by rw [hz]; simp⟩
    rw [az hA', mz hB']
    have := fl_fits (isF64_int (m := 0) (k := 0) (by norm_num) (by norm_num) (by norm_num))
    rw [Int.cast_zero, zero_mul] at this
    unfold fAdd
    rw [add_zero]
    exact this
  · have hD' : (1 : ℚ) ≤ D := by exact_mod_cast hp
    have hS : |a + m - (D : ℚ) / 1000000000| ≤ (D : ℚ) / 1000000000 * (21 / 10 / 2 ^ 53) := by
      rw [hsum, abs_le]
      constructor
      · norm_num at *; linarith
      · norm_num at *; linarith
    obtain ⟨s1, s2⟩ := abs_le.mp hS
    have hDb : (D : ℚ) / 1000000000 ≤ 2 ^ 66 := by
      rw [hsum]
      linarith
    have hDl : (1 : ℚ) / 2 ^ 30 ≤ (D : ℚ) / 1000000000 := by
      linarith
    obtain ⟨r, h1, h2, h3⟩ := fl_rel (q := a + m) (by linarith) (by linarith)
    refine ⟨r, h1, h2.le, fun h => absurd (hn0 h) (by omega), ?_⟩
    obtain ⟨g1, g2⟩ := abs_le.mp h3
    rw [abs_le]
    constructor
    · linarith
    · linarith

end Verif.Pred
