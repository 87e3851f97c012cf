import Verif.Lut.RealProps
import Mathlib.Analysis.Convex.Deriv
import Mathlib.Analysis.SpecialFunctions.ExpDeriv

/-!
# Squash never makes the rarer bit much too cheap

The absolute error of squash (C47) is comparable with the smallest probabilities. One direction is much better: squash
never falls below the logistic function by more than one part in ten thousand. Straight lines between table points of a
convex function lie above it.
-/

namespace Verif.Lut

open Verif Verif.Fixed Verif.Log2

theorem logistic_mono {x y : ℝ} (h : x ≤ y) : logistic x ≤ logistic y := by
  unfold logistic
  have h1 := Real.exp_pos (-y)
  have h2 : Real.exp (-y) ≤ Real.exp (-x) := Real.exp_le_exp.mpr (by linarith)
  exact one_div_le_one_div_of_le (by linarith) (by linarith)

theorem logistic_zero : logistic 0 = 1 / 2 := by unfold logistic; norm_num

theorem hasDeriv_logistic (x : ℝ) : HasDerivAt logistic (logistic x * (1 - logistic x)) x := by
  have h1 : HasDerivAt (fun y : ℝ => 1 + Real.exp (-y)) (-Real.exp (-x)) x := by
    have := ((hasDerivAt_id x).neg.exp).const_add 1
    simpa using this
  have hp := Real.exp_pos (-x)
  have h2 := h1.inv (by linarith : (1 + Real.exp (-x)) ≠ 0)
  have e : logistic = fun y : ℝ => (1 + Real.exp (-y))⁻¹ := by
    funext y
    unfold logistic
    rw [one_div]
  rw [e]
  refine h2.congr_deriv ?_
  field_simp
  ring

/-- below one half the logistic function is convex -/
theorem logistic_convex : ConvexOn ℝ (Set.Iic 0) logistic := by
  apply MonotoneOn.convexOn_of_deriv (convex_Iic 0)
  · exact fun x _ => (hasDeriv_logistic x).continuousAt.continuousWithinAt
  · exact fun x _ => (hasDeriv_logistic x).differentiableAt.differentiableWithinAt
  · intro x hx y hy hxy
    rw [interior_Iic] at hx hy
    rw [(hasDeriv_logistic x).deriv, (hasDeriv_logistic y).deriv]
    have h1 := logistic_mono hxy
    have h2 := logistic_mono (le_of_lt hy)
    rw [logistic_zero] at h2
    nlinarith

/-- the straight line between two points of the logistic function lies above it -/
theorem chord_above {a b t : ℝ} (ha : a ≤ 0) (hb : b ≤ 0) (t0 : 0 ≤ t) (t1 : t ≤ 1) :
    logistic ((1 - t) * a + t * b) ≤ (1 - t) * logistic a + t * logistic b := by
  have := logistic_convex.2 ha hb (show 0 ≤ 1 - t by linarith) t0 (by ring)
  simpa using this

theorem logistic_odds {p : ℝ} (h0 : 0 < p) (h : p < 2 ^ 31) : logistic (-odds p) = p / 2 ^ 31 := by
  rw [← logit_odds h0 h]
  exact logistic_logit (by positivity) (by rw [div_lt_one (by positivity)]; exact h)

/-- the straight line between two points of the odds, one side -/
theorem chord_odds_above {a h t : ℝ} (ha : 0 < a) (hh : 0 < h) (hb : a + h ≤ 2 ^ 30) (t0 : 0 ≤ t) (t1 : t ≤ 1) :
    odds (a + t * h) ≤ (1 - t) * odds a + t * odds (a + h) := by
  norm_num at hb
  have hth : t * h ≤ h := by nlinarith
  have hth0 : 0 ≤ t * h := by positivity
  have pos : ∀ {p : ℝ}, 0 < p → p ≤ 1073741824 → 0 ≤ odds p := by
    intro p h0 h1
    unfold odds
    apply Real.log_nonneg
    rw [le_div_iff₀ h0]
    norm_num
    linarith
  have p1 := pos ha (by linarith)
  have p2 := pos (show 0 < a + h by linarith) hb
  have c := chord_above (a := -odds a) (b := -odds (a + h)) (by linarith) (by linarith) t0 t1
  rw [logistic_odds ha (by norm_num; linarith), logistic_odds (by linarith) (by norm_num; linarith),
    show (1 - t) * (a / 2 ^ 31) + t * ((a + h) / 2 ^ 31) = (a + t * h) / 2 ^ 31 by ring,
    ← logistic_odds (by linarith) (by norm_num; linarith)] at c
  by_contra hc
  rw [not_le] at hc
  have hlt : -odds (a + t * h) < (1 - t) * -odds a + t * -odds (a + h) := by linarith
  obtain ⟨d1, -⟩ := logistic_diff hlt.le
  have e0 := logistic_pos (-odds (a + t * h))
  have e1 := logistic_lt ((1 - t) * -odds a + t * -odds (a + h))
  have : 0 < ((1 - t) * -odds a + t * -odds (a + h) - -odds (a + t * h)) *
      (logistic (-odds (a + t * h)) * (1 - logistic ((1 - t) * -odds a + t * -odds (a + h)))) := by
    apply mul_pos (by linarith) (mul_pos e0 (by linarith))
  linarith

/-- stretch on a segment of its grid, one side -/
theorem stretchMag_above {n d : Nat} (h0 : 0 < n) (hn : n < 4096) (hd : d < 2 ^ gExp n) :
    odds ((gPoint n + d : ℕ) : ℝ) ≤ (stretchMag (gPoint n + d) : ℝ) / 2 ^ 21 + 8 / 10 ^ 7 := by
  have hp := gPoint_pos h0
  have hw := weight_lt hn hd
  have hcell := stretch_cell hn hd (by omega)
  obtain ⟨a1, a2⟩ := sq31_exact (gVal n) (d * 2 ^ (31 - gExp n))
  obtain ⟨b1, b2⟩ := sq31_exact (gVal (n + 1)) (d * 2 ^ (31 - gExp n))
  have hle := sq31_le (a := gVal n) hw
  have hc : (stretchMag (gPoint n + d) : ℝ) = gVal n - sq31 (gVal n) (d * 2 ^ (31 - gExp n)) +
      sq31 (gVal (n + 1)) (d * 2 ^ (31 - gExp n)) := by
    rw [hcell, Nat.cast_add, Nat.cast_sub hle]
  rw [hc]
  have hs : (0 : ℝ) < 2 ^ gExp n := by positivity
  obtain ⟨t, ht⟩ : ∃ t : ℝ, t = (d : ℝ) / 2 ^ gExp n := ⟨_, rfl⟩
  have t0 : 0 ≤ t := by rw [ht]; positivity
  have t1 : t ≤ 1 := by
    rw [ht, div_le_one hs]
    exact_mod_cast hd.le
  have hdt : (d : ℝ) = t * 2 ^ gExp n := by rw [ht]; field_simp
  have hwt : ((d * 2 ^ (31 - gExp n) : ℕ) : ℝ) = t * 2147483648 := by
    push_cast
    rw [hdt, mul_assoc, ← pow_add, show gExp n + (31 - gExp n) = 31 by have := gExp_le hn; omega]
    norm_num
  have g1 := gVal_real h0 (by omega)
  have g2 := gVal_real (n := n + 1) (by omega) (by omega)
  have hnext : ((gPoint (n + 1) : ℕ) : ℝ) = gPoint n + 2 ^ gExp n := by
    rw [← gPoint_succ]; push_cast; rfl
  have hend : (gPoint n : ℝ) + 2 ^ gExp n ≤ 2 ^ 30 := by
    rw [← hnext]
    have := gPoint_mono (m := n + 1) (n := 4096) (by omega)
    rw [gPoint_end] at this
    exact_mod_cast this
  rw [hnext] at g2
  have hpr : (0 : ℝ) < gPoint n := by exact_mod_cast hp
  have hch := chord_odds_above hpr hs hend t0 t1
  rw [Nat.cast_add, hdt]
  generalize d * 2 ^ (31 - gExp n) = w at *
  have A1 : (2147483648 : ℝ) * sq31 (gVal n) w ≤ gVal n * (t * 2147483648) + 1073741824 := by
    rw [← hwt]; exact_mod_cast a1
  have B2 : (gVal (n + 1) : ℝ) * (t * 2147483648) < 2147483648 * sq31 (gVal (n + 1)) w + 1073741824 := by
    rw [← hwt]; exact_mod_cast b2
  generalize (sq31 (gVal n) w : ℝ) = x at *
  generalize (sq31 (gVal (n + 1)) w : ℝ) = y at *
  generalize (gVal n : ℝ) = l at *
  generalize (gVal (n + 1) : ℝ) = u at *
  generalize odds (gPoint n : ℝ) = O1 at *
  generalize odds ((gPoint n : ℝ) + 2 ^ gExp n) = O2 at *
  generalize odds ((gPoint n : ℝ) + t * 2 ^ gExp n) = O at *
  rw [abs_le] at g1 g2
  have e1 := mul_le_mul_of_nonneg_left g1.1 (show 0 ≤ 1 - t by linarith)
  have e2 := mul_le_mul_of_nonneg_left g2.1 t0
  norm_num at *
  nlinarith

theorem stretch_above {r : Nat} (h1 : 2 ^ 14 ≤ r) (h2 : r < 2 ^ 30) :
    odds (r : ℝ) ≤ (stretchMag r : ℝ) / 2 ^ 21 + 8 / 10 ^ 7 := by
  obtain ⟨n, hn, d, hd, rfl⟩ := cell_exists h2
  have h0 : 0 < n := by
    by_contra hc
    obtain rfl : n = 0 := by omega
    rw [show gPoint 0 = 0 from rfl, show gExp 0 = 14 from rfl] at *
    omega
  exact stretchMag_above h0 hn hd

/-- a probability whose logit is not much larger in magnitude -/
theorem logistic_le_of_odds {r x e : ℝ} (h0 : 0 < r) (h : r < 2 ^ 31) (he : 0 ≤ e) (ho : odds r ≤ x + e) :
    logistic (-x) ≤ r / 2 ^ 31 * (1 + 2 * e) ∨ 1 / 2 < e := by
  by_cases h2 : 1 / 2 < e
  · exact Or.inr h2
  left
  rw [not_lt] at h2
  rw [← logistic_odds h0 h]
  have h3 : logistic (-x - e) ≤ logistic (-odds r) := logistic_mono (by linarith)
  have h4 : logistic (-x) ≤ logistic (-x - e) * (1 + 2 * e) := by
    unfold logistic
    rw [show -(-x - e) = x + e by ring, neg_neg, Real.exp_add]
    have hx := Real.exp_pos x
    have he1 : Real.exp e ≤ 1 + 2 * e := by
      have a := Real.add_one_le_exp (-e)
      have b : Real.exp e * Real.exp (-e) = 1 := by rw [← Real.exp_add]; simp
      have c := Real.exp_pos e
      nlinarith
    rw [div_mul_eq_mul_div, div_le_div_iff₀ (by positivity) (by positivity)]
    nlinarith
  have h5 : logistic (-x - e) * (1 + 2 * e) ≤ logistic (-odds r) * (1 + 2 * e) :=
    mul_le_mul_of_nonneg_right h3 (by linarith)
  linarith

/-- at the table points below one half -/
theorem sqAt_below {k : Nat} (hk : k ≤ 1536) :
    logistic (-((k : ℝ) / 128)) ≤ (sqAt (1536 - k) : ℝ) / 2 ^ 31 * (1 + 2 * (3 / 10 ^ 5)) := by
  have b4 := sqAt_symm (j := 1536 - k) (by omega)
  rw [show 3072 - (1536 - k) = k + 1536 by omega, sqAt_upper] at b4
  rcases Nat.eq_zero_or_pos k with h | h
  · subst h
    rw [squash_zero] at b4
    rw [show sqAt (1536 - 0) = 1073741824 by omega]
    norm_num [logistic]
  by_cases h2 : k ≤ 1508
  · obtain ⟨f1, f2, -⟩ := sq_facts (k := k) (by omega)
    have hb := List.all_eq_true.mp back_ok k (List.mem_range.mpr (by omega))
    unfold backOk at hb
    rw [show Nat.ble k 1508 = true by rw [Nat.ble_eq]; exact h2, cond_true, Bool.and_eq_true, Nat.ble_eq,
      Nat.ble_eq] at hb
    obtain ⟨b3, -⟩ := sqAt_bounds (j := 1536 - k) (by omega)
    have hq : sqField k ≠ 2 ^ 30 := by
      intro h
      rw [h, stMag_half] at hb
      omega
    rw [stMag_upper (by omega)] at hb
    rw [show 2 ^ 31 - sqField k = sqAt (1536 - k) by omega] at hb
    generalize sqAt (1536 - k) = r at *
    have s := stretch_above (r := r) (by omega) (by omega)
    have c1 : (stretchMag r : ℝ) ≤ k * 16384 + 45 := by exact_mod_cast hb.1
    rcases logistic_le_of_odds (r := r) (x := (k : ℝ) / 128) (e := 3 / 10 ^ 5)
      (by have : 0 < r := by omega
          exact_mod_cast this)
      (by have : r < 2 ^ 31 := by omega
          exact_mod_cast this) (by norm_num) (by norm_num at s ⊢; linarith) with h | h
    · exact h
    · norm_num at h
  · have hb := List.all_eq_true.mp back_ok k (List.mem_range.mpr (by omega))
    unfold backOk at hb
    rw [show Nat.ble k 1508 = false by rw [Bool.eq_false_iff, ne_eq, Nat.ble_eq]; exact h2, cond_false,
      Nat.beq_eq] at hb
    rw [show sqAt (1536 - k) = 2 ^ 14 by omega]
    have s := stretch_above (r := 2 ^ 14) (by norm_num) (by norm_num)
    have hm : stretchMag (2 ^ 14) = 24711779 := by decide +kernel
    rw [hm] at s
    have hk' : (1509 : ℝ) ≤ k := by
      have : 1509 ≤ k := by omega
      exact_mod_cast this
    rcases logistic_le_of_odds (r := ((2 ^ 14 : ℕ) : ℝ)) (x := (k : ℝ) / 128) (e := 3 / 10 ^ 5)
      (by norm_num) (by norm_num) (by norm_num) (by norm_num at s ⊢; linarith) with h | h
    · exact h
    · norm_num at h

/-- **C47 (squash, rarer bit).** The probability of the rarer bit given by squash never falls below that of the
logistic function by more than an 8000th of itself. -/
theorem C47_rarer (lut : List (List Int)) (table : List Nat) (hlut : stretchLutNew = some lut)
    (htab : squashLutNew lut = some table) (x : Int) (hx : |x| ≤ 12 * 2 ^ 21) (h0 : x ≤ 0) :
    ∃ r, squash table x = some r ∧ logistic ((x : ℝ) / 2 ^ 21) ≤ (r : ℝ) / 2 ^ 31 * (1 + 1 / 8000) := by
  rw [stretchLut_eq] at hlut
  obtain rfl := Option.some.inj hlut
  rw [squashLut_eq stretchTable_ok] at htab
  obtain rfl := Option.some.inj htab
  obtain ⟨j, d, hd, hj, hjd, rfl⟩ := squash_int hx
  refine ⟨sqOut j d, squash_cell hd hjd, ?_⟩
  have hj2 : j ≤ 1536 := by omega
  have hx : ((((16384 * j + d : ℕ) : ℤ) - 25165824 : ℤ) : ℝ) / 2 ^ 21 =
      (1 - (d : ℝ) / 16384) * -(((1536 - j : ℕ) : ℝ) / 128) + (d : ℝ) / 16384 * -(((1536 - j : ℕ) : ℝ) / 128 - 1 / 128) := by
    rw [Nat.cast_sub hj2]
    push_cast
    norm_num
    ring
  rw [hx]
  have r1 := sqAt_below (k := 1536 - j) (by omega)
  rw [show 1536 - (1536 - j) = j by omega] at r1
  obtain ⟨o1, -⟩ := sqOut_bounds hd hj
  have o1' : (16384 : ℝ) ≤ sqOut j d := by exact_mod_cast o1
  by_cases h : j = 1536
  · obtain rfl : d = 0 := by omega
    rw [sqOut_zero] at *
    norm_num at r1 ⊢
    linarith
  · have r2 := sqAt_below (k := 1536 - (j + 1)) (by omega)
    rw [show 1536 - (1536 - (j + 1)) = j + 1 by omega,
      show ((1536 - (j + 1) : ℕ) : ℝ) / 128 = ((1536 - j : ℕ) : ℝ) / 128 - 1 / 128 by
        rw [Nat.cast_sub hj2, Nat.cast_sub (by omega)]; push_cast; ring] at r2
    have t0 : (0 : ℝ) ≤ (d : ℝ) / 16384 := by positivity
    have t1 : (d : ℝ) / 16384 ≤ 1 := by
      rw [div_le_one (by norm_num)]
      exact_mod_cast hd.le
    have hk1 : (1 : ℝ) ≤ ((1536 - j : ℕ) : ℝ) := by
      have : 1 ≤ 1536 - j := by omega
      exact_mod_cast this
    have ch := chord_above (a := -(((1536 - j : ℕ) : ℝ) / 128)) (b := -(((1536 - j : ℕ) : ℝ) / 128 - 1 / 128))
      (by linarith) (by linarith) t0 t1
    have hle := sq31_le (a := sqAt j) (w := d * 131072) (by omega)
    have hout : (sqOut j d : ℝ) = sqAt j - sq31 (sqAt j) (d * 131072) + sq31 (sqAt (j + 1)) (d * 131072) := by
      unfold sqOut
      rw [if_neg (by omega), Nat.cast_add, Nat.cast_sub hle]
    obtain ⟨a1, -⟩ := sq31_exact (sqAt j) (d * 131072)
    obtain ⟨-, b2⟩ := sq31_exact (sqAt (j + 1)) (d * 131072)
    have a1' : 2147483648 * (sq31 (sqAt j) (d * 131072) : ℝ) ≤ sqAt j * (d * 131072) + 1073741824 := by
      exact_mod_cast a1
    have b2' : (sqAt (j + 1) : ℝ) * (d * 131072) ≤ 2147483648 * sq31 (sqAt (j + 1)) (d * 131072) + 1073741824 := by
      exact_mod_cast b2.le
    generalize (sqOut j d : ℝ) = o at *
    generalize (sq31 (sqAt j) (d * 131072) : ℝ) = s1 at *
    generalize (sq31 (sqAt (j + 1)) (d * 131072) : ℝ) = s2 at *
    generalize (sqAt j : ℝ) = l at *
    generalize (sqAt (j + 1) : ℝ) = r at *
    generalize logistic (-(((1536 - j : ℕ) : ℝ) / 128)) = A at *
    generalize logistic (-(((1536 - j : ℕ) : ℝ) / 128 - 1 / 128)) = B at *
    generalize logistic _ = X at *
    obtain ⟨t, ht⟩ : ∃ t : ℝ, t = (d : ℝ) / 16384 := ⟨_, rfl⟩
    have hdt : (d : ℝ) = t * 16384 := by rw [ht]; ring
    rw [← ht] at t0 t1 ch
    rw [hdt] at a1' b2'
    have c1 := mul_le_mul_of_nonneg_left r1 (show 0 ≤ 1 - t by linarith)
    have c2 := mul_le_mul_of_nonneg_left r2 t0
    have key : (1 - t) * l + t * r ≤ o + 1 := by
      rw [hout]
      linarith
    have key2 : X ≤ ((1 - t) * l + t * r) / 2 ^ 31 * (1 + 2 * (3 / 10 ^ 5)) := by
      refine le_trans ch (le_trans (add_le_add c1 c2) (le_of_eq ?_))
      ring
    norm_num at key2 ⊢
    linarith

example : |(-24000000 : Int)| ≤ 12 * 2 ^ 21 ∧ (-24000000 : Int) ≤ 0 := by norm_num

end Verif.Lut
