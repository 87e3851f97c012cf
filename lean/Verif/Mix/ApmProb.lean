import Verif.Mix.LearnProps
import Verif.Mix.ProbSpec

/-!
# Lemmas about what a map pays while it learns probabilities

All logarithms are natural in the first part. `s = 1/64` is the step, `r` the probability of the coded bit by the list,
`t = s / r`.
-/

namespace Verif.Mix

open Verif Verif.Fixed Verif.Lut

/-! ## Real numbers -/

/-- an average has at least the average of the logarithms -/
theorem log_mix {x y w : ℝ} (hx : 0 < x) (hy : 0 < y) (h0 : 0 ≤ w) (h1 : w ≤ 1) :
    (1 - w) * Real.log x + w * Real.log y ≤ Real.log ((1 - w) * x + w * y) := by
  have h := strictConcaveOn_log_Ioi.concaveOn.2 (Set.mem_Ioi.mpr hx) (Set.mem_Ioi.mpr hy)
    (show 0 ≤ 1 - w by linarith) h0 (by ring)
  simpa only [smul_eq_mul] using h

theorem log_ge {x : ℝ} (hx : 0 < x) : 1 - 1 / x ≤ Real.log x := by
  have := Real.one_sub_inv_le_log_of_pos hx
  rwa [← one_div] at this

/-- how much the loss grows with the step -/
theorem loss_grows {s t : ℝ} (hs : 0 < s) (hst : s ≤ t) (ht : t < 1) :
    (1 / s - 1) * -Real.log (1 - s) - (1 / t - 1) * -Real.log (1 - t) ≤ (t - s) / (1 - s) := by
  have hs1 : 0 < 1 - s := by linarith
  have ht0 : 0 < t := by linarith
  have ht1 : 0 < 1 - t := by linarith
  -- the logarithm at `t` by that at `s`
  have h1 : -Real.log (1 - s) + (t - s) / (1 - s) ≤ -Real.log (1 - t) := by
    have := log_ge (x := (1 - s) / (1 - t)) (by positivity)
    rw [Real.log_div hs1.ne' ht1.ne'] at this
    have e : 1 - 1 / ((1 - s) / (1 - t)) = (t - s) / (1 - s) := by field_simp; ring
    linarith
  have h2 : (1 / s - 1) * -Real.log (1 - s) ≤ 1 := by
    have := log_ge hs1
    have e : 1 - 1 / (1 - s) = -(s / (1 - s)) := by field_simp; ring
    have h3 : -Real.log (1 - s) ≤ s / (1 - s) := by linarith
    have h4 : 0 ≤ 1 / s - 1 := by rw [sub_nonneg, le_div_iff₀ hs]; linarith
    have := mul_le_mul_of_nonneg_left h3 h4
    have e2 : (1 / s - 1) * (s / (1 - s)) = 1 := by field_simp
    linarith
  have h4 : 0 ≤ 1 / t - 1 := by rw [sub_nonneg, le_div_iff₀ ht0]; linarith
  have h5 := mul_le_mul_of_nonneg_left h1 h4
  generalize -Real.log (1 - s) = l at *
  generalize -Real.log (1 - t) = k at *
  have e1 : (1 / s - 1) * l - (1 / t - 1) * (l + (t - s) / (1 - s)) =
      (t - s) / (t * (1 - s)) * ((1 / s - 1) * l - (1 - t)) := by field_simp; ring
  have e2 : (t - s) / (1 - s) = (t - s) / (t * (1 - s)) * t := by field_simp
  have h6 : 0 ≤ (t - s) / (t * (1 - s)) := div_nonneg (by linarith) (by positivity)
  have h7 := mul_le_mul_of_nonneg_left (show (1 / s - 1) * l - (1 - t) ≤ t by linarith) h6
  linarith

/-- one step towards the coded bit pays for it, compared with the probability `r` -/
theorem step_pays {r A : ℝ} (hr : 1 / 32 ≤ r) (hr1 : r ≤ 1) (hA : 0 < A) :
    Real.log r + Real.log A ≤ 64 * (r * Real.log (1 - 1 / 64 + 1 / 64 * A) + (1 - r) * Real.log (1 - 1 / 64)) +
      (1 - r) / (63 * r) := by
  have hr0 : 0 < r := by linarith
  obtain ⟨t, ht⟩ : ∃ t : ℝ, t = 1 / 64 / r := ⟨_, rfl⟩
  have htr : t * r = 1 / 64 := by rw [ht]; field_simp
  have ht0 : 0 < t := by rw [ht]; positivity
  have ht1 : t ≤ 1 / 2 := by rw [ht, div_le_iff₀ hr0]; linarith
  have hts : 1 / 64 ≤ t := by rw [ht, le_div_iff₀ hr0]; linarith
  have hg := loss_grows (s := 1 / 64) (t := t) (by norm_num) hts (by linarith)
  have hm := log_mix (x := (1 - 1 / 64) / (1 - t)) (y := r * A) (w := t) (div_pos (by norm_num) (by linarith)) (by positivity)
    ht0.le (by linarith)
  have e1 : (1 - t) * ((1 - 1 / 64) / (1 - t)) + t * (r * A) = 1 - 1 / 64 + 1 / 64 * A := by
    have : 1 - t ≠ 0 := by linarith
    rw [← mul_assoc, htr]
    field_simp
  rw [e1, Real.log_mul hr0.ne' hA.ne', Real.log_div (by norm_num) (by linarith)] at hm
  have h64 : 64 * r = 1 / t := by rw [ht]; field_simp
  have e2 : (t - 1 / 64) / (1 - 1 / 64) = (1 - r) / (63 * r) := by rw [ht]; field_simp; ring
  rw [e2] at hg
  generalize Real.log (1 - 1 / 64 + 1 / 64 * A) = v at *
  generalize Real.log (1 - 1 / 64) = l at *
  generalize Real.log (1 - t) = k at *
  have h1 := mul_le_mul_of_nonneg_left hm (show 0 ≤ 1 / t by positivity)
  have e3 : 1 / t * ((1 - t) * (l - k) + t * (Real.log r + Real.log A)) =
    (1 / t - 1) * (l - k) + (Real.log r + Real.log A) := by field_simp
  rw [e3] at h1
  have e4 : 64 * (r * v + (1 - r) * l) = 1 / t * v + 64 * l - 1 / t * l := by rw [← h64]; ring
  rw [e4]
  rw [show (1 / (1 / 64) - 1 : ℝ) = 63 by norm_num] at hg
  linarith

/-! ## Entries -/

/-- entries below 2048 are worth no more than that -/
noncomputable def atLeast (y : ℝ) : ℝ := max y 2048

theorem atLeast_pos (y : ℝ) : 0 < atLeast y := lt_of_lt_of_le (by norm_num) (le_max_right y 2048)

theorem atLeast_mono {x y : ℝ} (h : x ≤ y) : Real.log (atLeast x) ≤ Real.log (atLeast y) :=
  Real.log_le_log (atLeast_pos x) (max_le_max_right _ h)

/-- the other side loses little -/
theorem other_side {z z' : ℝ} (h : z - z / 64 - 1 / 2 ≤ z') :
    Real.log (4031 / 4096) ≤ Real.log (atLeast z') - Real.log (atLeast z) := by
  rw [← Real.log_div (atLeast_pos _).ne' (atLeast_pos _).ne']
  refine Real.log_le_log (by norm_num) ?_
  rw [div_le_div_iff₀ (by norm_num) (atLeast_pos _)]
  unfold atLeast
  have h1 := le_max_right z' 2048
  have h2 := le_max_left z' 2048
  by_cases hz : z ≤ 2048
  · rw [max_eq_right hz]
    linarith
  · rw [max_eq_left (by linarith)]
    linarith

theorem log_other : -(65 / 4031) ≤ Real.log (4031 / 4096) ∧ Real.log (1 - 1 / 64) - 1 / 4031 ≤ Real.log (4031 / 4096) := by
  constructor
  · have := log_ge (x := 4031 / 4096) (by norm_num)
    norm_num at this ⊢
    linarith
  · have h := log_ge (x := 4031 / 4032) (by norm_num)
    have e : (4031 : ℝ) / 4096 = (1 - 1 / 64) * (4031 / 4032) := by norm_num
    rw [e, Real.log_mul (by norm_num) (by norm_num)]
    norm_num at h ⊢
    linarith

/-- what two sides gain, in units of the step -/
noncomputable def gain (r y y' z z' : ℝ) : ℝ :=
  64 * (r * (Real.log (atLeast y') - Real.log (atLeast y)) + (1 - r) * (Real.log (atLeast z') - Real.log (atLeast z)))

theorem gain_ge {r y y' z z' : ℝ} (hr0 : 0 ≤ r) (hr1 : r ≤ 1) (hy : y ≤ y') (hz : z - z / 64 - 1 / 2 ≤ z') :
    -(4160 / 4031 * (1 - r)) ≤ gain r y y' z z' := by
  have h1 := mul_nonneg hr0 (sub_nonneg.mpr (atLeast_mono hy))
  have h2 := mul_le_mul_of_nonneg_left (log_other.1.trans (other_side hz)) (show 0 ≤ 1 - r by linarith)
  unfold gain
  linarith

/-- the total towards which an entry learns -/
theorem gain_pays {r y y' z z' : ℝ} (hr : 1 / 32 ≤ r) (hr1 : r ≤ 1) (hy : 2 ≤ y)
    (hy' : y + (2 ^ 31 - 31 - y) / 64 ≤ y') (hle : y ≤ y') (hz : z - z / 64 - 1 / 2 ≤ z') :
    Real.log r + (Real.log (2 ^ 31 - 31) - Real.log y) ≤ gain r y y' z z' + (1 - r) / (63 * r) + 64 / 4031 * (1 - r) := by
  have hr0 : 0 < r := by linarith
  have ho := other_side hz
  have h1r : 0 ≤ 1 - r := by linarith
  by_cases hb : 2048 ≤ y
  · have hy0 : 0 < y := by linarith
    have hsp := step_pays hr hr1 (A := (2 ^ 31 - 31) / y) (by apply div_pos _ hy0; norm_num)
    rw [Real.log_div (by norm_num) hy0.ne'] at hsp
    have ha : atLeast y = y := max_eq_left hb
    have ha' : atLeast y' = y' := max_eq_left (by linarith)
    have e : (1 : ℝ) - 1 / 64 + 1 / 64 * ((2 ^ 31 - 31) / y) = (y + (2 ^ 31 - 31 - y) / 64) / y := by field_simp; ring
    have hv : Real.log (1 - 1 / 64 + 1 / 64 * ((2 ^ 31 - 31) / y)) ≤ Real.log y' - Real.log y := by
      rw [e, ← Real.log_div (by linarith) hy0.ne']
      refine Real.log_le_log (div_pos ?_ hy0) (div_le_div_of_nonneg_right hy' hy0.le)
      norm_num at *
      linarith
    have m1 := mul_le_mul_of_nonneg_left hv hr0.le
    have m2 := mul_le_mul_of_nonneg_left (log_other.2.trans ho) h1r
    unfold gain
    rw [ha, ha']
    linarith
  · rw [not_le] at hb
    have ha : atLeast y = 2048 := max_eq_right hb.le
    have hy25 : (2 : ℝ) ^ 25 ≤ y' := by norm_num at hy' ⊢; linarith
    have ha' : Real.log (2 ^ 25) ≤ Real.log (atLeast y') :=
      Real.log_le_log (by norm_num) (hy25.trans (le_max_left _ _))
    have hl25 : Real.log ((2 : ℝ) ^ 25) = 25 * Real.log 2 := by rw [Real.log_pow]; norm_num
    have hl11 : Real.log (2048 : ℝ) = 11 * Real.log 2 := by
      rw [show (2048 : ℝ) = 2 ^ 11 by norm_num, Real.log_pow]; norm_num
    have hl31 : Real.log ((2 : ℝ) ^ 31 - 31) ≤ 31 * Real.log 2 := by
      have : Real.log ((2 : ℝ) ^ 31 - 31) ≤ Real.log (2 ^ 31) := Real.log_le_log (by norm_num) (by norm_num)
      rw [Real.log_pow] at this
      norm_num at this ⊢
      exact this
    have hly : Real.log 2 ≤ Real.log y := Real.log_le_log (by norm_num) hy
    have hlr : Real.log r ≤ 32 * r - 1 - 5 * Real.log 2 := by
      have := Real.log_le_sub_one_of_pos (show 0 < 32 * r by linarith)
      rw [Real.log_mul (by norm_num) hr0.ne', show (32 : ℝ) = 2 ^ 5 by norm_num, Real.log_pow] at this
      push_cast at this
      linarith
    have m1 := mul_le_mul_of_nonneg_left (show 14 * Real.log 2 ≤ Real.log (atLeast y') - Real.log 2048 by linarith) hr0.le
    have m2 := mul_le_mul_of_nonneg_left (log_other.1.trans ho) h1r
    have hln := Real.log_two_gt_d9
    have h0 : 0 ≤ (1 - r) / (63 * r) := by positivity
    unfold gain
    rw [ha]
    generalize Real.log (atLeast y') = a at *
    generalize Real.log (atLeast z') - Real.log (atLeast z) = d at *
    generalize Real.log 2 = l at *
    have m3 : 0 ≤ (r - 1 / 32) * (l - 1 / 2) := mul_nonneg (by linarith) (by norm_num at hln ⊢; linarith)
    generalize (1 - r) / (63 * r) = e at *
    generalize Real.log (2 ^ 31 - 31) = L at *
    generalize r * (a - Real.log 2048) = u at *
    generalize (1 - r) * d = v at *
    have m4 : 448 * r + 28 * l - 14 ≤ 896 * (r * l) := by linarith
    norm_num at hln
    linarith

/-! ## Two entries -/

/-- what an entry has left to learn about a probability -/
noncomputable def probWorth (list : Nat → Option ℝ) (c x : Nat) : ℝ :=
  match list c with
  | none => 0
  | some q => q * price (atLeast (sideOf false x : ℕ)) + (1 - q) * price (atLeast (sideOf true x : ℕ))

theorem price_log (y : ℝ) : price y * Real.log 2 = 31 * Real.log 2 - Real.log y := by
  have : Real.log 2 ≠ 0 := (Real.log_pos (by norm_num)).ne'
  unfold price Real.logb
  field_simp

/-- the sides of an entry before and after it learns a bit -/
theorem learned_sides {bit : Bool} {x : Nat} (hx : EntryOk x) :
    (2 : ℝ) ≤ (sideOf bit x : ℕ) ∧
    ((sideOf bit x : ℕ) : ℝ) + (2 ^ 31 - 31 - (sideOf bit x : ℕ)) / 64 ≤ (sideOf bit (learned bit (2 ^ 30) 5 x) : ℕ) ∧
    ((sideOf bit x : ℕ) : ℝ) ≤ (sideOf bit (learned bit (2 ^ 30) 5 x) : ℕ) ∧
    ((sideOf (!bit) x : ℕ) : ℝ) - (sideOf (!bit) x : ℕ) / 64 - 1 / 2 ≤ (sideOf (!bit) (learned bit (2 ^ 30) 5 x) : ℕ) := by
  have e1 := learned_hit (b := bit) (w := 2 ^ 30) (rate := 5) (by norm_num) (by omega) hx
  have e2 := learned_miss (b := bit) (c := !bit) (w := 2 ^ 30) (rate := 5) (x := x) (by cases bit <;> decide)
  obtain ⟨h1, h2⟩ := sideOf_ok (b := bit) hx
  rw [half_weight] at e1 e2
  generalize sideOf bit (learned bit (2 ^ 30) 5 x) = y' at *
  generalize sideOf (!bit) (learned bit (2 ^ 30) 5 x) = z' at *
  generalize sideOf bit x = y at *
  generalize sideOf (!bit) x = z at *
  have n1 : 64 * y + (2 ^ 31 - 31) ≤ 64 * y' + y := by omega
  have n2 : 128 * z ≤ 128 * z' + 2 * z + 64 := by omega
  have n3 : y ≤ y' := by omega
  have r1 : 64 * (y : ℝ) + (2 ^ 31 - 31) ≤ 64 * y' + y := by
    have : ((64 * y + (2 ^ 31 - 31) : ℕ) : ℝ) ≤ ((64 * y' + y : ℕ) : ℝ) := Nat.cast_le.mpr n1
    norm_num at this ⊢
    linarith
  have r2 : 128 * (z : ℝ) ≤ 128 * z' + 2 * z + 64 := by exact_mod_cast n2
  refine ⟨by exact_mod_cast h1, by linarith, by exact_mod_cast n3, by linarith⟩

/-- the worth of an entry falls by its gain -/
theorem probWorth_gain {list : Nat → Option ℝ} {c x x' : Nat} {q : ℝ} (bit : Bool) (hq : list c = some q) :
    64 * (probWorth list c x - probWorth list c x') * Real.log 2 =
      gain (chanceOf q bit) (sideOf bit x : ℕ) (sideOf bit x' : ℕ) (sideOf (!bit) x : ℕ) (sideOf (!bit) x' : ℕ) := by
  unfold probWorth
  rw [hq]
  dsimp only
  have a1 := price_log (atLeast (sideOf false x : ℕ))
  have a2 := price_log (atLeast (sideOf true x : ℕ))
  have a3 := price_log (atLeast (sideOf false x' : ℕ))
  have a4 := price_log (atLeast (sideOf true x' : ℕ))
  have e : ∀ p1 p2 p3 p4 l : ℝ, 64 * (q * p1 + (1 - q) * p2 - (q * p3 + (1 - q) * p4)) * l =
    64 * (q * (p1 * l - p3 * l) + (1 - q) * (p2 * l - p4 * l)) := by intros; ring
  rw [e, a1, a2, a3, a4]
  unfold gain chanceOf
  cases bit
  · simp only [Bool.false_eq_true, if_false, Bool.not_false]
    ring
  · simp only [if_true, Bool.not_true]
    ring

/-- one round: the exact interpolation is paid by the two entries and the allowance -/
theorem prob_step {list : Nat → Option ℝ} (hlist : IsList list) {c w L R : Nat} (bit : Bool) (hw : w < 2 ^ 31)
    (oL : EntryOk L) (oR : EntryOk R) :
    price (exactBlend bit L R w) ≤
      64 * (probWorth list c L - probWorth list c (learned bit (2 ^ 30) 5 L) +
        (probWorth list c R - probWorth list c (learned bit (2 ^ 31 - 2 ^ 30) 5 R))) +
      allowance list c bit + 1 / 2 ^ 24 := by
  have hb := exactBlend_bounds (b := bit) oL oR hw
  have h30 := price_le hb.1
  rw [show 2 ^ 31 - 2 ^ 30 = 2 ^ 30 by norm_num]
  cases hq : list c with
  | none =>
    unfold probWorth allowance
    rw [hq]
    dsimp only
    norm_num
    linarith
  | some q =>
    obtain ⟨q0, q1⟩ := hlist c q hq
    have r0 : 0 ≤ chanceOf q bit := by unfold chanceOf; split <;> linarith
    have r1 : chanceOf q bit ≤ 1 := by unfold chanceOf; split <;> linarith
    have gL := probWorth_gain (x := L) (x' := learned bit (2 ^ 30) 5 L) bit hq
    have gR := probWorth_gain (x := R) (x' := learned bit (2 ^ 30) 5 R) bit hq
    obtain ⟨l1, l2, l3, l4⟩ := learned_sides (bit := bit) oL
    obtain ⟨k1, k2, k3, k4⟩ := learned_sides (bit := bit) oR
    have fL := gain_ge r0 r1 l3 l4
    have fR := gain_ge r0 r1 k3 k4
    have hl2 : 0 < Real.log 2 := Real.log_pos (by norm_num)
    have hln := Real.log_two_gt_d9
    have hal : allowance list c bit = if 1 / 32 ≤ chanceOf q bit then
        -Real.logb 2 (chanceOf q bit) + 8 / 5 * (1 - chanceOf q bit) * (1 + 1 / (64 * chanceOf q bit)) else 33 := by
      unfold allowance
      rw [hq]
    rw [hal]
    generalize probWorth list c L - probWorth list c (learned bit (2 ^ 30) 5 L) = wL at *
    generalize probWorth list c R - probWorth list c (learned bit (2 ^ 30) 5 R) = wR at *
    by_cases hr : 1 / 32 ≤ chanceOf q bit
    · rw [if_pos hr]
      have pL := gain_pays hr r1 l1 l2 l3 l4
      have pR := gain_pays hr r1 k1 k2 k3 k4
      rw [← gL] at pL fL
      rw [← gR] at pR fR
      generalize chanceOf q bit = r at *
      have w0 : (0 : ℝ) ≤ (w : ℝ) / 2 ^ 31 := by positivity
      have w1 : (w : ℝ) / 2 ^ 31 ≤ 1 := by
        rw [div_le_one (by norm_num)]
        exact_mod_cast hw.le
      have hm := price_mix (x := (sideOf bit L : ℕ)) (y := (sideOf bit R : ℕ)) (by linarith) (by linarith) w0 w1
      have hf : price (2 ^ 31 - 31) ≤ 1 / 2 ^ 24 := by
        have := floorPrice_le (rate := 5) (by omega)
        unfold floorPrice at this
        rw [show (2 : ℝ) ^ 31 - 2 ^ 5 + 1 = 2 ^ 31 - 31 by norm_num] at this
        norm_num at this ⊢
        exact this
      have e31 := price_log (2 ^ 31 - 31)
      have eL := price_log (sideOf bit L : ℕ)
      have eR := price_log (sideOf bit R : ℕ)
      have er : Real.logb 2 r * Real.log 2 = Real.log r := by
        unfold Real.logb
        field_simp
      change price (exactBlend bit L R w) ≤ _ at hm
      have hr0 : 0 < r := by linarith
      -- multiply everything by the logarithm of two
      have cc : (1 - r) / (63 * r) + 64 / 4031 * (1 - r) + 4160 / 4031 * (1 - r) ≤
          8 / 5 * (1 - r) * (1 + 1 / (64 * r)) * Real.log 2 := by
        have e1 : (1 - r) / (63 * r) = 1 / 63 * ((1 - r) * (1 / r)) := by field_simp
        have e2 : 8 / 5 * (1 - r) * (1 + 1 / (64 * r)) * Real.log 2 =
          8 / 5 * Real.log 2 * (1 - r) + 8 / 5 * Real.log 2 / 64 * ((1 - r) * (1 / r)) := by field_simp
        have h1 : 0 ≤ 1 - r := by linarith
        have h2 : 0 ≤ (1 - r) * (1 / r) := mul_nonneg h1 (by positivity)
        rw [e1, e2]
        norm_num at hln
        have c1 := mul_le_mul_of_nonneg_right (show (11 / 10 : ℝ) ≤ 8 / 5 * Real.log 2 by linarith) h1
        have c2 := mul_le_mul_of_nonneg_right (show (1 / 63 : ℝ) ≤ 8 / 5 * Real.log 2 / 64 by linarith) h2
        linarith
      generalize hl : Real.log 2 = l at *
      refine le_of_mul_le_mul_right ?_ hl2
      refine (mul_le_mul_of_nonneg_right hm hl2.le).trans ?_
      generalize (w : ℝ) / 2 ^ 31 = v at *
      generalize price (sideOf bit L : ℕ) = xL at *
      generalize price (sideOf bit R : ℕ) = xR at *
      generalize Real.log (2 ^ 31 - 31) = M at *
      generalize Real.log r = lr at *
      generalize Real.logb 2 r = br at *
      generalize (1 - r) / (63 * r) = g at *
      generalize Real.log (sideOf bit L : ℕ) = yL at *
      generalize Real.log (sideOf bit R : ℕ) = yR at *
      generalize price (2 ^ 31 - 31) = pp at *
      clear gL gR l1 l2 l3 l4 k1 k2 k3 k4 hb h30
      have dL : xL * l ≤ 64 * wL * l - lr + g + 64 / 4031 * (1 - r) + pp * l := by linarith
      have dR : xR * l ≤ 64 * wR * l - lr + g + 64 / 4031 * (1 - r) + pp * l := by linarith
      have m1 := mul_le_mul_of_nonneg_left dL (show 0 ≤ 1 - v by linarith)
      have m2 := mul_le_mul_of_nonneg_left dR w0
      have m3 := mul_le_mul_of_nonneg_left fL w0
      have m4 := mul_le_mul_of_nonneg_left fR (show 0 ≤ 1 - v by linarith)
      have m5 := mul_le_mul_of_nonneg_right hf hl2.le
      generalize pp * l = pm at *
      generalize 8 / 5 * (1 - r) * (1 + 1 / (64 * r)) = al at *
      have fin : ((1 - v) * xL + v * xR) * l ≤ 64 * (wL + wR) * l - lr + (g + 64 / 4031 * (1 - r) + 4160 / 4031 * (1 - r)) + pm := by
        linarith
      linarith
    · rw [if_neg hr]
      rw [← gL] at fL
      rw [← gR] at fR
      norm_num at hln
      have : -(66 : ℝ) ≤ 64 * (wL + wR) * 22 := by
        by_contra hc
        rw [not_le] at hc
        have h1 : 64 * (wL + wR) < -3 := by linarith
        have h2 : 64 * (wL + wR) * Real.log 2 < -3 * Real.log 2 := mul_lt_mul_of_pos_right h1 hl2
        linarith
      linarith

/-! ## Payers -/

/-- a way to share the cost of a bit between what the entries have left to learn and a charge -/
structure Payer where
  /-- what an entry of a context has left to learn -/
  worth : Nat → Nat → ℝ
  /-- what is charged for a bit in a context -/
  charge : Nat → Bool → ℝ
  nonneg : ∀ c x, EntryOk x → 0 ≤ worth c x
  pays : ∀ c w L R bit, w < 2 ^ 31 → EntryOk L → EntryOk R → price (exactBlend bit L R w) ≤
    64 * (worth c L - worth c (learned bit (2 ^ 30) 5 L) + (worth c R - worth c (learned bit (2 ^ 31 - 2 ^ 30) 5 R))) +
      charge c bit + 1 / 2 ^ 24

/-- guesses -/
noncomputable def guessPayer (guess : Nat → Option Bool) : Payer where
  worth := guessWorth guess
  charge c bit := if guess c = some bit then 0 else 38
  nonneg := guessWorth_nonneg guess
  pays c w L R bit hw oL oR := by
    have h := guess_step (guess := guess) (c := c) (rate := 5) bit (by omega) (by omega) hw (Or.inl rfl) oL oR
    rw [if_pos rfl] at h
    have hf := floorPrice_le (rate := 5) (by omega)
    norm_num at h hf ⊢
    linarith

theorem probWorth_bounds {list : Nat → Option ℝ} (hlist : IsList list) {c x : Nat} (hx : EntryOk x) :
    0 ≤ probWorth list c x ∧ ∀ q, list c = some q →
      probWorth list c x ≤ q * price (sideOf false x : ℕ) + (1 - q) * price (sideOf true x : ℕ) := by
  have hp : ∀ b, 0 ≤ price (atLeast (sideOf b x : ℕ)) ∧ price (atLeast (sideOf b x : ℕ)) ≤ price (sideOf b x : ℕ) := by
    intro b
    obtain ⟨h1, h2⟩ := sideOf_ok (b := b) hx
    constructor
    · refine price_nonneg (atLeast_pos _) (max_le ?_ (by norm_num))
      exact_mod_cast (show sideOf b x ≤ 2 ^ 31 by omega)
    · exact price_anti (by exact_mod_cast (show 0 < sideOf b x by omega)) (le_max_left _ _)
  cases hq : list c with
  | none =>
    unfold probWorth
    rw [hq]
    exact ⟨le_refl _, fun q h => by cases h⟩
  | some q =>
    obtain ⟨q0, q1⟩ := hlist c q hq
    unfold probWorth
    rw [hq]
    dsimp only
    refine ⟨add_nonneg (mul_nonneg q0 (hp false).1) (mul_nonneg (by linarith) (hp true).1), fun q' h => ?_⟩
    obtain rfl := Option.some.inj h
    exact add_le_add (mul_le_mul_of_nonneg_left (hp false).2 q0) (mul_le_mul_of_nonneg_left (hp true).2 (by linarith))

/-- probabilities -/
noncomputable def probPayer (list : Nat → Option ℝ) (h : IsList list) : Payer where
  worth := probWorth list
  charge := allowance list
  nonneg _ _ hx := (probWorth_bounds h hx).1
  pays _ _ _ _ bit hw oL oR := prob_step h bit hw oL oR

theorem probWorth_new {fb : Nat} (hfb : fb ≤ 7) {list : Nat → Option ℝ} (hlist : IsList list) (contexts : Nat) :
    total (probWorth list) contexts (24 * 2 ^ fb + 1) (newAt contexts fb).mappings ≤ 115 * 2 ^ fb * listCount list contexts := by
  refine total_new fun c _ => ?_
  cases hq : list c with
  | none =>
    unfold probWorth
    rw [hq]
    simp
  | some q =>
    obtain ⟨q0, q1⟩ := hlist c q hq
    simp only [Option.isSome_some, if_true, Nat.cast_one, mul_one]
    have h1 := mul_le_mul_of_nonneg_left (stops_price hfb false) q0
    have h2 := mul_le_mul_of_nonneg_left (stops_price hfb true) (show 0 ≤ 1 - q by linarith)
    rw [Finset.mul_sum] at h1 h2
    have h3 : ∑ k ∈ Finset.range (24 * 2 ^ fb + 1), probWorth list c (stopAt fb k) ≤
        ∑ k ∈ Finset.range (24 * 2 ^ fb + 1), (q * price (sideOf false (stopAt fb k) : ℕ) +
          (1 - q) * price (sideOf true (stopAt fb k) : ℕ)) :=
      Finset.sum_le_sum fun k hk => (probWorth_bounds hlist (stop_ok hfb (Finset.mem_range.mp hk))).2 q hq
    rw [Finset.sum_add_distrib] at h3
    linarith

end Verif.Mix
