import Verif.Pred.CodingProps
import Verif.Float.Props

/-! # The cost the program reports (C67) -/

namespace Verif.Pred

open Verif Verif.Coding Verif.Float Verif.Fixed

/-- a logarithm of floats with relative error `d` on the probabilities that can occur -/
def LogWithin (lg : ℚ → ℚ) (d : ℝ) : Prop := ∀ f : ℕ, 1 ≤ f → f < 2 ^ 23 →
  |((lg (f / 2 ^ 23) : ℚ) : ℝ) - Real.logb 2 ((f : ℝ) / 2 ^ 23)| ≤ d * |Real.logb 2 ((f : ℝ) / 2 ^ 23)|

theorem content_bounds {f : ℕ} (h1 : 1 ≤ f) (h2 : f < 2 ^ 23) :
    (1 : ℝ) / 2 ^ 23 ≤ -Real.logb 2 ((f : ℝ) / 2 ^ 23) ∧ -Real.logb 2 ((f : ℝ) / 2 ^ 23) ≤ 23 := by
  have f1 : (1 : ℝ) ≤ f := by exact_mod_cast h1
  have f2 : (f : ℝ) + 1 ≤ 2 ^ 23 := by exact_mod_cast h2
  have hpos : (0 : ℝ) < (f : ℝ) / 2 ^ 23 := by positivity
  constructor
  · have hle : (f : ℝ) / 2 ^ 23 ≤ 1 - 1 / 2 ^ 23 := by
      rw [div_le_iff₀ (by positivity)]; norm_num at *; linarith
    have hl : Real.log ((f : ℝ) / 2 ^ 23) ≤ -(1 / 2 ^ 23) :=
      (Real.log_le_sub_one_of_pos hpos).trans (by linarith)
    have l2 : Real.log 2 < 1 := by
      have := Real.log_two_lt_d9
      linarith
    have l2p : 0 < Real.log 2 := Real.log_pos (by norm_num)
    rw [Real.logb, ← neg_div, le_div_iff₀ l2p]
    have : (1 : ℝ) / 2 ^ 23 * Real.log 2 ≤ 1 / 2 ^ 23 * 1 := mul_le_mul_of_nonneg_left l2.le (by positivity)
    linarith
  · have : Real.logb 2 (1 / 2 ^ 23) ≤ Real.logb 2 ((f : ℝ) / 2 ^ 23) :=
      Real.logb_le_logb_of_le (by norm_num) (by positivity) (by gcongr)
    rw [one_div, Real.logb_inv, Real.logb_pow, Real.logb_self_eq_one (by norm_num)] at this
    push_cast at this
    linarith

/-- one addition -/
theorem add_error {a c : ℚ} {S s B u d : ℝ} (hu : u = 1 / 2 ^ 53) (hS : 0 ≤ S) (hs : 1 / 2 ^ 23 ≤ s) (hd : 0 ≤ d)
    (hd2 : d ≤ 1 / 2) (hB : 1 + d ≤ B) (hB4 : B ≤ 4) (hbig : S + s ≤ 2 ^ 60) (ha0 : 0 ≤ a)
    (ha : |(a : ℝ) - S| ≤ (B - 1) * S) (hc : |(c : ℝ) - s| ≤ d * s) :
    ∃ r, fAdd a c = some r ∧ 0 ≤ r ∧ |(r : ℝ) - (S + s)| ≤ (B * (1 + u) - 1) * (S + s) := by
  have hs0 : 0 < s := lt_of_lt_of_le (by positivity) hs
  obtain ⟨c1, c2⟩ := abs_le.mp hc
  obtain ⟨a1, a2⟩ := abs_le.mp ha
  have hcpos : (1 : ℝ) / 2 ^ 24 ≤ c := by
    have : d * s ≤ 1 / 2 * s := mul_le_mul_of_nonneg_right hd2 hs0.le
    norm_num at *
    linarith
  have hcq : (1 : ℚ) / 2 ^ 24 ≤ c := by
    have : (((1 : ℚ) / 2 ^ 24 : ℚ) : ℝ) ≤ (c : ℝ) := by push_cast; exact hcpos
    exact_mod_cast this
  have hsum : (1 : ℚ) / 2 ^ 24 ≤ a + c := by linarith
  have hup : (a : ℝ) + c ≤ 2 ^ 70 := by
    have h1 : (B - 1) * S ≤ 3 * S := mul_le_mul_of_nonneg_right (by linarith) hS
    have h2 : d * s ≤ 1 / 2 * s := mul_le_mul_of_nonneg_right hd2 hs0.le
    have : (a : ℝ) + c ≤ 4 * (S + s) := by linarith
    have : (4 : ℝ) * 2 ^ 60 ≤ 2 ^ 70 := by norm_num
    linarith
  have hupq : a + c ≤ 2 ^ 70 := by
    have : ((a + c : ℚ) : ℝ) ≤ ((2 ^ 70 : ℚ) : ℝ) := by push_cast; exact hup
    exact_mod_cast this
  have habs : |a + c| = a + c := abs_of_nonneg (le_trans (by positivity) hsum)
  have hfl : fAdd a c = some (rnd (a + c)) := fl_some (by
    rw [habs]
    exact hupq.trans (pow_le_pow_right₀ (by norm_num) (by norm_num)))
  have h24 : (1 : ℚ) / 2 ^ 24 = 2 ^ (-24 : ℤ) := by norm_num
  have hrel := rnd_relative (q := a + c) (by
    rw [habs]
    refine le_trans ?_ hsum
    rw [h24]
    exact zpow_le_zpow_right₀ (by norm_num) (by norm_num))
  rw [habs] at hrel
  have hrelR : |((rnd (a + c) : ℚ) : ℝ) - (a + c)| ≤ (a + c) * u := by
    have : ((|rnd (a + c) - (a + c)| : ℚ) : ℝ) ≤ (((a + c) * 2 ^ (-53 : ℤ) : ℚ) : ℝ) := by exact_mod_cast hrel
    rw [hu]
    push_cast at this
    rw [zpow_neg] at this
    norm_num at this ⊢
    linarith
  have hr0 : 0 ≤ rnd (a + c) := by
    have := rounded_mono (p := 53) (by norm_num) (-1074) (show (0 : ℚ) ≤ a + c from le_trans (by positivity) hsum)
    rwa [rounded_zero] at this
  refine ⟨_, hfl, hr0, ?_⟩
  have hu0 : 0 < u := by rw [hu]; positivity
  have e1 : |((a : ℝ) + c) - (S + s)| ≤ (B - 1) * (S + s) := by
    have : d * s ≤ (B - 1) * s := mul_le_mul_of_nonneg_right (by linarith) hs0.le
    rw [abs_le]
    constructor <;> linarith
  have e2 := abs_sub_le ((rnd (a + c) : ℚ) : ℝ) (a + c) (S + s)
  obtain ⟨e3, e4⟩ := abs_le.mp e1
  have e5 : ((a : ℝ) + c) * u ≤ (B * (S + s)) * u := mul_le_mul_of_nonneg_right (by linarith) hu0.le
  have : (B * (1 + u) - 1) * (S + s) = (B - 1) * (S + s) + B * (S + s) * u := by ring
  linarith

/-- relative error of the probability's float is none -/
theorem chance_float {f : ℕ} (h1 : 1 ≤ f) (h2 : f < 2 ^ 23) : asF64U finalProbability f = some ((f : ℚ) / 2 ^ 23) ∧
    fSub 1 ((f : ℚ) / 2 ^ 23) = some (((2 ^ 23 - f : ℕ) : ℚ) / 2 ^ 23) := by
  refine ⟨C65_exact_unsigned finalProbability (by decide) f (by omega), ?_⟩
  have e : (1 : ℚ) - (f : ℚ) / 2 ^ 23 = ((2 ^ 23 - f : ℕ) : ℚ) / 2 ^ 23 := by
    rw [Nat.cast_sub h2.le]; push_cast; ring
  have hz : |((2 ^ 23 - f : ℕ) : ℤ)| ≤ 2 ^ 53 := by
    rw [abs_of_nonneg (by omega)]
    exact_mod_cast (by omega : 2 ^ 23 - f ≤ 2 ^ 53)
  unfold fSub
  rw [e, over_pow, ← Int.cast_natCast]
  exact fl_fits (isF64_int hz (by omega) (by omega))

/-- one round of the loop -/
theorem costStep_eq {lg : ℚ → ℚ} {d : ℝ} (hlg : LogWithin lg d) {a : ℚ} {f : ℕ} (h1 : 1 ≤ f) (h2 : f < 2 ^ 23)
    (b : Bool) : ∃ c : ℚ, costStep lg a f b = fAdd a c ∧
      |(c : ℝ) - -Real.logb 2 (chance f b)| ≤ d * -Real.logb 2 (chance f b) ∧
      1 / 2 ^ 23 ≤ -Real.logb 2 (chance f b) ∧ -Real.logb 2 (chance f b) ≤ 23 := by
  obtain ⟨e1, e2⟩ := chance_float h1 h2
  have key : ∀ g : ℕ, 1 ≤ g → g < 2 ^ 23 → |(((-lg (g / 2 ^ 23) : ℚ)) : ℝ) - -Real.logb 2 ((g : ℝ) / 2 ^ 23)| ≤
      d * -Real.logb 2 ((g : ℝ) / 2 ^ 23) := by
    intro g g1 g2
    have hb := (content_bounds g1 g2).1
    have hneg : Real.logb 2 ((g : ℝ) / 2 ^ 23) ≤ 0 := by
      have : (0 : ℝ) < 1 / 2 ^ 23 := by positivity
      linarith
    have := hlg g g1 g2
    rw [abs_of_nonpos hneg] at this
    rw [← abs_neg]
    convert this using 2
    push_cast
    ring
  cases b with
  | false =>
    have hch : chance f false = (f : ℝ) / 2 ^ 23 := by unfold chance; simp
    rw [hch]
    refine ⟨-lg (f / 2 ^ 23), ?_, key f h1 h2, content_bounds h1 h2⟩
    unfold costStep
    rw [e1, ob_some]
    simp only [Bool.false_eq_true, if_false]
    unfold fSub fAdd
    rw [sub_eq_add_neg]
  | true =>
    have hch : chance f true = ((2 ^ 23 - f : ℕ) : ℝ) / 2 ^ 23 := by
      unfold chance
      rw [Nat.cast_sub h2.le]
      simp only [if_true]
      push_cast
      ring
    rw [hch]
    refine ⟨-lg ((2 ^ 23 - f : ℕ) / 2 ^ 23), ?_, key _ (by omega) (by omega), content_bounds (by omega) (by omega)⟩
    unfold costStep
    rw [e1, ob_some]
    simp only [if_true]
    rw [e2, ob_some]
    unfold fSub fAdd
    rw [sub_eq_add_neg]

theorem costTotal_error {lg : ℚ → ℚ} {d : ℝ} (hlg : LogWithin lg d) (hd : 0 ≤ d) (hd2 : d ≤ 1 / 2) {u : ℝ}
    (hu : u = 1 / 2 ^ 53) : ∀ (fs : List ℕ) (bits : List Bool) (a : ℚ) (S B : ℝ),
    (∀ f ∈ fs, 1 ≤ f ∧ f < 2 ^ 23) → 0 ≤ S → 1 + d ≤ B → B * (1 + u) ^ fs.length ≤ 4 →
    S + 23 * fs.length ≤ 2 ^ 60 → 0 ≤ a → |(a : ℝ) - S| ≤ (B - 1) * S →
    ∃ T, costTotal lg a fs bits = some T ∧
      |(T : ℝ) - (S + estimate fs bits)| ≤ (B * (1 + u) ^ fs.length - 1) * (S + estimate fs bits) := by
  have hu0 : 0 < u := by rw [hu]; positivity
  intro fs
  induction fs with
  | nil =>
    intro bits a S B _ _ _ _ _ _ ha
    refine ⟨a, by cases bits <;> rfl, ?_⟩
    simp only [estimate, List.zipWith_nil_left, List.sum_nil, List.length_nil, pow_zero, mul_one, add_zero]
    exact ha
  | cons f fs ih =>
    intro bits a S B hf hS hB hB4 hbig ha0 ha
    have hBpos : 0 < B := by linarith
    have hp1 : (1 : ℝ) ≤ (1 + u) ^ (fs.length + 1) := one_le_pow₀ (by linarith)
    have hB4' : B ≤ 4 := by
      rw [List.length_cons] at hB4
      have := mul_le_mul_of_nonneg_left hp1 hBpos.le
      linarith
    cases bits with
    | nil =>
      refine ⟨a, rfl, ?_⟩
      simp only [estimate, List.zipWith_nil_right, List.sum_nil, add_zero, List.length_cons]
      refine ha.trans (mul_le_mul_of_nonneg_right ?_ hS)
      have := mul_le_mul_of_nonneg_left hp1 hBpos.le
      linarith
    | cons b bits =>
      obtain ⟨f1, f2⟩ := hf f (by simp)
      obtain ⟨c, e1, e2, e3, e4⟩ := costStep_eq hlg (a := a) f1 f2 b
      rw [List.length_cons] at hB4 hbig
      push_cast at hbig
      obtain ⟨r, e5, e6, e7⟩ := add_error hu hS e3 hd hd2 hB hB4' (by
        have : (0 : ℝ) ≤ fs.length := by positivity
        linarith) ha0 ha e2
      obtain ⟨T, e8, e9⟩ := ih bits r (S + -Real.logb 2 (chance f b)) (B * (1 + u)) (fun f h => hf f (by simp [h]))
        (by have : (0 : ℝ) < 1 / 2 ^ 23 := by positivity
            linarith)
        (by have : B * 1 ≤ B * (1 + u) := mul_le_mul_of_nonneg_left (by linarith) hBpos.le
            linarith)
        (by rw [pow_succ] at hB4; linarith [mul_assoc B (1 + u) ((1 + u) ^ fs.length), mul_comm (1 + u) ((1 + u) ^ fs.length)])
        (by linarith) e6 e7
      refine ⟨T, ?_, ?_⟩
      · rw [costTotal, e1, e5, ob_some, e8]
      · have h1 : estimate (f :: fs) (b :: bits) = -Real.logb 2 (chance f b) + estimate fs bits := by
          simp only [estimate, List.zipWith_cons_cons, List.sum_cons]
        rw [h1, List.length_cons, pow_succ, ← add_assoc]
        convert e9 using 2
        ring

/-- the roundings of many additions -/
theorem pow_error {n : ℕ} {u : ℝ} (hu : 0 ≤ u) (hn : n * u ≤ 1 / 2) : (1 + u) ^ n ≤ 1 + 2 * (n * u) := by
  have hu1 : n = 0 ∨ u ≤ 1 / 2 := by
    rcases Nat.eq_zero_or_pos n with h | h
    · exact Or.inl h
    · right
      have : (1 : ℝ) ≤ n := by exact_mod_cast h
      linarith [mul_le_mul_of_nonneg_right this hu]
  rcases hu1 with rfl | hu1
  · simp
  have h1 : 1 + (n : ℝ) * (-u) ≤ (1 + -u) ^ n := one_add_mul_le_pow (by linarith) n
  have h2 : (1 + u) ^ n * (1 + -u) ^ n ≤ 1 := by
    rw [← mul_pow]
    refine pow_le_one₀ (mul_nonneg (by linarith) (by linarith)) ?_
    have : 0 ≤ u * u := mul_nonneg hu hu
    linarith [show (1 + u) * (1 + -u) = 1 - u * u by ring]
  have hp : 0 ≤ (1 + u) ^ n := by positivity
  have h3 : (1 + u) ^ n * (1 - n * u) ≤ 1 := by
    refine le_trans (mul_le_mul_of_nonneg_left ?_ hp) h2
    linarith
  have hx : 0 ≤ (n : ℝ) * u := by positivity
  generalize (n : ℝ) * u = x at *
  have h4 : (1 : ℝ) ≤ (1 + 2 * x) * (1 - x) := by
    have : 0 ≤ x * (1 - 2 * x) := mul_nonneg hx (by linarith)
    linarith [show (1 + 2 * x) * (1 - x) = 1 + x * (1 - 2 * x) by ring]
  exact le_of_mul_le_mul_right (h3.trans h4) (by linarith)

theorem estimate_nonneg {fs : List ℕ} (h : ∀ f ∈ fs, 1 ≤ f ∧ f < 2 ^ 23) : ∀ bits, 0 ≤ estimate fs bits := by
  induction fs with
  | nil => intro bits; simp [estimate]
  | cons f fs ih =>
    intro bits
    cases bits with
    | nil => simp [estimate]
    | cons b bits =>
      have h1 : estimate (f :: fs) (b :: bits) = -Real.logb 2 (chance f b) + estimate fs bits := by
        simp only [estimate, List.zipWith_cons_cons, List.sum_cons]
      have h2 := ih (fun f hf => h f (by simp [hf])) bits
      obtain ⟨f1, f2⟩ := h f (by simp)
      have hb : 0 ≤ -Real.logb 2 (chance f b) := by
        obtain ⟨c, -, -, h3, -⟩ := costStep_eq (lg := fun _ => 0) (d := 1) (fun g g1 g2 => by simp) (a := 0) f1 f2 b
        exact le_trans (by positivity) h3
      rw [h1]
      linarith

/-- **C67 (sum).** The sum of logarithms that the program forms in floating point differs from the exact information
content by at most `2 d + n / 2^52` of it, where `d` is the relative error of the platform's logarithm and `n` the number
of bits. It never becomes infinite. -/
theorem C67_sum (lg : ℚ → ℚ) (d : ℝ) (hlg : LogWithin lg d) (hd : 0 ≤ d) (hd2 : d ≤ 1 / 2) (fs : List ℕ)
    (bits : List Bool) (hf : ∀ f ∈ fs, 1 ≤ f ∧ f < 2 ^ 23) (hn : fs.length ≤ 2 ^ 50) :
    ∃ T, costTotal lg 0 fs bits = some T ∧
      |(T : ℝ) - estimate fs bits| ≤ (2 * d + fs.length / 2 ^ 52) * estimate fs bits := by
  have hn' : (fs.length : ℝ) ≤ 2 ^ 50 := by exact_mod_cast hn
  have hu : (fs.length : ℝ) * (1 / 2 ^ 53) ≤ 1 / 8 := by
    have : (fs.length : ℝ) * (1 / 2 ^ 53) ≤ 2 ^ 50 * (1 / 2 ^ 53) := mul_le_mul_of_nonneg_right hn' (by positivity)
    norm_num at *
    linarith
  have hpow := pow_error (n := fs.length) (u := 1 / 2 ^ 53) (by positivity) (by linarith)
  have hx0 : (0 : ℝ) ≤ (fs.length : ℝ) * (1 / 2 ^ 53) := by positivity
  have hd1 : 0 ≤ 1 + d := by linarith
  obtain ⟨T, h1, h2⟩ := costTotal_error hlg hd hd2 rfl fs bits 0 0 (1 + d) hf (le_refl _) (le_refl _) (by
    have := mul_le_mul_of_nonneg_left hpow hd1
    have h3 : (1 + d) * (1 + 2 * ((fs.length : ℝ) * (1 / 2 ^ 53))) ≤ (3 / 2) * (1 + 2 * (1 / 8)) :=
      mul_le_mul (by linarith) (by linarith) (by linarith) (by norm_num)
    norm_num at h3 this ⊢
    linarith) (by norm_num at *; linarith) (le_refl _) (by simp)
  refine ⟨T, h1, ?_⟩
  rw [zero_add] at h2
  refine h2.trans (mul_le_mul_of_nonneg_right ?_ (estimate_nonneg hf bits))
  have h3 := mul_le_mul_of_nonneg_left hpow hd1
  have h4 : d * (2 * ((fs.length : ℝ) * (1 / 2 ^ 53))) ≤ d * 1 := mul_le_mul_of_nonneg_left (by linarith) hd
  have h5 : 2 * ((fs.length : ℝ) * (1 / 2 ^ 53)) = fs.length / 2 ^ 52 := by
    rw [mul_one_div, ← mul_div_assoc, mul_comm, mul_div_assoc, show (2 : ℝ) ^ 53 = 2 ^ 52 * 2 by norm_num]
    field_simp
  rw [← h5]
  have : (1 + d) * (1 + 2 * ((fs.length : ℝ) * (1 / 2 ^ 53))) = 1 + d + 2 * ((fs.length : ℝ) * (1 / 2 ^ 53)) +
    d * (2 * ((fs.length : ℝ) * (1 / 2 ^ 53))) := by ring
  linarith

/-- **C67 (the program).** For every file of up to `2^35` bytes the reported total is within `2 d + n / 2^52` of the
information content of the file under the predictions. -/
theorem C67_reported (mode : Mode) {W maxOrder : Nat} (hW0 : 0 < W) (hW : W ≤ 2 ^ 31) (hM : maxOrder ≤ 8191)
    (bytes : List (List Bool)) (h8 : ∀ b ∈ bytes, b.length = 8) (hn : bytes.length ≤ 2 ^ 35)
    {t : Tables} (ht : tablesNew = some t) {p0 : Predictor} (h0 : predNew t mode W maxOrder = some p0)
    (lg : ℚ → ℚ) (d : ℝ) (hlg : LogWithin lg d) (hd : 0 ≤ d) (hd2 : d ≤ 1 / 2) :
    ∃ fs p T, calls t mode p0 (bytes.flatMap byteCalls) = some (fs, p) ∧ fs.length = bytes.flatten.length ∧
      costTotal lg 0 fs bytes.flatten = some T ∧
      |(T : ℝ) - estimate fs bytes.flatten| ≤ (2 * d + 8 * bytes.length / 2 ^ 52) * estimate fs bytes.flatten := by
  obtain ⟨fs, p, h1, h2, h3⟩ := C44_file ht mode hW0 hW hM h0 bytes h8 hn
  obtain ⟨r1, -⟩ := bytes_run bytes h8 h1
  obtain ⟨T, h4, h5⟩ := C67_sum lg d hlg hd hd2 fs bytes.flatten h3 (by omega)
  refine ⟨fs, p, T, h1, r1, h4, ?_⟩
  rw [h2] at h5
  push_cast at h5
  exact h5

/-- logarithms with a small relative error exist -/
theorem log_exists : ∃ lg, LogWithin lg (1 / 2 ^ 52) := by
  have : ∀ q : ℚ, ∃ r : ℚ, Real.logb 2 q ≠ 0 → |(r : ℝ) - Real.logb 2 q| ≤ 1 / 2 ^ 52 * |Real.logb 2 q| := by
    intro q
    by_cases h : Real.logb 2 q = 0
    · exact ⟨0, fun h' => absurd h h'⟩
    · have hp : 0 < 1 / 2 ^ 52 * |Real.logb 2 (q : ℝ)| := mul_pos (by positivity) (abs_pos.mpr h)
      obtain ⟨r, h1, h2⟩ := exists_rat_btwn (lt_add_of_pos_right (Real.logb 2 (q : ℝ)) hp)
      refine ⟨r, fun _ => ?_⟩
      rw [abs_of_pos (by linarith)]
      linarith
  choose lg hlg using this
  refine ⟨lg, fun f f1 f2 => ?_⟩
  have h := hlg (f / 2 ^ 23)
  push_cast at h
  refine h ?_
  have := (content_bounds f1 f2).1
  have : (0 : ℝ) < 1 / 2 ^ 23 := by positivity
  linarith

/-- a byte with predictions 1/2 costs 8 bits, also in floating point, if the logarithm is exact there -/
example : costTotal (fun q => if q = 1 / 2 then -1 else 0) 0 (List.replicate 8 4194304)
    [true, false, true, true, false, false, true, false] = some 8 := by decide +kernel

end Verif.Pred
