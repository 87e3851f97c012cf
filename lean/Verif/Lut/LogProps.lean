import Verif.Lut.Tables
import Mathlib.Analysis.Complex.ExponentialBounds

/-!
# C89: the binary logarithm by repeated squaring

`one_plus_log2_restricted` (`src/lut/log2.rs:54-71`) and `StretchLut::log2` (`src/lut/stretch.rs:88-101`), from which all tables of
logarithms, of stretch and of squash are built. C10 and C47 compare the finished tables with the real functions entry by entry; here
the routine itself is compared with the real logarithm for all inputs.
-/

namespace Verif.Lut

open Verif Verif.Fixed Verif.Log2

/-- logarithm of a number in units of `2^-31`, plus one -/
noncomputable def level (a : ℝ) : ℝ := Real.logb 2 (a / 2 ^ 31) + 1

theorem level_range {a : Nat} (h1 : 2 ^ 30 ≤ a) (h2 : a < 2 ^ 31) : 0 ≤ level a ∧ level a < 1 := by
  have r1 : (2 ^ 30 : ℝ) ≤ a := by exact_mod_cast h1
  have r2 : (a : ℝ) < 2 ^ 31 := by exact_mod_cast h2
  unfold level
  constructor
  · have : Real.logb 2 (2⁻¹ : ℝ) ≤ Real.logb 2 ((a : ℝ) / 2 ^ 31) :=
      Real.logb_le_logb_of_le (by norm_num) (by norm_num) (by
        rw [le_div_iff₀ (by norm_num)]
        linarith)
    rw [Real.logb_inv, Real.logb_self_eq_one (by norm_num)] at this
    linarith
  · have : Real.logb 2 ((a : ℝ) / 2 ^ 31) < 0 :=
      Real.logb_neg (by norm_num) (by positivity) (by
        rw [div_lt_one (by norm_num)]
        exact r2)
    linarith

/-- the effect of rounding on the logarithm -/
theorem log_close {q r : ℝ} (hq : 2 ^ 29 ≤ q) (hr : 2 ^ 29 ≤ r) (h : |r - q| ≤ 1 / 2) :
    |Real.logb 2 r - Real.logb 2 q| ≤ 3 / 2 ^ 31 := by
  have hl := Real.log_two_gt_d9
  have key : ∀ {x y : ℝ}, 2 ^ 29 ≤ x → 2 ^ 29 ≤ y → |y - x| ≤ 1 / 2 → Real.logb 2 y - Real.logb 2 x ≤ 3 / 2 ^ 31 := by
    intro x y hx hy h
    have x0 : 0 < x := by linarith
    have y0 : 0 < y := by linarith
    rw [← Real.logb_div y0.ne' x0.ne']
    have h1 : Real.log (y / x) ≤ y / x - 1 := Real.log_le_sub_one_of_pos (by positivity)
    have h2 : y / x - 1 ≤ 1 / 2 ^ 30 := by
      rw [div_sub_one x0.ne', div_le_iff₀ x0]
      have := (abs_le.mp h).2
      linarith
    unfold Real.logb
    rw [div_le_iff₀ (by linarith)]
    linarith
  rw [abs_le]
  constructor
  · have := key hr hq (by rw [abs_sub_comm]; exact h)
    linarith
  · exact key hq hr h

theorem square_level {a : Nat} (h1 : 2 ^ 30 ≤ a) (h2 : a < 2 ^ 31) :
    let q := (a * a + 1073741824) / 2147483648
    2 ^ 29 ≤ q ∧ q < 2 ^ 31 ∧ |level q - (2 * level a - 1)| ≤ 3 / 2 ^ 31 := by
  have r1 : (2 ^ 30 : ℝ) ≤ a := by exact_mod_cast h1
  have haa : a * a ≤ (2 ^ 31 - 1) * (2 ^ 31 - 1) := Nat.mul_le_mul (by omega) (by omega)
  have hbb : 2 ^ 30 * 2 ^ 30 ≤ a * a := Nat.mul_le_mul h1 h1
  have hcl : |(((a * a + 1073741824) / 2147483648 : Nat) : ℝ) - (a : ℝ) * a / 2 ^ 31| ≤ 1 / 2 := by
    have hd := Nat.div_add_mod (a * a + 1073741824) 2147483648
    have hm := Nat.mod_lt (a * a + 1073741824) (by norm_num : 0 < 2147483648)
    generalize (a * a + 1073741824) / 2147483648 = q at *
    generalize (a * a + 1073741824) % 2147483648 = m at *
    have hd' : (2147483648 : ℝ) * q + m = (a : ℝ) * a + 1073741824 := by exact_mod_cast hd
    have hm' : (m : ℝ) < 2147483648 := by exact_mod_cast hm
    have hm0 : (0 : ℝ) ≤ m := Nat.cast_nonneg _
    rw [abs_le]
    constructor
    · rw [le_sub_iff_add_le, ← le_sub_iff_add_le', div_le_iff₀ (by norm_num)]
      linarith
    · rw [sub_le_iff_le_add, ← sub_le_iff_le_add', le_div_iff₀ (by norm_num)]
      linarith
  have hq1 : 2 ^ 29 ≤ (a * a + 1073741824) / 2147483648 := by norm_num at hbb ⊢; omega
  have hq2 : (a * a + 1073741824) / 2147483648 < 2 ^ 31 := by norm_num at haa ⊢; omega
  refine ⟨hq1, hq2, ?_⟩
  generalize (a * a + 1073741824) / 2147483648 = q at *
  have rq : (2 ^ 29 : ℝ) ≤ q := by exact_mod_cast hq1
  have ra : (2 ^ 29 : ℝ) ≤ (a : ℝ) * a / 2 ^ 31 := by
    rw [le_div_iff₀ (by norm_num)]
    nlinarith
  have hc := log_close ra rq hcl
  have e1 : level q = Real.logb 2 q - 30 := by
    unfold level
    rw [Real.logb_div (by linarith) (by norm_num), Real.logb_pow, Real.logb_self_eq_one (by norm_num)]
    norm_num
    ring
  have a0 : (a : ℝ) ≠ 0 := by linarith
  have e2 : 2 * level a - 1 = Real.logb 2 ((a : ℝ) * a / 2 ^ 31) - 30 := by
    unfold level
    rw [Real.logb_div a0 (by norm_num), Real.logb_div (by positivity) (by norm_num), Real.logb_mul a0 a0, Real.logb_pow,
      Real.logb_self_eq_one (by norm_num)]
    norm_num
    ring
  rw [e1, e2]
  rwa [sub_sub_sub_cancel_right]

theorem level_double {q : Nat} (h : 0 < q) : level ((q * 2 : Nat) : ℝ) = level q + 1 := by
  have h0 : (q : ℝ) ≠ 0 := by exact_mod_cast h.ne'
  unfold level
  push_cast
  rw [mul_div_right_comm, Real.logb_mul (by positivity) (by norm_num), Real.logb_self_eq_one (by norm_num)]

/-- the loop yields the leading digits of the logarithm -/
theorem fastLoop_level : ∀ (k l a : Nat), 2 ^ 30 ≤ a → a < 2 ^ 31 →
    -(3 / 2 ^ 31 * (2 ^ k - 1)) ≤ 2 ^ k * (level a + l) - fastLoop k l a ∧
      2 ^ k * (level a + l) - fastLoop k l a < 1 + 3 / 2 ^ 31 * (2 ^ k - 1) := by
  intro k
  induction k with
  | zero =>
    intro l a h1 h2
    have := level_range h1 h2
    simp only [fastLoop, pow_zero, sub_self, mul_zero, one_mul, add_sub_cancel_right]
    constructor <;> linarith
  | succ k ih =>
    intro l a h1 h2
    obtain ⟨q1, q2, q3⟩ := square_level h1 h2
    have hp : (0 : ℝ) < 2 ^ k := by positivity
    unfold fastLoop
    dsimp only
    generalize (a * a + 1073741824) / 2147483648 = q at *
    rw [abs_le] at q3
    have m1 := mul_le_mul_of_nonneg_left q3.1 hp.le
    have m2 := mul_le_mul_of_nonneg_left q3.2 hp.le
    rw [show (2 : ℝ) ^ (k + 1) = 2 * 2 ^ k from pow_succ' _ _]
    by_cases hlt : q < 1073741824
    · have hb : Nat.blt q 1073741824 = true := by simpa [Nat.blt_eq] using hlt
      rw [hb, cond_true]
      obtain ⟨i1, i2⟩ := ih (l * 2) (q * 2) (by omega) (by omega)
      rw [level_double (by omega)] at i1 i2
      push_cast at i1 i2
      constructor <;> linarith
    · have hb : Nat.blt q 1073741824 = false := by
        rw [Bool.eq_false_iff]; simpa [Nat.blt_eq] using hlt
      rw [hb, cond_false]
      obtain ⟨i1, i2⟩ := ih (l * 2 + 1) q (by omega) q2
      push_cast at i1 i2
      constructor <;> linarith

/-! ## Theorems -/

/-- **C89 (logarithm).** For every input in `[1/2, 1)` the routine returns one plus the binary logarithm: at most three units of
the last place too large and less than four too small. -/
theorem C89_log2 (input : Nat) (h1 : 2 ^ 30 ≤ input) (h2 : input < 2 ^ 31) :
    ∃ r, onePlusLog2 input = some r ∧ r < 2 ^ 31 ∧
      (r : ℝ) / 2 ^ 31 ≤ Real.logb 2 (input / 2 ^ 31) + 1 + 3 / 2 ^ 31 ∧
      Real.logb 2 (input / 2 ^ 31) + 1 < r / 2 ^ 31 + 4 / 2 ^ 31 := by
  obtain ⟨o1, o2⟩ := onePlusLog2_eq h1 h2
  obtain ⟨b1, b2⟩ := fastLoop_level 31 0 input h1 h2
  refine ⟨_, o1, o2, ?_, ?_⟩
  · change _ ≤ level input + _
    rw [div_le_iff₀ (by norm_num), add_mul, div_mul_cancel₀ _ (by norm_num)]
    push_cast at b1
    norm_num at b1 ⊢
    linarith
  · change level input < _
    rw [← add_div, lt_div_iff₀ (by norm_num)]
    push_cast at b2
    norm_num at b2 ⊢
    linarith

/-- **C89 (domain).** Inputs outside `[1/2, 1)` panic. -/
theorem C89_domain (input : Nat) (h : input < 2 ^ 30 ∨ 2 ^ 31 ≤ input) : onePlusLog2 input = none := by
  unfold onePlusLog2
  rcases h with h | h
  · rw [check_pos (Nat.div_eq_of_lt (by omega)), ob_some, check_neg (by omega)]
    rfl
  · rw [check_neg (by
      intro h0
      have := (Nat.div_eq_zero_iff).mp h0
      omega)]
    rfl

theorem stretchLog2_general {f : Nat} (h0 : f ≠ 0) (h : f < 2 ^ 31) :
    stretchLog2 f = some (((min (2 ^ 31 - 1) (fastLoop 31 0 (f * 2 ^ (30 - Nat.log2 f)) + 32) / 64 : Nat) : Int) -
      ((31 - Nat.log2 f : Nat) : Int) * 33554432) := by
  obtain ⟨h1, h2, h3, h4⟩ := leading h0 h
  obtain ⟨o1, o2⟩ := onePlusLog2_eq h3 h4
  unfold stretchLog2
  rw [check_pos h0, ob_some]
  dsimp only
  rw [h1, check_pos (by omega), ob_some, show 31 - Nat.log2 f - 1 = 30 - Nat.log2 f by omega,
    show wrapU32 (f * 2 ^ (30 - Nat.log2 f)) = f * 2 ^ (30 - Nat.log2 f) by rw [wrapU32_eq (by omega)],
    fu_new h4, ob_some, o1, ob_some, wrapI32_eq (by omega), fi_new (by omega), ob_some]
  generalize fastLoop 31 0 (f * 2 ^ (30 - Nat.log2 f)) = m at o2
  have hs := scaledDownI_nonneg (w := 32) (raw := m) (s := 6) (by norm_num) (by norm_num) (by omega)
  have hd : toFixI 32 fractOnlyI32 stretchHelper (m : Int) = some ((min (2 ^ 31 - 1) (m + 32) / 64 : Nat) : Int) := by
    have e : toFixI 32 fractOnlyI32 stretchHelper (m : Int) = scaledDownI 32 (m : Int) 6 := by
      unfold toFixI
      rw [if_pos (by decide)]
      change (scaledDownI 32 (m : Int) 6 >>= fun r => stretchHelper.new r) = _
      cases scaledDownI 32 (m : Int) 6 <;> rfl
    rw [e, hs]
    split_ifs with hm
    · rw [hm]
      rfl
    · rfl
  rw [hd, ob_some]
  have hp : min (2 ^ 31 - 1) (m + 32) / 64 < 33554432 := by omega
  generalize min (2 ^ 31 - 1) (m + 32) / 64 = p at hp
  obtain ⟨c1, -⟩ := C46_signed 32 noFractI32 stretchHelper ((31 - Nat.log2 f : Nat) : Int)
    (by norm_num; omega) (by norm_num; omega)
  have c3 := c1 (by decide) (by decide)
  rw [i32_eq (by omega), ob_some,
    show (1 + ((31 - Nat.log2 f : Nat) : Int) - (32 - 31)) = ((31 - Nat.log2 f : Nat) : Int) by omega, c3]
  rw [if_pos (by simp only [noFractI32, stretchHelper]; norm_num; omega)]
  change (some (((31 - Nat.log2 f : Nat) : Int) * 33554432) >>= _) = _
  rw [ob_some]
  unfold subI32
  rw [i32_eq (by omega), ob_some]
  rfl

/-- **C89 (any fraction).** For every fraction between zero and one the logarithm used for the tables of stretch and squash is within one
unit of its last place of the real logarithm. -/
theorem C89_fraction (f : Nat) (h0 : 0 < f) (h : f < 2 ^ 31) :
    ∃ r : Int, stretchLog2 f = some r ∧ |(r : ℝ) / 2 ^ 25 - Real.logb 2 (f / 2 ^ 31)| ≤ 1 / 2 ^ 25 := by
  obtain ⟨k1, k2, k3, k4⟩ := leading h0.ne' h
  have hf : (0 : ℝ) < f := by exact_mod_cast h0
  obtain ⟨b1, b2⟩ := fastLoop_level 31 0 (f * 2 ^ (30 - Nat.log2 f)) k3 k4
  obtain ⟨-, l2⟩ := level_range k3 k4
  have hlev : level ((f * 2 ^ (30 - Nat.log2 f) : Nat) : ℝ) = Real.logb 2 (f / 2 ^ 31) + (31 - Nat.log2 f : Nat) := by
    unfold level
    push_cast
    rw [mul_div_right_comm, Real.logb_mul (by positivity) (by positivity), Real.logb_pow, Real.logb_self_eq_one (by norm_num),
      Nat.cast_sub (by omega), Nat.cast_sub (by omega)]
    push_cast
    ring
  refine ⟨_, stretchLog2_general h0.ne' h, ?_⟩
  obtain ⟨-, o2⟩ := onePlusLog2_eq k3 k4
  rw [hlev] at b1 b2 l2
  generalize fastLoop 31 0 (f * 2 ^ (30 - Nat.log2 f)) = m at *
  generalize Real.logb 2 (f / 2 ^ 31) = L at *
  generalize 31 - Nat.log2 f = e at *
  have hp : (64 * (min (2 ^ 31 - 1) (m + 32) / 64) ≤ m + 32) ∧ m ≤ 64 * (min (2 ^ 31 - 1) (m + 32) / 64) + 63 ∧
      (m < 2147483616 → m ≤ 64 * (min (2 ^ 31 - 1) (m + 32) / 64) + 32) ∧
      (2147483616 ≤ m → min (2 ^ 31 - 1) (m + 32) / 64 = 33554431) := by omega
  generalize min (2 ^ 31 - 1) (m + 32) / 64 = p at *
  obtain ⟨p1, p2, p3, p4⟩ := hp
  have e1 : (((p : Int) - (e : Int) * 33554432 : Int) : ℝ) / 2 ^ 25 - L = (p : ℝ) / 2 ^ 25 - (L + e) := by
    push_cast
    ring
  rw [e1]
  have p1' : (64 : ℝ) * p ≤ m + 32 := by exact_mod_cast p1
  rw [Nat.cast_zero, add_zero] at b1 b2
  rw [abs_le]
  norm_num at b1 b2 ⊢
  by_cases hm : m < 2147483616
  · have p3' : (m : ℝ) ≤ 64 * p + 32 := by exact_mod_cast p3 hm
    constructor <;> linarith
  · have hm' : (2147483616 : ℝ) ≤ m := by exact_mod_cast (by omega : 2147483616 ≤ m)
    rw [p4 (by omega)]
    push_cast
    constructor <;> linarith

/-- **C89 (zero).** The logarithm of zero, and of numbers with the highest bit, is refused. -/
theorem C89_fraction_domain (f : Nat) (h : f = 0 ∨ (2 ^ 31 ≤ f ∧ f < 2 ^ 32)) : stretchLog2 f = none := by
  unfold stretchLog2
  rcases h with h | ⟨h, h'⟩
  · rw [check_neg (by simpa using h)]
    rfl
  · rw [check_pos (by omega), ob_some]
    dsimp only
    rw [check_neg]
    · rfl
    · have : Nat.log2 f = 31 := by
        rw [Nat.log2_eq_iff (by omega)]
        omega
      unfold leadingZeros
      rw [if_neg (by omega), this]
      decide

/-- a concrete case: the fraction 0.3 -/
example : ∃ r : Int, stretchLog2 644245094 = some r ∧
    |(r : ℝ) / 2 ^ 25 - Real.logb 2 ((644245094 : Nat) / 2 ^ 31)| ≤ 1 / 2 ^ 25 ∧ r = -58282894 := by
  obtain ⟨r, h1, h2⟩ := C89_fraction 644245094 (by norm_num) (by norm_num)
  refine ⟨r, h1, h2, ?_⟩
  have : stretchLog2 644245094 = some (-58282894) := by decide +kernel
  rw [this] at h1
  exact (Option.some.inj h1).symm

/-- a concrete case: the number 0.75 -/
example : ∃ r, onePlusLog2 1610612736 = some r ∧ r < 2 ^ 31 ∧
    (r : ℝ) / 2 ^ 31 ≤ Real.logb 2 ((1610612736 : Nat) / 2 ^ 31) + 1 + 3 / 2 ^ 31 ∧
    Real.logb 2 ((1610612736 : Nat) / 2 ^ 31) + 1 < r / 2 ^ 31 + 4 / 2 ^ 31 :=
  C89_log2 1610612736 (by norm_num) (by norm_num)

end Verif.Lut
