import Verif.Lut.SquashTables
import Mathlib.Tactic.IntervalCases

/-!
# Stretch on the segments of its grid
-/

namespace Verif.Lut

open Verif Verif.Fixed

/-- exponent of the width of the segments -/
def gExp (n : Nat) : Nat := if n < 512 then 14 else 13 + n / 512

/-- start of a segment -/
def gPoint (n : Nat) : Nat := if n < 512 then n * 16384 else (512 + n % 512) * 2 ^ (13 + n / 512)

/-- negated table value at the start of a segment -/
def gVal (n : Nat) : Nat :=
  if n = 4096 then 0 else if n = 0 then field 3585 else field (512 * (7 - n / 512) + n % 512)

theorem gPoint_succ (n : Nat) : gPoint n + 2 ^ gExp n = gPoint (n + 1) := by
  unfold gPoint gExp
  by_cases h : n < 512
  · rw [if_pos h, if_pos h]
    by_cases h2 : n + 1 < 512
    · rw [if_pos h2]; omega
    · have : n = 511 := by omega
      subst this
      norm_num
  · rw [if_neg h, if_neg h, if_neg (by omega)]
    by_cases h2 : n % 512 = 511
    · rw [show (n + 1) / 512 = n / 512 + 1 by omega, show (n + 1) % 512 = 0 by omega, h2,
        show 13 + (n / 512 + 1) = (13 + n / 512) + 1 by omega, pow_succ]
      ring
    · rw [show (n + 1) / 512 = n / 512 by omega, show (n + 1) % 512 = n % 512 + 1 by omega]
      ring

theorem gPoint_mono {m n : Nat} (h : m ≤ n) : gPoint m ≤ gPoint n := by
  induction n, h using Nat.le_induction with
  | base => exact le_refl _
  | succ n _ ih =>
    have := gPoint_succ n
    have : 0 < 2 ^ gExp n := by positivity
    omega

theorem gPoint_end : gPoint 4096 = 2 ^ 30 := rfl

theorem gPoint_zero : gPoint 0 = 0 := rfl

/-- every number belongs to one segment -/
theorem cell_exists {p : Nat} (h : p < 2 ^ 30) : ∃ n, n < 4096 ∧ ∃ d, d < 2 ^ gExp n ∧ p = gPoint n + d := by
  have key : ∀ N, p < gPoint N → ∃ n, n < N ∧ ∃ d, d < 2 ^ gExp n ∧ p = gPoint n + d := by
    intro N
    induction N with
    | zero => intro h; rw [gPoint_zero] at h; omega
    | succ N ih =>
      intro hN
      by_cases h2 : p < gPoint N
      · obtain ⟨n, a, b⟩ := ih h2
        exact ⟨n, by omega, b⟩
      · rw [← gPoint_succ] at hN
        exact ⟨N, by omega, p - gPoint N, by omega, by omega⟩
  exact key 4096 (by rw [gPoint_end]; exact h)

/-- stretch on a segment -/
theorem stretch_cell {n d : Nat} (hn : n < 4096) (hd : d < 2 ^ gExp n) (h0 : gPoint n + d ≠ 0) :
    stretchMag (gPoint n + d) = gVal n - sq31 (gVal n) (d * 2 ^ (31 - gExp n)) +
      sq31 (gVal (n + 1)) (d * 2 ^ (31 - gExp n)) := by
  have hmag : ∀ p, stretchMag p =
      leftMag (min 7 (29 - Nat.log2 p)) (p * 2 ^ (bif (min 7 (29 - Nat.log2 p)).beq 7 then 9 else
        min 7 (29 - Nat.log2 p) + 3) % 4294967296 / 8388608) -
      sq31 (leftMag (min 7 (29 - Nat.log2 p)) (p * 2 ^ (bif (min 7 (29 - Nat.log2 p)).beq 7 then 9 else
        min 7 (29 - Nat.log2 p) + 3) % 4294967296 / 8388608)) (p * 2 ^ ((bif (min 7 (29 - Nat.log2 p)).beq 7 then 9 else
        min 7 (29 - Nat.log2 p) + 3) + 9) % 4294967296 / 2) +
      sq31 (rightMag (min 7 (29 - Nat.log2 p)) (p * 2 ^ (bif (min 7 (29 - Nat.log2 p)).beq 7 then 9 else
        min 7 (29 - Nat.log2 p) + 3) % 4294967296 / 8388608)) (p * 2 ^ ((bif (min 7 (29 - Nat.log2 p)).beq 7 then 9 else
        min 7 (29 - Nat.log2 p) + 3) + 9) % 4294967296 / 2) := fun _ => rfl
  rw [hmag]
  by_cases h : n < 512
  · have he : gExp n = 14 := by unfold gExp; rw [if_pos h]
    have hp : gPoint n = n * 16384 := by unfold gPoint; rw [if_pos h]
    rw [he] at hd ⊢
    rw [hp] at h0 ⊢
    have hl : Nat.log2 (n * 16384 + d) < 23 := (Nat.log2_lt h0).mpr (by omega)
    rw [show min 7 (29 - Nat.log2 (n * 16384 + d)) = 7 by omega, show Nat.beq 7 7 = true from rfl, cond_true,
      show (n * 16384 + d) * 2 ^ 9 % 4294967296 / 8388608 = n by omega,
      show (n * 16384 + d) * 2 ^ (9 + 9) % 4294967296 / 2 = d * 2 ^ (31 - 14) by omega]
    have e1 : leftMag 7 n = gVal n := by
      unfold leftMag gVal
      rw [if_neg (by omega)]
      by_cases hz : n = 0
      · subst hz; rfl
      · have hb : Nat.beq n 0 = false := by rw [Bool.eq_false_iff]; simpa using hz
        rw [hb, Bool.false_and, cond_false, if_neg hz]
        congr 1
        omega
    have e2 : rightMag 7 n = gVal (n + 1) := by
      unfold rightMag gVal
      rw [if_neg (by omega), if_neg (by omega)]
      by_cases hz : n = 511
      · subst hz; rfl
      · have hb : Nat.beq n 511 = false := by rw [Bool.eq_false_iff]; simpa using hz
        rw [hb, cond_false]
        congr 1
        omega
    rw [e1, e2]
  · have he : gExp n = 13 + n / 512 := by unfold gExp; rw [if_neg h]
    have hp : gPoint n = (512 + n % 512) * 2 ^ (13 + n / 512) := by unfold gPoint; rw [if_neg h]
    rw [he] at hd ⊢
    rw [hp] at h0 ⊢
    obtain ⟨b, hb⟩ : ∃ b, b = n / 512 := ⟨_, rfl⟩
    obtain ⟨i, hi⟩ : ∃ i, i = n % 512 := ⟨_, rfl⟩
    have hn' : n = 512 * b + i := by omega
    rw [← hb] at hd ⊢ h0
    rw [← hi] at h0 ⊢
    have hb1 : 1 ≤ b := by omega
    have hb2 : b ≤ 7 := by omega
    have hi2 : i < 512 := by omega
    clear hb hi h hp he
    have hl : Nat.log2 ((512 + i) * 2 ^ (13 + b) + d) = 22 + b := by
      rw [Nat.log2_eq_iff h0]
      have e1 : 2 ^ (22 + b) = 512 * 2 ^ (13 + b) := by rw [show 22 + b = 9 + (13 + b) by omega, pow_add]; rfl
      have e2 : 2 ^ (22 + b + 1) = 1024 * 2 ^ (13 + b) := by rw [show 22 + b + 1 = 10 + (13 + b) by omega, pow_add]; rfl
      rw [e1, e2]
      constructor <;> nlinarith
    rw [hl, show min 7 (29 - (22 + b)) = 7 - b by omega]
    have hbq : Nat.beq (7 - b) 7 = false := by
      rw [Bool.eq_false_iff, ne_eq, Nat.beq_eq]
      omega
    rw [hbq, cond_false]
    have ei : ((512 + i) * 2 ^ (13 + b) + d) * 2 ^ (7 - b + 3) % 4294967296 / 8388608 = i ∧
        ((512 + i) * 2 ^ (13 + b) + d) * 2 ^ (7 - b + 3 + 9) % 4294967296 / 2 = d * 2 ^ (31 - (13 + b)) := by
      interval_cases b <;> norm_num at hd ⊢ <;> constructor <;> omega
    rw [ei.1, ei.2]
    have e1 : leftMag (7 - b) i = gVal n := by
      unfold leftMag gVal
      rw [hbq, Bool.and_false, cond_false, if_neg (by omega), if_neg (by omega)]
      congr 1
      omega
    have e2 : rightMag (7 - b) i = gVal (n + 1) := by
      unfold rightMag gVal
      by_cases hz : i = 511
      · rw [hz, show Nat.beq 511 511 = true from rfl, cond_true]
        by_cases h7 : b = 7
        · subst h7
          rw [if_pos (by omega)]
          rfl
        · have hb0 : Nat.beq (7 - b) 0 = false := by
            rw [Bool.eq_false_iff, ne_eq, Nat.beq_eq]
            omega
          rw [hb0, cond_false, if_neg (by omega), if_neg (by omega)]
          congr 1
          omega
      · have hb : Nat.beq i 511 = false := by rw [Bool.eq_false_iff]; simpa using hz
        rw [hb, cond_false, if_neg (by omega), if_neg (by omega)]
        congr 1
        omega
    rw [e1, e2]

theorem gVal_step {n : Nat} (hn : n < 4096) : gVal (n + 1) ≤ gVal n := by
  unfold gVal
  rw [if_neg (show n ≠ 4096 by omega), if_neg (show n + 1 ≠ 0 by omega)]
  by_cases h1 : n + 1 = 4096
  · rw [if_pos h1]; exact Nat.zero_le _
  · rw [if_neg h1]
    by_cases h0 : n = 0
    · subst h0
      rw [if_pos rfl]
    · rw [if_neg h0]
      have := List.all_eq_true.mp step_ok (512 * (7 - n / 512) + n % 512) (List.mem_range.mpr (by omega))
      unfold stepOk at this
      have hne : Nat.beq (512 * (7 - n / 512) + n % 512) 3584 = false := by
        rw [Bool.eq_false_iff, ne_eq, Nat.beq_eq]; omega
      rw [hne, Bool.false_or, show (512 * (7 - n / 512) + n % 512) % 512 = n % 512 by omega,
        show (512 * (7 - n / 512) + n % 512) / 512 = 7 - n / 512 by omega] at this
      by_cases h2 : n % 512 = 511
      · rw [h2, show Nat.beq 511 511 = true from rfl, cond_true] at this
        have hb : Nat.beq (7 - n / 512) 0 = false := by rw [Bool.eq_false_iff, ne_eq, Nat.beq_eq]; omega
        rw [hb, cond_false, Nat.ble_eq] at this
        rw [show 512 * (7 - (n + 1) / 512) + (n + 1) % 512 = 512 * (7 - n / 512 - 1) by omega, h2]
        exact this
      · have hb : Nat.beq (n % 512) 511 = false := by rw [Bool.eq_false_iff, ne_eq, Nat.beq_eq]; exact h2
        rw [hb, cond_false, Nat.ble_eq] at this
        rw [show 512 * (7 - (n + 1) / 512) + (n + 1) % 512 = 512 * (7 - n / 512) + n % 512 + 1 by omega]
        exact this

theorem gVal_mono {m n : Nat} (h : m ≤ n) (hn : n ≤ 4096) : gVal n ≤ gVal m := by
  induction n, h using Nat.le_induction with
  | base => exact le_refl _
  | succ n _ ih => exact le_trans (gVal_step (by omega)) (ih (by omega))

theorem gVal_zero : gVal 0 = 24711779 := by
  unfold gVal
  rw [if_neg (by norm_num), if_pos rfl]
  decide +kernel

theorem gVal_le {n : Nat} (hn : n ≤ 4096) : gVal n ≤ 24711779 := by
  rw [← gVal_zero]
  exact gVal_mono (Nat.zero_le n) hn

theorem sq31_zero (a : Nat) : sq31 a 0 = 0 := by unfold sq31; omega

/-- value at the grid points -/
theorem stretch_point {n : Nat} (hn : n < 4096) (h0 : n ≠ 0) : stretchMag (gPoint n) = gVal n := by
  have hp : 0 < gPoint n := by
    unfold gPoint
    by_cases h : n < 512
    · rw [if_pos h]; omega
    · rw [if_neg h]; positivity
  have := stretch_cell hn (d := 0) (by positivity) (by omega)
  rwa [Nat.add_zero, Nat.zero_mul, sq31_zero, sq31_zero, Nat.add_zero, Nat.sub_zero] at this

/-! ## Interpolation -/

theorem sq31_mono {a b : Nat} (w : Nat) (h : a ≤ b) : sq31 a w ≤ sq31 b w := by
  unfold sq31
  have : a * w ≤ b * w := Nat.mul_le_mul_right _ h
  omega

theorem sq31_gap {a b w : Nat} (hw : w < 2147483648) (h : a ≤ b) : sq31 b w ≤ sq31 a w + (b - a) := by
  unfold sq31
  have h1 : b * w = a * w + (b - a) * w := by rw [← Nat.add_mul]; congr 1; omega
  have h2 : (b - a) * w ≤ (b - a) * 2147483648 := Nat.mul_le_mul_left _ (by omega)
  generalize a * w = x at *
  generalize b * w = y at *
  generalize (b - a) * w = z at *
  omega

theorem sq31_exact (a w : Nat) : 2147483648 * sq31 a w ≤ a * w + 1073741824 ∧
    a * w < 2147483648 * sq31 a w + 1073741824 := by
  unfold sq31
  generalize a * w = x
  omega

/-- decreasing interpolation (magnitudes of stretch) -/
theorem down_between {l r w : Nat} (hw : w < 2147483648) (h : r ≤ l) :
    r ≤ l - sq31 l w + sq31 r w ∧ l - sq31 l w + sq31 r w ≤ l := by
  have h1 := sq31_le (a := l) hw
  have h2 := sq31_mono w h
  have h3 := sq31_gap hw h
  omega

/-- increasing interpolation (squash) -/
theorem up_between {l r w : Nat} (hw : w < 2147483648) (h : l ≤ r) :
    l ≤ l - sq31 l w + sq31 r w ∧ l - sq31 l w + sq31 r w ≤ r := by
  have h1 := sq31_le (a := l) hw
  have h2 := sq31_mono w h
  have h3 := sq31_gap hw h
  omega

/-- exactness of interpolation -/
theorem interp_exact {l r w : Nat} (hw : w < 2147483648) :
    |((l - sq31 l w + sq31 r w : Nat) : Int) * 2147483648 - ((l : Int) * (2147483648 - w) + r * w)| <
      2147483648 := by
  have h1 := sq31_le (a := l) hw
  obtain ⟨a1, a2⟩ := sq31_exact l w
  obtain ⟨b1, b2⟩ := sq31_exact r w
  rw [Nat.cast_add, Nat.cast_sub h1, mul_sub]
  have e1 : (l : Int) * w = ((l * w : Nat) : Int) := by push_cast; rfl
  have e2 : (r : Int) * w = ((r * w : Nat) : Int) := by push_cast; rfl
  rw [e1, e2]
  generalize l * w = x at *
  generalize r * w = y at *
  generalize sq31 l w = s at *
  generalize sq31 r w = t at *
  rw [abs_lt]
  constructor <;> omega

end Verif.Lut
