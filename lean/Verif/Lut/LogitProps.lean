import Verif.Lut.RealProps
import Verif.Lut.ComposeProps

/-!
# Accuracy of squash relative to the probabilities of both bits (C47)
-/

namespace Verif.Lut

open Verif Verif.Fixed

attribute [local irreducible] squashTable stretchTable

/-- distance of a probability from the logistic function relative to the probabilities of both bits -/
theorem logistic_near_both {q x e : ℝ} (h0 : 0 < q) (h1 : q < 1) (he : |logit q - x| ≤ e) :
    |q - logistic x| * (1 - e) ≤ e * (q * (1 - q)) := by
  have hq := logistic_logit h0 h1
  have x0 := logistic_pos x
  have x1 := logistic_lt x
  have e0 : 0 ≤ e := le_trans (abs_nonneg _) he
  rw [abs_le] at he
  rcases le_total x (logit q) with h | h
  · obtain ⟨d1, d2⟩ := logistic_diff h
    rw [hq] at d1 d2
    generalize logistic x = s at *
    have d4 : 0 ≤ q - s := le_trans (mul_nonneg (sub_nonneg.mpr h) (mul_nonneg x0.le (sub_nonneg.mpr h1.le))) d1
    have d3 : q - s ≤ e * (q * (1 - s)) := le_trans d2 (mul_le_mul_of_nonneg_right (by linarith)
      (mul_nonneg h0.le (sub_nonneg.mpr x1.le)))
    have d5 : q * (q - s) * e ≤ 1 * (q - s) * e :=
      mul_le_mul_of_nonneg_right (mul_le_mul_of_nonneg_right h1.le d4) e0
    rw [abs_of_nonneg d4]
    linarith
  · obtain ⟨d1, d2⟩ := logistic_diff h
    rw [hq] at d1 d2
    generalize logistic x = s at *
    have d4 : 0 ≤ s - q := le_trans (mul_nonneg (sub_nonneg.mpr h) (mul_nonneg h0.le (sub_nonneg.mpr x1.le))) d1
    have d3 : s - q ≤ e * (s * (1 - q)) := le_trans d2 (mul_le_mul_of_nonneg_right (by linarith)
      (mul_nonneg x0.le (sub_nonneg.mpr h1.le)))
    have d5 : (1 - q) * (s - q) * e ≤ 1 * (s - q) * e :=
      mul_le_mul_of_nonneg_right (mul_le_mul_of_nonneg_right (by linarith) d4) e0
    rw [abs_sub_comm, abs_of_nonneg d4]
    linarith

/-- range of squash in the middle -/
theorem squash_middle {x : Int} (h : |x| < 700 * 2 ^ 14) : ∃ r, squash squashTable x = some r ∧ 2 ^ 23 ≤ r ∧
    r ≤ 2 ^ 31 - 2 ^ 23 := by
  obtain ⟨j, d, hd, hj, hjd, rfl⟩ := squash_int (x := x) (by omega)
  refine ⟨_, squash_cell hd hjd, ?_⟩
  rw [abs_lt] at h
  obtain ⟨b1, b2⟩ := sqOut_between (j := j) (d := d) hd (by omega)
  have l := sqAt_le (m := 836) (n := j) (by omega) hj
  have u := sqAt_le (m := j + 1) (n := 2236) (by omega) (by omega)
  have s := sqAt_symm (j := 836) (by omega)
  rw [show 3072 - 836 = 2236 from rfl] at s
  have v : 8388608 ≤ sqAt 836 := by decide +kernel
  omega

/-- **C47 (squash, middle).** For arguments of magnitude below `700/128`, about 5.47, the logit of squash differs from the
argument by at most `12·10^-6`; the distance to the logistic function is at most `12·10^-6` times the product of the
probabilities of both bits. -/
theorem C47_squash_middle (lut : List (List Int)) (table : List Nat) (hlut : stretchLutNew = some lut)
    (htab : squashLutNew lut = some table) (x : Int) (hx : |x| < 700 * 2 ^ 14) :
    ∃ r, squash table x = some r ∧ |logit ((r : ℝ) / 2 ^ 31) - (x : ℝ) / 2 ^ 21| ≤ 12 / 10 ^ 6 ∧
      |(r : ℝ) / 2 ^ 31 - logistic ((x : ℝ) / 2 ^ 21)| ≤ 12 / 10 ^ 6 * ((r : ℝ) / 2 ^ 31 * (1 - (r : ℝ) / 2 ^ 31)) := by
  obtain ⟨r, s, q1, q2, -, q3⟩ := C100_stretch_squash lut table hlut htab x (by omega)
  have q3 := q3 (by omega)
  have hr : 2 ^ 23 ≤ r ∧ r ≤ 2 ^ 31 - 2 ^ 23 := by
    obtain rfl := Option.some.inj (stretchLut_eq.symm.trans hlut)
    obtain rfl := Option.some.inj ((squashLut_eq stretchTable_ok).symm.trans htab)
    obtain ⟨r', a, b⟩ := squash_middle hx
    rw [q1] at a
    cases a
    exact b
  obtain ⟨s', t1, t2⟩ := C47_stretch lut hlut r hr.1 hr.2
  rw [q2] at t1
  cases t1
  have q4 : |s - x| ≤ 20 := by omega
  have q5 : |(s : ℝ) - x| ≤ 20 := by exact_mod_cast q4
  have r0 : (0 : ℝ) < (r : ℝ) / 2 ^ 31 := by
    have : (0 : ℝ) < r := by exact_mod_cast (show 0 < r by omega)
    positivity
  have r1 : (r : ℝ) / 2 ^ 31 < 1 := by
    rw [div_lt_one (by positivity)]
    exact_mod_cast (show r < 2 ^ 31 by omega)
  have key : |logit ((r : ℝ) / 2 ^ 31) - (x : ℝ) / 2 ^ 21| ≤ 1154 / 10 ^ 8 := by
    generalize logit ((r : ℝ) / 2 ^ 31) = z at *
    rw [abs_le] at t2 q5 ⊢
    norm_num at t2 ⊢
    constructor <;> linarith
  refine ⟨r, q1, le_trans key (by norm_num), ?_⟩
  have hn := logistic_near_both r0 r1 key
  generalize |(r : ℝ) / 2 ^ 31 - logistic ((x : ℝ) / 2 ^ 21)| = w at *
  have hp : 0 ≤ (r : ℝ) / 2 ^ 31 * (1 - (r : ℝ) / 2 ^ 31) := mul_nonneg r0.le (by linarith)
  generalize (r : ℝ) / 2 ^ 31 * (1 - (r : ℝ) / 2 ^ 31) = v at *
  norm_num at hn ⊢
  linarith

/-- the hypotheses hold for concrete tables and a concrete argument -/
example : ∃ lut table, stretchLutNew = some lut ∧ squashLutNew lut = some table ∧ |(-10654321 : Int)| < 700 * 2 ^ 14 :=
  ⟨_, _, stretchLut_eq, squashLut_eq stretchTable_ok, by norm_num⟩

end Verif.Lut
