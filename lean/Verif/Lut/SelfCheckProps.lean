import Verif.Lut.SelfCheck
import Verif.Lut.RealProps
import Verif.Float.Props
import Verif.Pred.Tables

/-! # The floating point checks in the constructors of the tables (C72) -/

namespace Verif.Lut

open Verif Verif.Fixed Verif.Float

/-- a logarithm with an absolute error of at most `10^-7` on the odds that occur -/
def LnOk (ln : ℚ → ℚ) : Prop := ∀ x : ℚ, IsF64 x → 1 / 2 ^ 31 ≤ x → x ≤ 1 → |((ln x : ℚ) : ℝ) - Real.log x| ≤ 1 / 10 ^ 7

/-- an exponential function with an absolute error of at most `10^-9` from -12 to 0 -/
def ExpOk (exp : ℚ → ℚ) : Prop := ∀ x : ℚ, IsF64 x → -12 ≤ x → x ≤ 0 → |((exp x : ℚ) : ℝ) - Real.exp x| ≤ 1 / 10 ^ 9

/-- an operation with a moderate result has a small absolute error -/
theorem fl_near {q : ℚ} (h : |q| ≤ 2 ^ 12) : ∃ r, fl q = some r ∧ |r - q| ≤ 1 / 2 ^ 41 := by
  have h1 : IsF64 (rnd q) := isF64_rnd (h.trans (pow_le_pow_right₀ (by norm_num) (by norm_num)))
  refine ⟨rnd q, ?_, ?_⟩
  · unfold fl
    rw [if_pos h1.2]
  · have hn := halfEven_near (q * 2 ^ 40)
    have hm : |halfEven (q * 2 ^ 40)| ≤ 2 ^ 53 := by
      obtain ⟨a, b⟩ := abs_le.mp hn
      obtain ⟨c, d⟩ := abs_le.mp h
      have : |(halfEven (q * 2 ^ 40) : ℚ)| ≤ 2 ^ 53 := by
        rw [abs_le]
        norm_num at a b c d ⊢
        constructor <;> linarith
      rw [← Int.cast_abs] at this
      exact_mod_cast this
    have hf := (isF64_int (k := -40) hm (by norm_num) (by norm_num)).1
    refine (rounded_best (by norm_num) q hf).trans ?_
    have e : (halfEven (q * 2 ^ 40) : ℚ) * 2 ^ (-40 : ℤ) - q = ((halfEven (q * 2 ^ 40) : ℚ) - q * 2 ^ 40) * 2 ^ (-40 : ℤ) := by
      norm_num
      ring
    rw [e, abs_mul, abs_of_pos (two_pos_zpow (-40))]
    have : (2 : ℚ) ^ (-40 : ℤ) = 1 / 2 ^ 40 := by norm_num
    rw [this]
    norm_num at hn ⊢
    linarith

theorem mapM_ext {α β : Type} {f g : α → Option β} : ∀ {l : List α}, (∀ a ∈ l, f a = g a) → l.mapM f = l.mapM g := by
  intro l
  induction l with
  | nil => intro _; rfl
  | cons a l ih =>
    intro h
    rw [List.mapM_cons, List.mapM_cons, h a (by simp), ih (fun b hb => h b (by simp [hb]))]

theorem tolerance_near : |tolerance - 1 / 10 ^ 6| ≤ 1 / 2 ^ 41 := by
  obtain ⟨r, h1, h2⟩ := fl_near (q := 1 / 10 ^ 6) (by norm_num)
  unfold fl at h1
  split at h1
  · obtain rfl := Option.some.inj h1
    exact h2
  · cases h1

/-- the odds computed in floating point -/
theorem odds_near {p : Nat} (h0 : 0 < p) (h : p < 2 ^ 30) : ∃ z : ℚ, IsF64 z ∧ 1 / 2 ^ 31 ≤ z ∧ z ≤ 1 ∧
    asF64U fractOnlyU32 p = some ((p : ℚ) / 2 ^ 31) ∧ fSub 1 ((p : ℚ) / 2 ^ 31) = some (1 - (p : ℚ) / 2 ^ 31) ∧
    fDiv ((p : ℚ) / 2 ^ 31) (1 - (p : ℚ) / 2 ^ 31) = some z ∧ |Real.log z - logit ((p : ℝ) / 2 ^ 31)| ≤ 1 / 2 ^ 52 := by
  have hp0 : (1 : ℚ) ≤ p := by exact_mod_cast h0
  have hp : (p : ℚ) ≤ 2 ^ 30 - 1 := by
    have : ((p + 1 : ℕ) : ℚ) ≤ ((2 ^ 30 : ℕ) : ℚ) := by exact_mod_cast h
    push_cast at this
    linarith
  have hy : (1 : ℚ) / 2 ≤ 1 - (p : ℚ) / 2 ^ 31 := by
    have := div_le_div_of_nonneg_right hp (show (0 : ℚ) ≤ 2 ^ 31 by norm_num)
    linarith
  have hy1 : 1 - (p : ℚ) / 2 ^ 31 ≤ 1 := by
    have : (0 : ℚ) ≤ (p : ℚ) / 2 ^ 31 := by positivity
    linarith
  have hq1 : (p : ℚ) / 2 ^ 31 / (1 - (p : ℚ) / 2 ^ 31) ≤ 1 := by
    rw [div_le_one (by linarith)]
    linarith
  have hq0 : (1 : ℚ) / 2 ^ 31 ≤ (p : ℚ) / 2 ^ 31 / (1 - (p : ℚ) / 2 ^ 31) := by
    rw [le_div_iff₀ (by linarith)]
    calc (1 : ℚ) / 2 ^ 31 * (1 - p / 2 ^ 31) ≤ 1 / 2 ^ 31 * 1 := mul_le_mul_of_nonneg_left hy1 (by norm_num)
      _ ≤ (p : ℚ) / 2 ^ 31 := by rw [mul_one]; exact div_le_div_of_nonneg_right hp0 (by norm_num)
  obtain ⟨q, hq⟩ : ∃ q, q = (p : ℚ) / 2 ^ 31 / (1 - (p : ℚ) / 2 ^ 31) := ⟨_, rfl⟩
  have hx := C65_exact_unsigned fractOnlyU32 (by decide) p (by omega)
  refine ⟨rnd q, isF64_rnd (by rw [hq, abs_of_nonneg (by linarith)]; exact hq1.trans (one_le_pow₀ (by norm_num))), ?_, ?_, hx, ?_, ?_, ?_⟩
  · have m := rounded_mono (p := 53) (by norm_num) (-1074) hq0
    have f := rounded_fits (isF64_int (m := 1) (k := -31) (by norm_num) (by norm_num) (by norm_num)).1
    have e : ((1 : ℤ) : ℚ) * 2 ^ (-31 : ℤ) = 1 / 2 ^ 31 := by norm_num
    rw [e] at f
    rw [f, ← hq] at m
    exact m
  · have m := rounded_mono (p := 53) (by norm_num) (-1074) hq1
    have f := rounded_fits (isF64_int (m := 1) (k := 0) (by norm_num) (by norm_num) (by norm_num)).1
    have e : ((1 : ℤ) : ℚ) * 2 ^ (0 : ℤ) = 1 := by norm_num
    rw [e] at f
    rw [f, ← hq] at m
    exact m
  · have f := isF64_int (m := 2 ^ 31 - p) (k := -31) (by rw [abs_of_nonneg (by omega)]; omega) (by norm_num) (by norm_num)
    have e : (((2 ^ 31 - p : ℤ)) : ℚ) * 2 ^ (-31 : ℤ) = 1 - (p : ℚ) / 2 ^ 31 := by
      push_cast
      rw [show (2 : ℚ) ^ (-31 : ℤ) = 1 / 2 ^ 31 by norm_num]
      ring
    rw [e] at f
    exact fl_fits f
  · unfold fDiv
    rw [if_neg (by linarith), ← hq]
    unfold fl
    rw [if_pos (isF64_rnd (by rw [hq, abs_of_nonneg (by linarith)]; exact hq1.trans (one_le_pow₀ (by norm_num)))).2]
  · rw [← hq] at hq0 hq1
    have r := rnd_relative (q := q) (by
      rw [abs_of_nonneg (by linarith)]
      refine le_trans ?_ hq0
      rw [show (1 : ℚ) / 2 ^ 31 = 2 ^ (-31 : ℤ) by norm_num]
      exact zpow_le_zpow_right₀ (by norm_num) (by norm_num))
    have hq0' : 0 < q := lt_of_lt_of_le (by norm_num) hq0
    rw [abs_of_pos hq0', show (2 : ℚ) ^ (-53 : ℤ) = 1 / 2 ^ 53 by norm_num] at r
    have hr : |(rnd q : ℝ) - (q : ℝ)| ≤ (q : ℝ) * (1 / 2 ^ 53) := by
      have : ((|rnd q - q| : ℚ) : ℝ) ≤ ((q * (1 / 2 ^ 53) : ℚ) : ℝ) := by exact_mod_cast r
      push_cast at this
      exact this
    have hlog : logit ((p : ℝ) / 2 ^ 31) = Real.log (q : ℝ) := by
      unfold logit
      rw [hq]
      push_cast
      rfl
    rw [hlog]
    have hqr : (0 : ℝ) < q := by exact_mod_cast hq0'
    generalize (rnd q : ℝ) = z at *
    generalize (q : ℝ) = w at *
    obtain ⟨r1, r2⟩ := abs_le.mp hr
    have hz : 0 < z := by
      have : w * (1 / 2 ^ 53) ≤ w * (1 / 2) := mul_le_mul_of_nonneg_left (by norm_num) hqr.le
      linarith
    rw [abs_le]
    constructor
    · have g := Real.log_le_sub_one_of_pos (show 0 < w / z by positivity)
      rw [Real.log_div hqr.ne' hz.ne'] at g
      have : w / z ≤ 1 + 1 / 2 ^ 52 := by
        rw [div_le_iff₀ hz]
        norm_num at r1 ⊢
        linarith
      linarith
    · have g := Real.log_le_sub_one_of_pos (show 0 < z / w by positivity)
      rw [Real.log_div hz.ne' hqr.ne'] at g
      have : z / w ≤ 1 + 1 / 2 ^ 52 := by
        rw [div_le_iff₀ hqr]
        norm_num at r2 ⊢
        linarith
      linarith

/-- the check, up to the final comparison -/
theorem check_near {ln : ℚ → ℚ} (hln : LnOk ln) {p : Nat} (h0 : 0 < p) (h : p < 2 ^ 30) {v : Int} (hv : |v| ≤ 2 ^ 31) :
    ∃ d : ℚ, selfCheck ln p v = check (|d| < tolerance) ∧
      |(d : ℝ) - (logit ((p : ℝ) / 2 ^ 31) - (v : ℝ) / 2 ^ 21)| ≤ 11 / 10 ^ 8 := by
  obtain ⟨z, z1, z2, z3, h1, h2, h3, h4⟩ := odds_near h0 h
  have h5 := C65_exact stretchedProbD (by decide) v (by omega)
  have hl := hln z z1 z2 z3
  have hz0 : (0 : ℝ) < z := by
    have : (0 : ℚ) < z := lt_of_lt_of_le (by norm_num) z2
    exact_mod_cast this
  have hz1 : Real.log z ≤ 0 := Real.log_nonpos hz0.le (by exact_mod_cast z3)
  have hz2 : -31 ≤ Real.log z := by
    have a : Real.log (1 / 2 ^ 31) ≤ Real.log z := by
      apply Real.log_le_log (by norm_num)
      have : ((1 / 2 ^ 31 : ℚ) : ℝ) ≤ z := by exact_mod_cast z2
      push_cast at this
      exact this
    rw [one_div, Real.log_inv, Real.log_pow] at a
    have := Real.log_two_lt_d9
    push_cast at a
    linarith
  have hvr : |(v : ℝ) / 2 ^ 21| ≤ 2 ^ 10 := by
    rw [abs_div, abs_of_pos (show (0 : ℝ) < 2 ^ 21 by norm_num), div_le_iff₀ (by norm_num)]
    have : ((|v| : ℤ) : ℝ) ≤ ((2 ^ 31 : ℤ) : ℝ) := by exact_mod_cast hv
    push_cast at this
    norm_num at this ⊢
    linarith
  have hd : |ln z - (v : ℚ) / 2 ^ 21| ≤ 2 ^ 12 := by
    have : |((ln z : ℚ) : ℝ) - (v : ℝ) / 2 ^ 21| ≤ 2 ^ 12 := by
      rw [abs_le] at hl hvr ⊢
      norm_num at hl hvr ⊢
      constructor <;> linarith
    have e : ((|ln z - (v : ℚ) / 2 ^ 21| : ℚ) : ℝ) ≤ ((2 ^ 12 : ℚ) : ℝ) := by push_cast; exact this
    exact_mod_cast e
  obtain ⟨d, g1, g2⟩ := fl_near hd
  refine ⟨d, ?_, ?_⟩
  · unfold selfCheck
    rw [h5, ob_some, h1, ob_some, h2, ob_some, h3, ob_some]
    have : fSub (ln z) ((v : ℚ) / 2 ^ stretchedProbD.frac) = some d := g1
    rw [this, ob_some]
  · have g : |(d : ℝ) - (((ln z : ℚ) : ℝ) - (v : ℝ) / 2 ^ 21)| ≤ 1 / 2 ^ 41 := by
      have : ((|d - (ln z - (v : ℚ) / 2 ^ 21)| : ℚ) : ℝ) ≤ ((1 / 2 ^ 41 : ℚ) : ℝ) := by exact_mod_cast g2
      push_cast at this
      exact this
    rw [abs_le] at g h4 hl ⊢
    norm_num at g h4 hl ⊢
    constructor <;> linarith

/-- **C72 (meaning).** With a logarithm accurate to `10^-7` the check of an entry passes if the entry is within
`8·10^-7` of the logit, and fails if it is `12·10^-7` away. -/
theorem C72_check (ln : ℚ → ℚ) (hln : LnOk ln) (p : Nat) (h0 : 0 < p) (h : p < 2 ^ 30) (v : Int) (hv : |v| ≤ 2 ^ 31) :
    (|(v : ℝ) / 2 ^ 21 - logit ((p : ℝ) / 2 ^ 31)| ≤ 8 / 10 ^ 7 → selfCheck ln p v = some ()) ∧
    (12 / 10 ^ 7 ≤ |(v : ℝ) / 2 ^ 21 - logit ((p : ℝ) / 2 ^ 31)| → selfCheck ln p v = none) := by
  obtain ⟨d, h1, h2⟩ := check_near hln h0 h hv
  have t := tolerance_near
  have t' : |(tolerance : ℝ) - 1 / 10 ^ 6| ≤ 1 / 2 ^ 41 := by
    have : ((|tolerance - 1 / 10 ^ 6| : ℚ) : ℝ) ≤ ((1 / 2 ^ 41 : ℚ) : ℝ) := by exact_mod_cast t
    push_cast at this
    exact this
  rw [h1, abs_sub_comm]
  generalize logit ((p : ℝ) / 2 ^ 31) - (v : ℝ) / 2 ^ 21 = D at *
  rw [abs_le] at h2 t'
  constructor
  · intro hD
    have : |(d : ℝ)| < tolerance := by
      rw [abs_le] at hD
      rw [abs_lt]
      norm_num at h2 t' hD
      constructor <;> linarith
    rw [check_pos (by exact_mod_cast this)]
  · intro hD
    have : ¬ |(d : ℝ)| < tolerance := by
      rw [abs_lt]
      rintro ⟨a, b⟩
      norm_num at h2 t' hD
      rcases le_abs'.mp hD with c | c <;> linarith
    rw [check_neg (by exact_mod_cast this)]

theorem entry_checked {ln : ℚ → ℚ} (hln : LnOk ln) {l i : Nat} (hl : l < 8) (hi : i < 512) (h : ¬ (l = 7 ∧ i = 0)) :
    stretchEntryChecked ln l i = stretchEntry l i := by
  obtain ⟨e1, e2⟩ := entryInput_eq hl hi
  have e0 := entryIn_pos hl h
  have hk := entry_facts (k := 512 * l + i) (by omega) (by omega)
  rw [show (512 * l + i) / 512 = l by omega, show (512 * l + i) % 512 = i by omega] at hk
  obtain ⟨h1, -, -, h4, -⟩ := hk
  obtain ⟨h5, h6⟩ := stretchEntry_eq hl hi h
  unfold stretchEntryChecked
  rw [e1, ob_some, h5, ob_some]
  unfold entryMag at h1
  have := entryMag_real e0 e2 h4
  rw [h1] at this
  have hc := (C72_check ln hln _ e0 e2 (-(field (512 * l + i) : Int)) (by
    rw [abs_neg, abs_of_nonneg (by omega)]; omega)).1
  rw [hc, ob_some]
  rw [logit_odds (by exact_mod_cast e0) (by
    have : entryIn l i < 2 ^ 31 := by omega
    exact_mod_cast this)]
  rw [abs_le] at this ⊢
  push_cast
  norm_num at this ⊢
  constructor <;> linarith

/-- **C72 (stretch).** With every logarithm accurate to `10^-7` all checks of the constructor pass; the table does not
depend on the logarithm. -/
theorem C72_stretch (ln : ℚ → ℚ) (hln : LnOk ln) : ∃ lut, stretchLutChecked ln = some lut ∧ stretchLutNew = some lut := by
  refine ⟨stretchTable, ?_, stretchLut_eq⟩
  rw [← stretchLut_eq]
  unfold stretchLutChecked stretchLutNew
  have h1 : addU32 fractOnlyU32 (levelStart 7) (levelStep 7) = some minAccurate := by decide
  rw [h1, ob_some, ob_some, check_pos rfl, ob_some, ob_some]
  have hlev : ∀ l ∈ List.range 8, stretchLevelChecked ln l = stretchLevel l := by
    intro l hl
    rw [List.mem_range] at hl
    unfold stretchLevelChecked stretchLevel
    refine mapM_ext ?_
    intro i hi
    rw [List.mem_range] at hi
    by_cases h : l = 7 ∧ i = 0
    · rw [if_pos h, if_pos h]
    · rw [if_neg h, if_neg h, entry_checked hln hl hi h]
  exact mapM_ext hlev

/-! ## Squash -/

/-- distance of the table entry for `k / 128` from the logistic function -/
noncomputable def pointError (k : Nat) : ℝ := |(sqField k : ℝ) / 2 ^ 31 - logistic ((k : ℝ) / 128)|

theorem round_near {exp : ℚ → ℚ} (hexp : ExpOk exp) (maxS m : ℚ) {k : Nat} (hk : k ≤ 1536) :
    ∃ e : ℚ, squashRound exp stretchTable maxS m k =
        some (sqField k, if (k : ℚ) / 128 ≤ maxS then max m |e| else m) ∧ |((|e| : ℚ) : ℝ) - pointError k| ≤ 1 / 10 ^ 8 := by
  obtain ⟨-, f2, -⟩ := sq_facts hk
  have hk' : (k : ℚ) ≤ 1536 := by exact_mod_cast hk
  have hk0 : (0 : ℚ) ≤ k := by positivity
  have hx := C65_exact stretchedProbD (by decide) (-((k : Int) * 2 ^ 14)) (by rw [abs_neg, abs_of_nonneg (by omega)]; omega)
  have ht := C65_exact stretchedProbD (by decide) ((k : Int) * 2 ^ 14) (by rw [abs_of_nonneg (by omega)]; omega)
  have ha := C65_exact_unsigned fractOnlyU32 (by decide) (sqField k) (by omega)
  have ex : (((-((k : Int) * 2 ^ 14) : ℤ)) : ℚ) / 2 ^ stretchedProbD.frac = -(k : ℚ) / 128 := by
    rw [show stretchedProbD.frac = 21 from rfl]
    push_cast
    ring
  have et : ((((k : Int) * 2 ^ 14 : ℤ)) : ℚ) / 2 ^ stretchedProbD.frac = (k : ℚ) / 128 := by
    rw [show stretchedProbD.frac = 21 from rfl]
    push_cast
    ring
  rw [ex] at hx
  rw [et] at ht
  have hF : IsF64 (-(k : ℚ) / 128) := by
    have := isF64_int (m := -(k : ℤ)) (k := -7) (by rw [abs_neg, abs_of_nonneg (by omega)]; omega) (by norm_num) (by norm_num)
    have e : ((-(k : ℤ) : ℤ) : ℚ) * 2 ^ (-7 : ℤ) = -(k : ℚ) / 128 := by
      push_cast
      norm_num
      ring
    rwa [e] at this
  have he := hexp _ hF (by linarith) (by linarith)
  have hE : Real.exp (((-(k : ℚ) / 128 : ℚ)) : ℝ) = Real.exp (-((k : ℝ) / 128)) := by
    push_cast
    congr 1
    ring
  rw [hE] at he
  have hp := Real.exp_pos (-((k : ℝ) / 128))
  have hp1 : Real.exp (-((k : ℝ) / 128)) ≤ 1 := by
    rw [Real.exp_le_one_iff]
    have : (0 : ℝ) ≤ (k : ℝ) / 128 := by positivity
    linarith
  obtain ⟨he1, he2⟩ := abs_le.mp he
  obtain ⟨E, hEd⟩ : ∃ E, E = Real.exp (-((k : ℝ) / 128)) := ⟨_, rfl⟩
  have hlog : logistic ((k : ℝ) / 128) = 1 / (1 + E) := by rw [hEd]; rfl
  rw [← hEd] at he1 he2 hp hp1
  generalize hexq : exp (-(k : ℚ) / 128) = eq at *
  obtain ⟨d, d1, d2⟩ := fl_near (q := 1 + eq) (by
    have : |((1 + eq : ℚ) : ℝ)| ≤ ((2 ^ 12 : ℚ) : ℝ) := by
      push_cast
      rw [abs_le]
      norm_num at he1 he2 ⊢
      constructor <;> linarith
    exact_mod_cast this)
  have d3 : |(d : ℝ) - (1 + eq)| ≤ 1 / 2 ^ 41 := by
    have : ((|d - (1 + eq)| : ℚ) : ℝ) ≤ ((1 / 2 ^ 41 : ℚ) : ℝ) := by exact_mod_cast d2
    push_cast at this
    exact this
  obtain ⟨d4, d5⟩ := abs_le.mp d3
  have dlow : (99 : ℝ) / 100 ≤ d := by norm_num at *; linarith
  have dlowq : (99 : ℚ) / 100 ≤ d := by
    have : ((99 / 100 : ℚ) : ℝ) ≤ d := by push_cast; exact dlow
    exact_mod_cast this
  have dinv : (1 : ℚ) / d ≤ 100 / 99 := by
    rw [div_le_iff₀ (by linarith)]
    linarith
  have dinv0 : (0 : ℚ) ≤ 1 / d := by
    have : (0 : ℚ) < d := by linarith
    positivity
  obtain ⟨q, q1, q2⟩ := fl_near (q := 1 / d) (by rw [abs_of_nonneg dinv0]; linarith)
  have q3 : |(q : ℝ) - 1 / d| ≤ 1 / 2 ^ 41 := by
    have : ((|q - 1 / d| : ℚ) : ℝ) ≤ ((1 / 2 ^ 41 : ℚ) : ℝ) := by exact_mod_cast q2
    push_cast at this
    exact this
  have hfr : (sqField k : ℚ) / 2 ^ 31 ≤ 1 := by
    rw [div_le_one (by norm_num)]
    have : ((sqField k : ℕ) : ℚ) ≤ ((2 ^ 31 : ℕ) : ℚ) := by exact_mod_cast f2.le
    push_cast at this
    exact this
  have hfr0 : (0 : ℚ) ≤ (sqField k : ℚ) / 2 ^ 31 := by positivity
  obtain ⟨qa, qb⟩ := abs_le.mp q2
  obtain ⟨e, e1, e2⟩ := fl_near (q := q - (sqField k : ℚ) / 2 ^ 31) (by
    clear hx ht ex et hE
    rw [abs_le]
    norm_num at qa qb dinv dinv0 hfr hfr0 ⊢
    have : (0 : ℚ) ≤ d⁻¹ := inv_nonneg.mpr dinv0
    constructor <;> linarith)
  have e3 : |(e : ℝ) - (q - (sqField k : ℝ) / 2 ^ 31)| ≤ 1 / 2 ^ 41 := by
    have : ((|e - (q - (sqField k : ℚ) / 2 ^ 31)| : ℚ) : ℝ) ≤ ((1 / 2 ^ 41 : ℚ) : ℝ) := by exact_mod_cast e2
    push_cast at this
    exact this
  have hdiff : |1 / (d : ℝ) - 1 / (1 + E)| ≤ 2 / 10 ^ 9 := by
    have hd0 : (0 : ℝ) < d := by linarith
    have hE0 : (0 : ℝ) < 1 + E := by linarith
    rw [div_sub_div _ _ hd0.ne' hE0.ne', abs_div, abs_of_pos (mul_pos hd0 hE0), div_le_iff₀ (mul_pos hd0 hE0)]
    have hm : (99 : ℝ) / 100 ≤ d * (1 + E) := by nlinarith
    rw [abs_le]
    norm_num at d4 d5 he1 he2 ⊢
    constructor <;> linarith
  refine ⟨e, ?_, ?_⟩
  · unfold squashRound
    have n1 : stretchedProbD.new ((k : Int) * 2 ^ 14) = some ((k : Int) * 2 ^ 14) := sp_new (by omega)
    have n2 : negI32 stretchedProbD ((k : Int) * 2 ^ 14) = some (-((k : Int) * 2 ^ 14)) := by
      unfold negI32
      rw [i32_eq (by omega), ob_some, sp_new (by omega)]
    have n3 : findSquashed stretchTable ((k : Int) * 2 ^ 14) = some (sqField k) := by
      have := find_eq stretchTable_ok hk
      unfold squashUpper at this
      rwa [n1, ob_some] at this
    have a1 : fAdd 1 eq = some d := d1
    have a2 : fDiv 1 d = some q := by
      unfold fDiv
      rw [if_neg (by linarith)]
      exact q1
    have a3 : fSub q ((sqField k : ℚ) / 2 ^ fractOnlyU32.frac) = some e := e1
    rw [n1, ob_some, n2, ob_some, hx, ob_some, hexq, a1, ob_some, a2, ob_some, n3, ob_some, ha, ob_some, a3, ob_some, ht, ob_some,
      abs_of_nonneg (show (0 : ℚ) ≤ (k : ℚ) / 128 by positivity)]
  · unfold pointError
    rw [hlog, abs_sub_comm ((sqField k : ℝ) / 2 ^ 31)]
    push_cast
    refine (abs_abs_sub_abs_le _ _).trans ?_
    rw [abs_le] at e3 q3 hdiff ⊢
    norm_num at e3 q3 hdiff ⊢
    constructor <;> linarith

theorem loop_near {exp : ℚ → ℚ} (hexp : ExpOk exp) (maxS : ℚ) : ∀ (n k : Nat) (m : ℚ), k + n ≤ 1537 →
    ∃ err, squashLoop exp stretchTable maxS k m n = some ((List.range' k n).map sqField, err) ∧ m ≤ err ∧
      (∀ j, k ≤ j → j < k + n → (j : ℚ) / 128 ≤ maxS → pointError j ≤ err + 1 / 10 ^ 8) ∧
      (err = m ∨ ∃ j, k ≤ j ∧ j < k + n ∧ (j : ℚ) / 128 ≤ maxS ∧ (err : ℝ) ≤ pointError j + 1 / 10 ^ 8) := by
  intro n
  induction n with
  | zero =>
    intro k m _
    exact ⟨m, rfl, le_refl _, fun j h1 h2 => by omega, .inl rfl⟩
  | succ n ih =>
    intro k m hn
    obtain ⟨e, h1, h2⟩ := round_near hexp maxS m (k := k) (by omega)
    obtain ⟨err, g1, g2, g3, g4⟩ := ih (k + 1) (if (k : ℚ) / 128 ≤ maxS then max m |e| else m) (by omega)
    obtain ⟨h3, h4⟩ := abs_le.mp h2
    refine ⟨err, ?_, ?_, ?_, ?_⟩
    · rw [squashLoop, h1, ob_some]
      dsimp only
      rw [g1, ob_some, List.range'_succ, List.map_cons]
    · refine le_trans ?_ g2
      split
      · exact le_max_left _ _
      · exact le_refl _
    · intro j j1 j2 j3
      rcases Nat.eq_or_lt_of_le j1 with rfl | j1
      · rw [if_pos j3] at g2
        have : ((|e| : ℚ) : ℝ) ≤ err := by exact_mod_cast (le_max_right _ _).trans g2
        linarith
      · exact g3 j (by omega) (by omega) j3
    · rcases g4 with g4 | ⟨j, j1, j2, j3⟩
      · by_cases hc : (k : ℚ) / 128 ≤ maxS
        · rw [if_pos hc] at g4
          rcases max_choice m |e| with hm | hm
          · exact .inl (g4.trans hm)
          · refine .inr ⟨k, le_refl _, by omega, hc, ?_⟩
            rw [g4, hm]
            linarith
        · rw [if_neg hc] at g4
          exact .inl g4
      · exact .inr ⟨j, by omega, by omega, j3⟩

/-- **C72 (squash).** With every exponential function accurate to `10^-9` the constructor makes the same table, and the
`max_error` it prints on request is, up to `10^-8`, the largest distance between the entries in the range of stretch and
the logistic function; it is below `2.4·10^-6`. -/
theorem C72_squash (exp : ℚ → ℚ) (hexp : ExpOk exp) (lut : List (List Int)) (hlut : stretchLutNew = some lut) :
    ∃ table err, squashLutChecked exp lut = some (table, err) ∧ squashLutNew lut = some table ∧ (err : ℝ) ≤ 24 / 10 ^ 7 ∧
      (∀ k r : Nat, (k : Int) * 2 ^ 14 ≤ stretchLimit → squash table (k * 2 ^ 14) = some r →
        |(r : ℝ) / 2 ^ 31 - logistic ((k : ℝ) / 128)| ≤ (err : ℝ) + 1 / 10 ^ 8) ∧
      ∃ k r : Nat, (k : Int) * 2 ^ 14 ≤ stretchLimit ∧ squash table (k * 2 ^ 14) = some r ∧
        (err : ℝ) ≤ |(r : ℝ) / 2 ^ 31 - logistic ((k : ℝ) / 128)| + 1 / 10 ^ 8 := by
  rw [stretchLut_eq] at hlut
  obtain rfl := Option.some.inj hlut
  obtain ⟨err, h1, h2, h3, h4⟩ := loop_near hexp (24711779 / 2 ^ 21) 1537 0 0 (by norm_num)
  have hget : ∀ k : Nat, k ≤ 1536 → squash squashTable ((k : Int) * 2 ^ 14) = some (sqField k) := by
    intro k hk
    have := squash_cell (j := k + 1536) (d := 0) (by norm_num) (by omega)
    rw [sqOut_zero, sqAt_upper] at this
    rw [← this, show ((16384 * (k + 1536) + 0 : ℕ) : Int) - 25165824 = (k : Int) * 2 ^ 14 by omega]
  have hlim : ∀ k : Nat, (k : Int) * 2 ^ 14 ≤ stretchLimit ↔ (k : ℚ) / 128 ≤ 24711779 / 2 ^ 21 := by
    intro k
    rw [div_le_div_iff₀ (by norm_num) (by norm_num)]
    unfold stretchLimit
    constructor
    · intro h
      have : ((k : ℤ) : ℚ) * 2 ^ 14 ≤ 24711779 := by exact_mod_cast h
      push_cast at this
      linarith
    · intro h
      have : ((k * 2 ^ 21 : ℕ) : ℚ) ≤ ((24711779 * 128 : ℕ) : ℚ) := by push_cast; linarith
      have : k * 2 ^ 21 ≤ 24711779 * 128 := by exact_mod_cast this
      omega
  have hsmall : ∀ k : Nat, (k : Int) * 2 ^ 14 ≤ stretchLimit → k ≤ 1508 := by
    intro k h
    unfold stretchLimit at h
    omega
  have hpoint : ∀ k : Nat, (k : Int) * 2 ^ 14 ≤ stretchLimit → pointError k ≤ 23 / 10 ^ 7 := by
    intro k h
    have := sqAt_real_upper (k := k) (by have := hsmall k h; omega)
    rwa [sqAt_upper] at this
  have hex : ∃ k : Nat, (k : Int) * 2 ^ 14 ≤ stretchLimit ∧ (err : ℝ) ≤ pointError k + 1 / 10 ^ 8 := by
    rcases h4 with h4 | ⟨j, -, -, j3, j4⟩
    · refine ⟨0, by unfold stretchLimit; norm_num, ?_⟩
      have : (0 : ℝ) ≤ pointError 0 := abs_nonneg _
      rw [h4, Rat.cast_zero]
      linarith
    · exact ⟨j, (hlim j).mpr j3, j4⟩
  refine ⟨squashTable, err, ?_, squashLut_eq stretchTable_ok, ?_, ?_, ?_⟩
  · have hs := squashLut_eq stretchTable_ok
    unfold squashLutNew at hs
    unfold squashLutChecked
    obtain ⟨a1, -⟩ := stretch_eq stretchTable_ok (p := minAccurate) (by unfold minAccurate; norm_num)
      (by unfold minAccurate; norm_num)
    have a2 : stOut minAccurate = -24711779 := by
      unfold stOut minAccurate
      rw [if_pos (by norm_num), show (2 : Nat) ^ 14 = 16384 from rfl, stretch_min]
      rfl
    rw [a1, ob_some, a2, check_pos (by norm_num), ob_some, show squashSize / 2 + 1 = 1537 from rfl,
      mapM_some (squashUpper stretchTable) sqField _ (fun k hk => find_eq stretchTable_ok (by rw [List.mem_range] at hk; omega)),
      ob_some] at hs
    have hf := C65_exact stretchedProbD (by decide) (-24711779) (by norm_num)
    have ef : -(((-24711779 : ℤ) : ℚ) / 2 ^ stretchedProbD.frac) = 24711779 / 2 ^ 21 := by
      rw [show stretchedProbD.frac = 21 from rfl]
      norm_num
    rw [a1, ob_some, a2, hf, ob_some]
    dsimp only
    rw [ef, check_pos (by norm_num), ob_some, show squashSize / 2 + 1 = 1537 from rfl, h1, ob_some]
    dsimp only
    rw [← List.range_eq_range']
    cases hm : (((List.range 1537).map sqField).drop 1).mapM flipU32 with
    | none => rw [hm] at hs; cases hs
    | some lower =>
      rw [hm, ob_some] at hs
      rw [ob_some, Option.some.inj hs]
  · obtain ⟨k, k1, k2⟩ := hex
    have := hpoint k k1
    norm_num at this k2 ⊢
    linarith
  · intro k r hk hr
    have hk' := hsmall k hk
    rw [hget k (by omega), Option.some.injEq] at hr
    subst hr
    exact h3 k (by omega) (by omega) ((hlim k).mp hk)
  · obtain ⟨k, k1, k2⟩ := hex
    exact ⟨k, _, k1, hget k (by have := hsmall k k1; omega), k2⟩

/-- **C72.** Building all tables with their floating point checks never panics and gives the tables of C52, whatever the
last digits of the platform's logarithm and exponential function are. -/
theorem C72_tables (ln exp : ℚ → ℚ) (hln : LnOk ln) (hexp : ExpOk exp) :
    ∃ t, tablesChecked ln exp = some t ∧ Pred.tablesNew = some t := by
  obtain ⟨t, ht, hok⟩ := Pred.tables_ok
  refine ⟨t, ?_, ht⟩
  obtain ⟨lut, h1, h2⟩ := C72_stretch ln hln
  obtain ⟨table, err, h3, h4, -⟩ := C72_squash exp hexp lut h2
  rw [← ht]
  unfold tablesChecked Pred.tablesNew
  rw [h1, h2]
  simp only [ob_some]
  rw [h3, h4]
  simp only [ob_some]

/-- functions of the required accuracy exist: the true ones, cut after ten decimals -/
example : ∃ ln exp : ℚ → ℚ, LnOk ln ∧ ExpOk exp := by
  have cut : ∀ y : ℝ, |(((⌊y * 10 ^ 10⌋ : ℚ) / 10 ^ 10 : ℚ) : ℝ) - y| ≤ 1 / 10 ^ 10 := by
    intro y
    have h1 := Int.floor_le (y * 10 ^ 10)
    have h2 := Int.lt_floor_add_one (y * 10 ^ 10)
    have e : (((⌊y * 10 ^ 10⌋ : ℚ) / 10 ^ 10 : ℚ) : ℝ) = (⌊y * 10 ^ 10⌋ : ℝ) / 10 ^ 10 := by push_cast; rfl
    rw [e]
    generalize (⌊y * 10 ^ 10⌋ : ℝ) = z at *
    rw [abs_le]
    norm_num at h1 h2 ⊢
    constructor <;> linarith
  refine ⟨fun x => (⌊Real.log x * 10 ^ 10⌋ : ℚ) / 10 ^ 10, fun x => (⌊Real.exp x * 10 ^ 10⌋ : ℚ) / 10 ^ 10, ?_, ?_⟩
  · intro x _ _ _
    exact (cut _).trans (by norm_num)
  · intro x _ _ _
    exact (cut _).trans (by norm_num)

/-- the logit of 1/3 is -log 2: the check accepts its table value, and rejects it with an error of three units in the
last place -/
example : selfCheck (fun _ => -693147 / 10 ^ 6) 715827883 (-1453635) = some () ∧
    selfCheck (fun _ => -693147 / 10 ^ 6) 715827883 (-1453632) = none := by
  decide +kernel

end Verif.Lut
