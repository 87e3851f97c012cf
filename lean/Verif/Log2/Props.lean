import Verif.Log2.Lemmas
import Verif.Est.Props
import Mathlib.Analysis.Complex.ExponentialBounds

/-!
# C10, C11, C12: logarithm, bit costs, cost tracker

The specification is the real base 2 logarithm `Real.logb 2`. One unit in the last place of the result
is `1 / 2048`.
-/

namespace Verif.Log2

open Verif Verif.Fixed

/-! ## C10 -/

/-- **C10 (table).** `Log2Lut::new` never panics. -/
theorem C10_table_exists : ∃ lut, log2LutNew = some lut ∧ lut.length = 2048 := by
  obtain ⟨l, h1, h2, -⟩ := lut_spec
  exact ⟨l, h1, h2⟩

/-- **C10.** For every nonzero `raw`, width 12 … 64 and number of fractional bits, `log2` returns a value
that is at most half a unit above and less than two units below the real logarithm; when `raw` has at
most twelve significant bits (no mantissa truncation) it is within half a unit. -/
theorem C10_accuracy (lut : List Nat) (hl : log2LutNew = some lut) (w frac raw : Nat) (hw : 12 ≤ w)
    (hw2 : w ≤ 64) (hf : frac ≤ w) (h0 : raw ≠ 0) (hr : raw < 2 ^ w) :
    ∃ r : Int, log2 lut w frac raw = some r ∧
      (r : ℝ) / 2048 ≤ Real.logb 2 ((raw : ℝ) / 2 ^ frac) + 1 / 4096 ∧
      Real.logb 2 ((raw : ℝ) / 2 ^ frac) - 2 / 2048 < (r : ℝ) / 2048 ∧
      (raw < 4096 → Real.logb 2 ((raw : ℝ) / 2 ^ frac) - 1 / 4096 ≤ (r : ℝ) / 2048) := by
  refine ⟨_, log2_eq (isLut_of hl) hw hw2 hf h0 hr, ?_⟩
  obtain ⟨m1, m2, m3⟩ := mant_spec h0
  obtain ⟨t1, t2⟩ := tval_real m1
  have hexact : raw < 4096 → (mant raw + 2048) * 2 ^ Nat.log2 raw = raw * 2048 := by
    intro h
    have hlg : Nat.log2 raw < 12 := (Nat.log2_lt h0).mpr (by norm_num; exact h)
    obtain ⟨k, hk⟩ : ∃ k, 2048 = 2 ^ Nat.log2 raw * k :=
      ⟨2 ^ (11 - Nat.log2 raw), by
        rw [← pow_add, show Nat.log2 raw + (11 - Nat.log2 raw) = 11 by omega]; norm_num⟩
    have hp : 0 < 2 ^ Nat.log2 raw := by positivity
    generalize 2 ^ Nat.log2 raw = Q at *
    have e : raw * 2048 = (raw * k) * Q := by rw [hk]; ring
    rw [e] at m2 m3 ⊢
    have a1 := Nat.le_of_mul_le_mul_right m2 hp
    have a2 := Nat.lt_of_mul_lt_mul_right m3
    rw [show mant raw + 2048 = raw * k by omega]
  generalize mant raw = m at *
  generalize tval m = t at *
  have hQ : (0 : ℝ) < 2 ^ Nat.log2 raw := by positivity
  have hm : (0 : ℝ) < ((m : ℝ) + 2048) / 2048 := by positivity
  have hrawpos : (0 : ℝ) < raw := by positivity
  -- split the logarithm of raw
  have hsplit : Real.logb 2 ((raw : ℝ) / 2 ^ frac) =
      Real.logb 2 ((raw : ℝ) / 2 ^ Nat.log2 raw) + Nat.log2 raw - frac := by
    rw [Real.logb_div hrawpos.ne' (by positivity), Real.logb_div hrawpos.ne' hQ.ne', logb_two_pow,
      logb_two_pow]
    ring
  have lo : ((m : ℝ) + 2048) / 2048 ≤ (raw : ℝ) / 2 ^ Nat.log2 raw := by
    rw [div_le_div_iff₀ (by norm_num) hQ]
    exact_mod_cast m2
  have hi : (raw : ℝ) / 2 ^ Nat.log2 raw < ((m : ℝ) + 2048) / 2048 * (1 + 1 / 2048) := by
    have h3 : (raw : ℝ) * 2048 < ((m : ℝ) + 2048 + 1) * 2 ^ Nat.log2 raw := by exact_mod_cast m3
    rw [div_lt_iff₀ hQ]
    have hm0 : (0 : ℝ) ≤ m := by positivity
    nlinarith
  have l1 := Real.logb_le_logb_of_le (b := 2) (by norm_num) hm lo
  have l2 := Real.logb_lt_logb (b := 2) (by norm_num) (by positivity) hi
  rw [Real.logb_mul hm.ne' (by norm_num)] at l2
  have l3 : Real.logb 2 (1 + 1 / 2048) < 3 / 4096 := by
    unfold Real.logb
    have h2 := Real.log_two_gt_d9
    have h3 : Real.log (1 + 1 / 2048) ≤ 1 / 2048 := by
      have := Real.log_le_sub_one_of_pos (show (0 : ℝ) < 1 + 1 / 2048 by norm_num)
      linarith
    rw [div_lt_iff₀ (by linarith)]
    linarith
  rw [hsplit]
  push_cast
  refine ⟨by linarith, by linarith, ?_⟩
  intro h
  have e := hexact h
  have e' : ((m : ℝ) + 2048) / 2048 = (raw : ℝ) / 2 ^ Nat.log2 raw := by
    rw [div_eq_div_iff (by norm_num) hQ.ne']
    exact_mod_cast e
  rw [← e']
  linarith

/-- **C10 (monotone).** The logarithm never decreases when the argument grows. -/
theorem C10_monotone (lut : List Nat) (hl : log2LutNew = some lut) (w frac x y : Nat) (hw : 12 ≤ w)
    (hw2 : w ≤ 64) (hf : frac ≤ w) (h0 : x ≠ 0) (hxy : x ≤ y) (hy : y < 2 ^ w) :
    ∃ r s : Int, log2 lut w frac x = some r ∧ log2 lut w frac y = some s ∧ r ≤ s := by
  have hL := isLut_of hl
  have hy0 : y ≠ 0 := by omega
  refine ⟨_, _, log2_eq hL hw hw2 hf h0 (by omega), log2_eq hL hw hw2 hf hy0 hy, ?_⟩
  obtain ⟨m1, m2, m3⟩ := mant_spec h0
  obtain ⟨n1, n2, n3⟩ := mant_spec hy0
  have t3 := (entry_small m1).2.2
  have hlog : Nat.log2 x ≤ Nat.log2 y := by
    by_contra hc
    have h1 := Nat.log2_self_le h0
    have h2 := Nat.lt_log2_self (n := y)
    have h3 : 2 ^ (Nat.log2 y + 1) ≤ 2 ^ Nat.log2 x := Nat.pow_le_pow_right (by norm_num) (by omega)
    omega
  rcases Nat.lt_or_eq_of_le hlog with h | h
  · omega
  · have hm : mant x ≤ mant y := by
      unfold mant
      rw [h]
      exact Nat.sub_le_sub_right (Nat.div_le_div_right (Nat.mul_le_mul_right _ hxy)) _
    have := tval_mono hm n1
    rw [h]
    omega

example : ∃ lut, log2LutNew = some lut ∧ log2 lut 32 23 (3 * 2 ^ 21) = some (-850) := by
  obtain ⟨lut, h1, -⟩ := lut_spec
  refine ⟨lut, h1, ?_⟩
  rw [log2_eq (isLut_of h1) (by norm_num) (by norm_num) (by norm_num) (by norm_num) (by norm_num)]
  decide +kernel

/-! ## C11 -/

theorem estimateCost_eq {lut : List Nat} (hl : log2LutNew = some lut) {p : Nat} (b : Bool)
    (h0 : 0 < p) (h1 : p < 2 ^ 23) :
    estimateCost lut p b = (log2 lut 32 23 (if b then 2 ^ 23 - p else p)).bind (negI32 log2D) := by
  unfold estimateCost
  cases b
  · rfl
  · simp only [if_true]
    rw [subU_eq (by omega), ob_some]
    have : finalProbability.new (2 ^ 23 - p) = some (2 ^ 23 - p) := by
      unfold finalProbability Coding.FinalProbability.newUnchecked
      dsimp only
      rw [check_pos (by omega), ob_some, show max (min (2 ^ 23 - p) (2 ^ 23 - 1)) 1 = 2 ^ 23 - p by omega]
    rw [this, ob_some]
    rfl

/-- the code length in units of 1/2048 bit of an event of probability `q / 2 ^ 23` -/
theorem cost_of_log {lut : List Nat} (hl : log2LutNew = some lut) {q : Nat} (h0 : 0 < q)
    (h1 : q < 2 ^ 23) : ∃ r : Int, log2 lut 32 23 q = some r ∧
      (log2 lut 32 23 q).bind (negI32 log2D) = some (-r) ∧ 1 ≤ -r ∧ -r ≤ 47104 := by
  have e := log2_eq (isLut_of hl) (w := 32) (frac := 23) (raw := q) (by norm_num) (by norm_num)
    (by norm_num) (by omega) (by omega)
  have m1 := (mant_spec (raw := q) (by omega)).1
  have t3 := (entry_small m1).2.2
  have hlg : Nat.log2 q < 23 := (Nat.log2_lt (by omega)).mpr h1
  refine ⟨_, e, ?_, by omega, by omega⟩
  rw [e, Option.bind_some]
  unfold negI32 log2D
  rw [i32_eq (by omega), ob_some]

/-- **C11.** For every probability strictly inside (0, 1) and either bit, the estimated cost exists, is
positive, at most 23 bits, and is within two units (1/1024 bit) of the Shannon code length. -/
theorem C11_cost (lut : List Nat) (hl : log2LutNew = some lut) (p : Nat) (b : Bool) (h0 : 0 < p)
    (h1 : p < 2 ^ 23) :
    ∃ c : Int, estimateCost lut p b = some c ∧ 1 ≤ c ∧ c ≤ 23 * 2048 ∧
      |(c : ℝ) / 2048 - -Real.logb 2 (if b then 1 - (p : ℝ) / 2 ^ 23 else (p : ℝ) / 2 ^ 23)| <
        2 / 2048 := by
  rw [estimateCost_eq hl b h0 h1]
  obtain ⟨r, e, f, g1, g2⟩ := cost_of_log hl (q := if b then 2 ^ 23 - p else p)
    (by cases b <;> simp <;> omega) (by cases b <;> simp <;> omega)
  refine ⟨-r, f, g1, by omega, ?_⟩
  obtain ⟨r', e', a1, a2, -⟩ := C10_accuracy lut hl 32 23 (if b then 2 ^ 23 - p else p) (by norm_num)
    (by norm_num) (by norm_num) (by cases b <;> simp <;> omega) (by cases b <;> simp <;> omega)
  rw [e, Option.some.injEq] at e'
  subst e'
  have hc : ((if b then 2 ^ 23 - p else p : Nat) : ℝ) / 2 ^ 23 =
      if b then 1 - (p : ℝ) / 2 ^ 23 else (p : ℝ) / 2 ^ 23 := by
    cases b
    · rfl
    · simp only [if_true]
      rw [Nat.cast_sub (by omega)]
      push_cast
      ring
  rw [hc] at a1 a2
  rw [abs_lt]
  push_cast
  constructor <;> linarith

/-- **C11 (monotone).** The less probable an event, the larger (or equal) its cost; in particular the less
probable of the two bits never costs less. -/
theorem C11_monotone (lut : List Nat) (hl : log2LutNew = some lut) (p q : Nat) (hp : 0 < p)
    (hpq : p ≤ q) (hq : q < 2 ^ 23) :
    ∃ p0 q0 p1 q1 : Int, estimateCost lut p false = some p0 ∧ estimateCost lut q false = some q0 ∧
      estimateCost lut p true = some p1 ∧ estimateCost lut q true = some q1 ∧
      q0 ≤ p0 ∧ p1 ≤ q1 ∧ (p ≤ 2 ^ 22 → p1 ≤ p0) ∧ (2 ^ 22 ≤ p → p0 ≤ p1) := by
  have mono : ∀ x y : Nat, 0 < x → x ≤ y → y < 2 ^ 23 → ∀ r s : Int,
      (log2 lut 32 23 x).bind (negI32 log2D) = some r →
      (log2 lut 32 23 y).bind (negI32 log2D) = some s → s ≤ r := by
    intro x y hx hxy hy r s hr hs
    obtain ⟨a, ea, fa, -, -⟩ := cost_of_log hl hx (by omega)
    obtain ⟨b, eb, fb, -, -⟩ := cost_of_log hl (q := y) (by omega) (by omega)
    obtain ⟨a', b', ea', eb', hab⟩ := C10_monotone lut hl 32 23 x y (by norm_num) (by norm_num)
      (by norm_num) (by omega) hxy (by omega)
    rw [ea, Option.some.injEq] at ea'
    rw [eb, Option.some.injEq] at eb'
    rw [fa, Option.some.injEq] at hr
    rw [fb, Option.some.injEq] at hs
    omega
  obtain ⟨p0, ep0, -⟩ := C11_cost lut hl p false hp (by omega)
  obtain ⟨q0, eq0, -⟩ := C11_cost lut hl q false (by omega) hq
  obtain ⟨p1, ep1, -⟩ := C11_cost lut hl p true hp (by omega)
  obtain ⟨q1, eq1, -⟩ := C11_cost lut hl q true (by omega) hq
  refine ⟨p0, q0, p1, q1, ep0, eq0, ep1, eq1, ?_⟩
  rw [estimateCost_eq hl _ (by omega) (by omega)] at ep0 eq0 ep1 eq1
  simp only [Bool.false_eq_true, if_false, if_true] at ep0 eq0 ep1 eq1
  refine ⟨mono p q hp hpq hq _ _ ep0 eq0, mono (2 ^ 23 - q) (2 ^ 23 - p) (by omega) (by omega) (by omega)
    _ _ eq1 ep1, ?_, ?_⟩
  · intro h
    exact mono p (2 ^ 23 - p) hp (by omega) (by omega) _ _ ep0 ep1
  · intro h
    exact mono (2 ^ 23 - p) p (by omega) (by omega) (by omega) _ _ ep1 ep0

example : ∃ lut, log2LutNew = some lut ∧ estimateCost lut 1 false = some 47104 ∧
    estimateCost lut 1 true = some 1 ∧ estimateCost lut (2 ^ 22) true = some 2048 := by
  obtain ⟨lut, h1, -⟩ := lut_spec
  have key : ∀ p b (t : Int), 0 < p → p < 2 ^ 23 →
      (let q := if b then 2 ^ 23 - p else p
       (tval (mant q) : Int) + ((Nat.log2 q : Int) - (23 : Nat)) * 2048 = -t) →
      -100000 < t ∧ t < 100000 → estimateCost lut p b = some t := by
    intro p b t h0 h2 h3 h4
    rw [estimateCost_eq h1 b h0 h2, log2_eq (isLut_of h1) (by norm_num) (by norm_num) (by norm_num)
      (by cases b <;> simp <;> omega) (by cases b <;> simp <;> omega)]
    dsimp only at h3
    rw [h3, Option.bind_some]
    unfold negI32 log2D
    rw [i32_eq (by omega), ob_some, neg_neg]
  refine ⟨lut, h1, key _ _ _ (by norm_num) (by norm_num) ?_ (by norm_num),
    key _ _ _ (by norm_num) (by norm_num) ?_ (by norm_num),
    key _ _ _ (by norm_num) (by norm_num) ?_ (by norm_num)⟩ <;> decide +kernel

/-! ## C12 -/

/-- one tracker update in closed form -/
theorem costUpdated_eq {t : Nat} (ht : t < 2 ^ 16) {c : Int} (h1 : 0 < c) (h2 : c < 2 ^ 16) :
    costUpdated t c = some (min 65535 (t - min 65535 (t + 8) / 16 + c.toNat)) := by
  unfold costUpdated
  rw [scaledDownU_eq (by norm_num) (by norm_num), ob_some]
  norm_num
  rw [subU_eq (by omega), Option.bind_some, check_pos h1, Option.bind_some, check_pos (by omega),
    Option.bind_some]
  unfold satAddU
  norm_num

/-- **C12 (step).** An update with any legal cost never panics, stays in 16 bits, and moves the tracked
value towards sixteen times the cost without overshooting it by more than 7 (a sixteenth of a cost unit
is one): the new value lies between the old one and `16 * cost`, capped at 65535. -/
theorem C12_step (t : Nat) (ht : t < 2 ^ 16) (c : Int) (h1 : 0 < c) (h2 : c < 2 ^ 16) :
    ∃ t', costUpdated t c = some t' ∧ t' < 2 ^ 16 ∧
      (t' : Int) ≤ max (t : Int) (16 * c + 7) ∧ min (t : Int) (min (16 * c) 65535) ≤ t' := by
  refine ⟨_, costUpdated_eq ht h1 h2, by omega, by omega, by omega⟩

/-- **C12 (panic).** Costs outside `1 … 65535` panic. -/
theorem C12_panics (t : Nat) (ht : t < 2 ^ 16) (c : Int) (h : c ≤ 0 ∨ 2 ^ 16 ≤ c) :
    costUpdated t c = none := by
  unfold costUpdated
  rw [scaledDownU_eq (by norm_num) (by norm_num), ob_some, subU_eq (by norm_num; omega), ob_some]
  by_cases hc : c > 0
  · rw [check_pos hc, ob_some, check_neg (by omega)]; rfl
  · rw [check_neg hc]; rfl

/-- feeding costs -/
def costRun : Nat → List Int → Option Nat
  | t, [] => some t
  | t, c :: cs => do
    let t ← costUpdated t c
    costRun t cs

/-- **C12.** For every sequence of legal costs between `lo` and `hi`, from a tracked value within the
range, the tracker never panics and stays within the range (seven sixteenths of a unit of rounding, cap
65535). -/
theorem C12_bounded (lo hi : Int) (cs : List Int) : ∀ (t : Nat), t < 2 ^ 16 → 0 < lo → hi < 2 ^ 16 →
    (∀ c ∈ cs, lo ≤ c ∧ c ≤ hi) → min (16 * lo) 65535 ≤ t → (t : Int) ≤ 16 * hi + 7 →
    ∃ t', costRun t cs = some t' ∧ t' < 2 ^ 16 ∧ min (16 * lo) 65535 ≤ (t' : Int) ∧
      (t' : Int) ≤ 16 * hi + 7 := by
  induction cs with
  | nil => intro t ht _ _ _ h1 h2; exact ⟨t, rfl, ht, h1, h2⟩
  | cons c cs ih =>
    intro t ht hlo hhi hall h1 h2
    have hc := hall c (by simp)
    obtain ⟨t1, e1, b1, u1, l1⟩ := C12_step t ht c (by omega) (by omega)
    obtain ⟨t2, e2, r⟩ := ih t1 b1 hlo hhi (fun c hc => hall c (by simp [hc])) (by omega) (by omega)
    exact ⟨t2, by rw [costRun, e1, ob_some, e2], r⟩

/-- **C12 (convergence).** Feeding one cost `c ≤ 4094` (below two bits) for `|t - 16 c|` or more steps
brings the tracker to a value that rounds to `c` and is left unchanged by further updates. -/
theorem C12_converges (c : Nat) (h0 : 0 < c) (hc : c ≤ 4094) : ∀ (n t : Nat), t < 2 ^ 16 →
    t ≤ 16 * c + n → 16 * c ≤ t + n →
    ∃ t', costRun t (List.replicate n (c : Int)) = some t' ∧ 16 * c ≤ t' + 8 ∧ t' ≤ 16 * c + 7 ∧
      costUpdated t' c = some t' := by
  have fixed : ∀ t, t < 2 ^ 16 → 16 * c ≤ t + 8 → t ≤ 16 * c + 7 → costUpdated t c = some t := by
    intro t ht h1 h2
    rw [costUpdated_eq ht (by omega) (by omega)]
    congr 1
    rw [Int.toNat_natCast]
    omega
  have stay : ∀ n t, t < 2 ^ 16 → 16 * c ≤ t + 8 → t ≤ 16 * c + 7 →
      costRun t (List.replicate n (c : Int)) = some t := by
    intro n
    induction n with
    | zero => intro t _ _ _; rfl
    | succ n ih =>
      intro t ht h1 h2
      rw [List.replicate_succ, costRun, fixed t ht h1 h2, ob_some, ih t ht h1 h2]
  intro n
  induction n with
  | zero => intro t ht h1 h2; exact ⟨t, rfl, by omega, by omega, fixed t ht (by omega) (by omega)⟩
  | succ n ih =>
    intro t ht h1 h2
    by_cases hin : 16 * c ≤ t + 8 ∧ t ≤ 16 * c + 7
    · exact ⟨t, stay _ t ht hin.1 hin.2, hin.1, hin.2, fixed t ht hin.1 hin.2⟩
    · have e := costUpdated_eq ht (c := (c : Int)) (by omega) (by omega)
      rw [Int.toNat_natCast] at e
      obtain ⟨t', a, b⟩ := ih (min 65535 (t - min 65535 (t + 8) / 16 + c)) (by omega) (by omega)
        (by omega)
      exact ⟨t', by rw [List.replicate_succ, costRun, e, ob_some, a], b⟩

/-- **C12 (on bit).** Updating with any probability below one and any bit never panics. -/
theorem C12_updated_on_bit (lut : List Nat) (hl : log2LutNew = some lut) (t p : Nat) (b : Bool)
    (ht : t < 2 ^ 16) (hp : p < 2 ^ 31) :
    ∃ t', costUpdatedOnBit lut t p b = some t' ∧ t' < 2 ^ 16 := by
  unfold costUpdatedOnBit
  have hfix : ∃ q, toFixU 32 fractOnlyU32 finalProbability p = some q ∧ 0 < q ∧ q < 2 ^ 23 := by
    unfold toFixU
    rw [if_pos (by decide)]
    rw [show fractOnlyU32.frac - finalProbability.frac = 8 by decide,
      scaledDownU_nosat (by norm_num) (by norm_num) (by omega), ob_some]
    unfold finalProbability Coding.FinalProbability.newUnchecked
    dsimp only
    rw [check_pos (by omega), ob_some]
    exact ⟨_, rfl, by omega, by omega⟩
  obtain ⟨q, e, q0, q1⟩ := hfix
  obtain ⟨c, ec, c0, c1, -⟩ := C11_cost lut hl q b q0 q1
  obtain ⟨t', et, bt, -⟩ := C12_step t ht c (by omega) (by omega)
  exact ⟨t', by rw [e, ob_some, ec, ob_some, et], bt⟩

example : costUpdated costInitial 2048 = some costInitial ∧ costUpdated 65535 47104 = some 65535 ∧
    costUpdated costInitial 1 = some 30721 := by decide +kernel

/-! ## C45: cost table for runs -/

/-- the tracker after a run of zeros, each charged at the prediction of the replayed estimator, followed
by a final bit; written independently of the table loop -/
def runTracker (lut rates : List Nat) : Nat → Nat → Nat → Bool → Option Nat
  | 0, t, e, last => costUpdatedOnBit lut t (Est.decPrediction e) last
  | n + 1, t, e, last => do
    let t ← costUpdatedOnBit lut t (Est.decPrediction e) false
    let e ← Est.decUpdate rates e false
    runTracker lut rates n t e last

theorem costLutLoop_spec {lut rates : List Nat} (hl : log2LutNew = some lut) (hd : Est.IsDefault rates) :
    ∀ (k t p c : Nat), t < 2 ^ 16 → Est.Ok p c →
    ∃ table, costLutLoop lut rates k t (Est.pack p c) = some table ∧ table.length = k ∧
      ∀ n, n < k → ∃ v, v < 2 ^ 16 ∧ table[n]? = some v ∧
        runTracker lut rates n t (Est.pack p c) true = some v := by
  intro k
  induction k with
  | zero => intro t p c _ _; exact ⟨[], rfl, rfl, by intro n h; omega⟩
  | succ k ih =>
    intro t p c ht h
    have hpp := Est.decPrediction_pack h.lt.2 (show c < 1024 by have := h.1; omega)
    have hlt : Est.decPrediction (Est.pack p c) < 2 ^ 31 := by have := h.lt.2; omega
    obtain ⟨v1, e1, b1⟩ := C12_updated_on_bit lut hl t _ true ht hlt
    obtain ⟨v0, e0, b0⟩ := C12_updated_on_bit lut hl t _ false ht hlt
    obtain ⟨q0, f0, o0, -⟩ := Est.decUpdate_step hd h false
    obtain ⟨table, g, glen, gall⟩ := ih v0 q0 _ b0 o0
    refine ⟨v1 :: table, ?_, by simp [glen], ?_⟩
    · unfold costLutLoop
      have e1' := e1
      have e0' := e0
      unfold costUpdatedOnBit at e1' e0'
      cases hf : toFixU 32 fractOnlyU32 finalProbability (Est.decPrediction (Est.pack p c)) with
      | none => rw [hf, ob_none] at e1'; exact absurd e1' (by simp)
      | some q =>
        rw [hf, ob_some] at e1' e0'
        rw [ob_some]
        cases hc1 : estimateCost lut q true with
        | none => rw [hc1, ob_none] at e1'; exact absurd e1' (by simp)
        | some c1 =>
          rw [hc1, ob_some] at e1'
          rw [ob_some, e1', ob_some]
          cases hc0 : estimateCost lut q false with
          | none => rw [hc0, ob_none] at e0'; exact absurd e0' (by simp)
          | some c0 =>
            rw [hc0, ob_some] at e0'
            rw [ob_some, e0', ob_some, f0, ob_some, g, ob_some]
    · intro n hn
      cases n with
      | zero => exact ⟨v1, b1, rfl, by rw [runTracker, e1]⟩
      | succ n =>
        obtain ⟨v, bv, tv, rv⟩ := gall n (by omega)
        exact ⟨v, bv, by rw [List.getElem?_cons_succ]; exact tv,
          by rw [runTracker, e0, ob_some, f0, ob_some, rv]⟩

/-- **C45.** The cost table for new nodes can be built, and for every run length (capped at 1023) its
entry is the tracker obtained by charging the run of `n` equal bits and then the opposite bit at the
predictions of an estimator fed with those bits. -/
theorem C45_cost_table (lut rates : List Nat) (hl : log2LutNew = some lut)
    (hr : Est.ratesDefault = some rates) :
    ∃ table, costLutNew lut rates = some table ∧ ∀ n, ∃ v, v < 2 ^ 16 ∧
      costForNewNode table n = some v ∧
      (Est.decNew.bind fun e => runTracker lut rates (min n 1023) costInitial e true) = some v := by
  have hd := Est.isDefault_of hr
  obtain ⟨table, h1, -, h2⟩ := costLutLoop_spec hl hd 1024 costInitial _ _ (by decide) Est.ok_new
  refine ⟨table, by unfold costLutNew; rw [Est.decNew_eq, ob_some, h1], ?_⟩
  intro n
  obtain ⟨v, bv, tv, rv⟩ := h2 (min n 1023) (by omega)
  exact ⟨v, bv, tv, by rw [Est.decNew_eq, Option.bind_some, rv]⟩

example : ∃ lut rates, log2LutNew = some lut ∧ Est.ratesDefault = some rates := by
  obtain ⟨lut, h1, -⟩ := lut_spec
  obtain ⟨rates, h2, -⟩ := Est.rates_exist
  exact ⟨lut, rates, h1, h2⟩

end Verif.Log2
