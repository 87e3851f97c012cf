import Verif.Pred.CodingProps

/-!
# C82: the size estimated with the table of logarithms

`tests/coding_symbols.rs` estimates the size of coded bits by adding up the costs from the table and compares it with the
number of bytes the encoder writes.
-/

namespace Verif.Pred

open Verif Verif.Fixed Verif.Log2 Verif.Coding

/-! ## Model -/

/-- the cost of a bit as a `Log2Q` (`coding_symbols.rs:143-151`) -/
def tableCost (lut : List Nat) (f : Nat) (b : Bool) : Option Int := do
  let c ← estimateCost lut f b
  toFixI 64 log2D log2Q c

/-- the sum of the costs (`coding_symbols.rs:67-71`) -/
def tableSum (lut : List Nat) : Int → List (Nat × Bool) → Option Int
  | size, [] => some size
  | size, (f, b) :: rest => do
    let c ← tableCost lut f b
    let size ← addI64 log2Q size c
    tableSum lut size rest

/-! ## Proof -/

theorem tableCost_near {lut : List Nat} (hl : log2LutNew = some lut) {f : Nat} (b : Bool) (h0 : 1 ≤ f) (h1 : f < 2 ^ 23) :
    ∃ c : Int, tableCost lut f b = some c ∧ 1 ≤ c ∧ c ≤ 23 * 2048 ∧
      -Real.logb 2 (chance f b) - 1 / 4096 ≤ (c : ℝ) / 2048 ∧ (c : ℝ) / 2048 < -Real.logb 2 (chance f b) + 1 / 1024 := by
  obtain ⟨r, e, f', g1, g2⟩ := cost_of_log hl (q := if b then 2 ^ 23 - f else f)
    (by cases b <;> simp <;> omega) (by cases b <;> simp <;> omega)
  refine ⟨-r, ?_, g1, by omega, ?_⟩
  · unfold tableCost
    rw [estimateCost_eq hl b h0 h1, f', ob_some]
    have hw : wrapI 64 (-r) = -r := by unfold wrapI; omega
    unfold toFixI
    rw [if_neg (by decide)]
    simp only [show log2Q.frac - log2D.frac = 0 from rfl, pow_zero, mul_one, Int.ediv_one, hw]
    rfl
  · obtain ⟨r', e', a1, a2, -⟩ := C10_accuracy lut hl 32 23 (if b then 2 ^ 23 - f else f) (by norm_num)
      (by norm_num) (by norm_num) (by cases b <;> simp <;> omega) (by cases b <;> simp <;> omega)
    rw [e, Option.some.injEq] at e'
    subst e'
    have hc : ((if b then 2 ^ 23 - f else f : Nat) : ℝ) / 2 ^ 23 = chance f b := by
      unfold chance
      cases b
      · rfl
      · simp only [if_true]
        rw [Nat.cast_sub (by omega)]
        push_cast
        ring
    rw [hc] at a1 a2
    push_cast
    constructor <;> linarith

theorem tableSum_near {lut : List Nat} (hl : log2LutNew = some lut) : ∀ (fs : List Nat) (bits : List Bool) (size : Int),
    fs.length = bits.length → (∀ f ∈ fs, 1 ≤ f ∧ f < 2 ^ 23) → 0 ≤ size → size + 23 * 2048 * fs.length < 2 ^ 63 →
    ∃ total : Int, tableSum lut size (fs.zip bits) = some total ∧ 0 ≤ total ∧
      (size : ℝ) / 2048 + estimate fs bits - fs.length / 4096 ≤ (total : ℝ) / 2048 ∧
      (total : ℝ) / 2048 ≤ (size : ℝ) / 2048 + estimate fs bits + fs.length / 1024 := by
  intro fs
  induction fs with
  | nil =>
    intro bits size hl _ h0 _
    obtain rfl : bits = [] := by cases bits with | nil => rfl | cons b l => simp at hl
    exact ⟨size, rfl, h0, by simp [estimate], by simp [estimate]⟩
  | cons f fs ih =>
    intro bits size hlen hv h0 hs
    cases bits with
    | nil => simp at hlen
    | cons b bits =>
      obtain ⟨v1, v2⟩ := hv f (by simp)
      obtain ⟨c, e, c1, c2, c3, c4⟩ := tableCost_near hl b v1 v2
      rw [List.length_cons] at hs hlen
      push_cast at hs
      obtain ⟨total, e2, t0, t1, t2⟩ := ih bits (size + c) (by simpa using hlen) (fun g hg => hv g (by simp [hg])) (by omega)
        (by omega)
      refine ⟨total, ?_, t0, ?_, ?_⟩
      · rw [List.zip_cons_cons, tableSum, e, ob_some]
        have : addI64 log2Q size c = some (size + c) := by
          unfold addI64 i64
          rw [if_pos (by constructor <;> omega), ob_some]
          rfl
        rw [this, ob_some, e2]
      · rw [estimate, List.zipWith_cons_cons, List.sum_cons, ← estimate, List.length_cons]
        push_cast at t1 ⊢
        linarith
      · rw [estimate, List.zipWith_cons_cons, List.sum_cons, ← estimate, List.length_cons]
        push_cast at t2 ⊢
        linarith

/-- **C82.** Adding up the costs from the table estimates the size of the coded bits: beyond the four final bytes the
encoder writes at most the sum, a 4096th of a bit for each coded bit and the rounding losses, and at least the sum less a
1024th of a bit for each coded bit, the rounding gains and 31 bits. -/
theorem C82_table_estimate (fs : List Nat) (bits : List Bool) (hlen : fs.length = bits.length)
    (hn : fs.length ≤ 700000000) (hv : ∀ f ∈ fs, 1 ≤ f ∧ f < 2 ^ 23) :
    ∃ lut total out, log2LutNew = some lut ∧ tableSum lut 0 (fs.zip bits) = some total ∧
      encode (bitEvents fs bits) = some out ∧ 4 ≤ out.length ∧
      8 * ((out.length : ℝ) - 4) ≤ (total : ℝ) / 2048 + fs.length / 4096 + loss fs bits ∧
      (total : ℝ) / 2048 - fs.length / 1024 - gain fs bits - 31 ≤ 8 * ((out.length : ℝ) - 4) := by
  obtain ⟨lut, hl, -⟩ := C10_table_exists
  obtain ⟨total, e, -, t1, t2⟩ := tableSum_near hl fs bits 0 hlen hv (le_refl _) (by omega)
  have hev : (bitEvents fs bits).length = fs.length := by rw [bitEvents, List.length_zipWith, ← hlen, Nat.min_self]
  obtain ⟨out, e1, e0, e2, e3⟩ := C03_bits (bitEvents fs bits) (bitEvents_valid hv)
    (by have := emitted_le (bitEvents fs bits); omega)
  obtain ⟨c1, c2⟩ := content_share (bits := bits) hv
  rw [c1] at e3
  rw [c2] at e2
  refine ⟨lut, total, out, hl, e, e1, e0, ?_, ?_⟩
  · push_cast at t1
    linarith
  · push_cast at t2
    linarith

theorem logb_small {k : Nat} (h : 8192 ≤ k) : Real.logb 2 (1 + 1 / (k : ℝ)) ≤ 1 / 4096 := by
  have hk : (8192 : ℝ) ≤ k := by exact_mod_cast h
  have h1 : Real.log (1 + 1 / (k : ℝ)) ≤ 1 / 8192 := by
    have := Real.log_le_sub_one_of_pos (show (0 : ℝ) < 1 + 1 / (k : ℝ) by positivity)
    have h2 : 1 / (k : ℝ) ≤ 1 / 8192 := one_div_le_one_div_of_le (by norm_num) hk
    linarith
  have h2 := Real.log_two_gt_d9
  rw [Real.logb, div_le_iff₀ (by linarith)]
  linarith

theorem loss_small : ∀ (fs : List Nat) (bits : List Bool), fs.length = bits.length →
    (∀ f ∈ fs, 2 ^ 13 ≤ f ∧ f ≤ 2 ^ 23 - 2 ^ 13) →
    loss fs bits + gain fs bits ≤ (fs.length : ℝ) / 4096 ∧ 0 ≤ loss fs bits ∧ 0 ≤ gain fs bits := by
  intro fs
  induction fs with
  | nil =>
    intro bits h _
    obtain rfl : bits = [] := by cases bits with | nil => rfl | cons b l => simp at h
    simp [loss, gain]
  | cons f fs ih =>
    intro bits h hv
    cases bits with
    | nil => simp at h
    | cons b bits =>
      obtain ⟨i1, i2, i3⟩ := ih bits (by simpa using h) fun g hg => hv g (by simp [hg])
      obtain ⟨v1, v2⟩ := hv f (by simp)
      have k1 := logb_small (k := f) (by omega)
      have k2 := logb_small (k := 2 ^ 23 - f) (by omega)
      rw [Nat.cast_sub (by omega)] at k2
      have p1 : 0 ≤ Real.logb 2 (1 + 1 / (f : ℝ)) := Real.logb_nonneg (by norm_num) (by
        have : (0 : ℝ) ≤ 1 / f := by positivity
        linarith)
      have p2 : 0 ≤ Real.logb 2 (1 + 1 / (2 ^ 23 - (f : ℝ))) := Real.logb_nonneg (by norm_num) (by
        have : (f : ℝ) ≤ 2 ^ 23 := by
          have : f ≤ 2 ^ 23 := by omega
          exact_mod_cast this
        have : (0 : ℝ) ≤ 1 / (2 ^ 23 - (f : ℝ)) := by
          apply div_nonneg <;> linarith
        linarith)
      push_cast at k2
      rw [show (8388608 : ℝ) = 2 ^ 23 by norm_num] at k2
      have e1 : loss (f :: fs) (b :: bits) = (if b then 0 else Real.logb 2 (1 + 1 / (f : ℝ))) + loss fs bits := by
        rw [loss, List.zipWith_cons_cons, List.sum_cons, ← loss]
      have e2 : gain (f :: fs) (b :: bits) = (if b then Real.logb 2 (1 + 1 / (2 ^ 23 - (f : ℝ))) else 0) + gain fs bits := by
        rw [gain, List.zipWith_cons_cons, List.sum_cons, ← gain]
      rw [e1, e2, List.length_cons]
      push_cast
      cases b
      · simp only [Bool.false_eq_true, if_false]
        exact ⟨by linarith, by linarith, by linarith⟩
      · simp only [if_true]
        exact ⟨by linarith, by linarith, by linarith⟩

/-- **C82 (moderate probabilities).** If no probability is closer than a 1024th to 0 or 1, then the check of the test holds
for up to 819 bits, whatever they are: the size in bits is not below the whole part of the estimate (the subtraction of the test does not
underflow) and above it by at most 33 bits; the test asks for 32, the last one is lost if rounding carries the sum over a
whole number. -/
theorem C82_moderate (fs : List Nat) (bits : List Bool) (hlen : fs.length = bits.length) (hn : fs.length ≤ 819)
    (hv : ∀ f ∈ fs, 2 ^ 13 ≤ f ∧ f ≤ 2 ^ 23 - 2 ^ 13) :
    ∃ lut total out, log2LutNew = some lut ∧ tableSum lut 0 (fs.zip bits) = some total ∧
      encode (bitEvents fs bits) = some out ∧
      (total / 2048 : Int) ≤ 8 * (out.length : Int) ∧ 8 * (out.length : Int) - total / 2048 ≤ 33 := by
  obtain ⟨lut, total, out, h1, h2, h3, h4, h5, h6⟩ := C82_table_estimate fs bits hlen (by omega)
    (fun f hf => by have := hv f hf; omega)
  obtain ⟨l1, l2, l3⟩ := loss_small fs bits hlen hv
  have hn' : (fs.length : ℝ) ≤ 819 := by exact_mod_cast hn
  refine ⟨lut, total, out, h1, h2, h3, ?_, ?_⟩
  · have a1 : (total : ℝ) ≤ 2048 * (8 * out.length) := by linarith
    have a2 : total ≤ 2048 * (8 * (out.length : Int)) := by exact_mod_cast a1
    omega
  · have a1 : 2048 * (8 * (out.length : ℝ) - 32) ≤ total + 820 := by linarith
    have a2 : 2048 * (8 * (out.length : Int) - 32) ≤ total + 820 := by exact_mod_cast a1
    omega

/-- `n` times an almost certain bit and an almost impossible one -/
def surprises (n : Nat) : List (Nat × Bool) := (List.replicate n [(1, true), (1, false)]).flatten

theorem estimate_surprises (n : Nat) :
    estimate ((surprises n).map Prod.fst) ((surprises n).map Prod.snd) ≤ n * (23 + 1 / 1000) := by
  have h2 := Real.log_two_gt_d9
  have c1 : -Real.logb 2 (chance 1 true) ≤ 1 / 1000 := by
    have h := Real.one_sub_inv_le_log_of_pos (show (0 : ℝ) < chance 1 true by norm_num [chance])
    have h3 : -(1 / 10000 : ℝ) ≤ 1 - (chance 1 true)⁻¹ := by norm_num [chance]
    rw [Real.logb, ← neg_div, div_le_iff₀ (by linarith)]
    linarith
  have c2 : -Real.logb 2 (chance 1 false) = 23 := by
    rw [show chance 1 false = (2 : ℝ) ^ (-23 : ℝ) by rw [Real.rpow_neg (by norm_num)]; norm_num [chance],
      Real.logb_rpow (by norm_num) (by norm_num)]
    norm_num
  induction n with
  | zero => simp [surprises, estimate]
  | succ n ih =>
    have e : surprises (n + 1) = (1, true) :: (1, false) :: surprises n := rfl
    rw [e]
    simp only [List.map_cons, estimate, List.zipWith_cons_cons, List.sum_cons]
    rw [← estimate]
    push_cast
    linarith

/-- **C82 (limit).** With probabilities next to 0 and 1 the check of the test fails: after forty pairs of an almost certain
and an almost impossible bit the encoder has written 40 bits more than the whole part of the estimate. -/
theorem C82_limit : ∃ lut total out, log2LutNew = some lut ∧ tableSum lut 0 (surprises 40) = some total ∧
    encode (bitEvents ((surprises 40).map Prod.fst) ((surprises 40).map Prod.snd)) = some out ∧
    40 ≤ 8 * (out.length : Int) - total / 2048 := by
  obtain ⟨lut, hl, -⟩ := C10_table_exists
  obtain ⟨total, e, -, -, t2⟩ := tableSum_near hl ((surprises 40).map Prod.fst) ((surprises 40).map Prod.snd) 0
    (by decide) (by decide +kernel) (le_refl _) (by decide +kernel)
  have h1 := estimate_surprises 40
  have hz : ((surprises 40).map Prod.fst).zip ((surprises 40).map Prod.snd) = surprises 40 := by decide +kernel
  have hlen : ((surprises 40).map Prod.fst).length = 80 := by decide +kernel
  have h3 : (encode (bitEvents ((surprises 40).map Prod.fst) ((surprises 40).map Prod.snd))).map List.length =
    some 120 := by decide +kernel
  obtain ⟨out, h4, h5⟩ := Option.map_eq_some_iff.mp h3
  rw [hz] at e
  rw [hlen] at t2
  refine ⟨lut, total, out, hl, e, h4, ?_⟩
  push_cast at t2 h1
  have a1 : (total : ℝ) < 921 * 2048 := by linarith
  have a2 : total < 921 * 2048 := by exact_mod_cast a1
  omega

/-- the bounds apply to a list with a likely and an unlikely bit -/
example : ∃ lut total out, log2LutNew = some lut ∧ tableSum lut 0 [(6000000, false), (100000, true), (8000000, true)] = some total ∧
    encode (bitEvents [6000000, 100000, 8000000] [false, true, true]) = some out ∧
    (total / 2048 : Int) ≤ 8 * (out.length : Int) ∧ 8 * (out.length : Int) - total / 2048 ≤ 33 :=
  C82_moderate [6000000, 100000, 8000000] [false, true, true] rfl (by decide) (by decide)

end Verif.Pred
