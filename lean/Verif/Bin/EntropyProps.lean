import Verif.Bin.Entropy
import Verif.Float.Props
import Verif.Est.RatesProps
import Verif.Log2.Props
import Verif.Pred.Stats

/-!
# C69: the entropy simulations
-/

namespace Verif.Bin

open Verif Verif.Fixed Verif.Est Verif.Log2 Verif.Float

/-! ## Specification -/

/-- probability of a zero bit after the bits `pre` since the last restart -/
noncomputable def predicted (factor addend : Nat) (pre : List Bool) : ℝ :=
  (((replayWith factor addend pre).map decPrediction).getD 0 : ℕ) / 2 ^ 31

/-- information content of a bit -/
noncomputable def content (factor addend : Nat) (pre : List Bool) (b : Bool) : ℝ :=
  -Real.logb 2 (if b then 1 - predicted factor addend pre else predicted factor addend pre)

/-- information content of a bit sequence, where the estimator starts anew after every `runLength` bits -/
noncomputable def contentOf (factor addend runLength : Nat) (bits : List Bool) : ℝ :=
  ∑ k ∈ Finset.range bits.length,
    content factor addend ((bits.take k).drop (k / runLength * runLength)) (bits.getD k false)

/-! ## The accumulator -/

theorem rnd_error {q : ℚ} (h0 : 0 ≤ q) (h2 : q ≤ 2) : |rnd q - q| ≤ 1 / 2 ^ 53 := by
  rcases eq_or_lt_of_le h2 with rfl | h2
  · have : rnd 2 = 2 := rounded_fits ⟨1, 1, by norm_num, by norm_num, by norm_num⟩
    rw [this]
    norm_num
  · by_cases hq : q = 0
    · rw [hq, show rnd 0 = 0 from rounded_zero _ _]
      norm_num
    refine (rounded_error 53 (-1074) q).trans ?_
    have hl : Int.log 2 |q| < 1 := by
      have h := (log_bounds hq).1
      rw [abs_of_nonneg h0] at h ⊢
      exact (zpow_lt_zpow_iff_right₀ (show (1 : ℚ) < 2 by norm_num)).mp (lt_of_le_of_lt h (by simpa using h2))
    have hp : lastPlace 53 (-1074) q ≤ -52 := max_le (by push_cast; omega) (by norm_num)
    have : (2 : ℚ) ^ lastPlace 53 (-1074) q ≤ 2 ^ (-52 : ℤ) := zpow_le_zpow_right₀ (by norm_num) hp
    calc (2 : ℚ) ^ lastPlace 53 (-1074) q / 2 ≤ 2 ^ (-52 : ℤ) / 2 := div_le_div_of_nonneg_right this (by norm_num)
      _ = 1 / 2 ^ 53 := by norm_num [zpow_neg]

theorem rnd_between {q : ℚ} (h0 : 0 ≤ q) (h2 : q ≤ 2) : 0 ≤ rnd q ∧ rnd q ≤ 2 := by
  have a : rnd 0 ≤ rnd q := rounded_mono (by norm_num) _ h0
  have b : rnd q ≤ rnd 2 := rounded_mono (by norm_num) _ h2
  rw [show rnd 0 = 0 from rounded_zero _ _] at a
  rw [show rnd 2 = 2 from rounded_fits ⟨1, 1, by norm_num, by norm_num, by norm_num⟩] at b
  exact ⟨a, b⟩

theorem fl_small {q : ℚ} (h0 : 0 ≤ q) (h2 : q ≤ 2) : fl q = some (rnd q) := by
  obtain ⟨a, b⟩ := rnd_between h0 h2
  unfold fl
  rw [if_pos]
  rw [abs_of_nonneg a]
  refine lt_of_le_of_lt b ?_
  calc (2 : ℚ) = 2 ^ 1 := by norm_num
    _ < 2 ^ 1024 := pow_lt_pow_right₀ (by norm_num) (by norm_num)

/-- the subtraction of one is exact -/
theorem rnd_sub_one {q : ℚ} (h1 : 1 ≤ rnd q) (h2 : rnd q ≤ 2) : rnd (rnd q - 1) = rnd q - 1 := by
  obtain ⟨m, k, hm, hk, e⟩ : Fits 53 (-1074) (rnd q) := fits_rounded (by norm_num) _ q
  refine rounded_fits ?_
  rw [e] at h1 h2 ⊢
  have hkp := two_pos_zpow k
  have hm0 : 0 < m := by
    by_contra hc
    have : (m : ℚ) ≤ 0 := by exact_mod_cast not_lt.mp hc
    nlinarith
  rw [abs_of_pos hm0] at hm
  rcases le_or_gt k (-52) with hk2 | hk2
  · -- the last place is at most 2^-52: one is a multiple of it
    obtain ⟨d, hd⟩ : ∃ d : ℕ, k = -(d : ℤ) := ⟨(-k).toNat, by omega⟩
    subst hd
    have hone : (1 : ℚ) = ((2 ^ d : ℤ) : ℚ) * 2 ^ (-(d : ℤ)) := by
      push_cast
      rw [zpow_neg, zpow_natCast, mul_inv_cancel₀ (by positivity)]
    refine ⟨m - 2 ^ d, -(d : ℤ), ?_, hk, ?_⟩
    · have ha : (2 ^ d : ℤ) ≤ m := by
        rw [hone] at h1
        exact_mod_cast (mul_le_mul_iff_left₀ hkp).mp h1
      rw [abs_of_nonneg (by omega)]
      have : (0 : ℤ) < 2 ^ d := by positivity
      omega
    · push_cast
      rw [sub_mul]
      congr 1
      push_cast at hone
      exact hone
  · obtain ⟨z, hz⟩ : ∃ z : ℤ, (m : ℚ) * 2 ^ k = z * 2 ^ (-52 : ℤ) := by
      obtain ⟨d, hd⟩ : ∃ d : ℕ, k = -52 + (d : ℤ) := ⟨(k + 52).toNat, by omega⟩
      refine ⟨m * 2 ^ d, ?_⟩
      rw [hd, zpow_add₀ (by norm_num), zpow_natCast]
      push_cast
      ring
    rw [hz] at h1 h2 ⊢
    refine ⟨z - 2 ^ 52, -52, ?_, by norm_num, ?_⟩
    · have e52 : (2 : ℚ) ^ (-52 : ℤ) = 1 / 2 ^ 52 := by norm_num [zpow_neg]
      rw [e52, mul_one_div] at h1 h2
      rw [le_div_iff₀ (by norm_num)] at h1
      rw [div_le_iff₀ (by norm_num)] at h2
      have h1' : (2 ^ 52 : ℤ) ≤ z := by exact_mod_cast (by linarith : (2 ^ 52 : ℚ) ≤ z)
      have h2' : z ≤ 2 * 2 ^ 52 := by exact_mod_cast (by linarith : (z : ℚ) ≤ 2 * 2 ^ 52)
      rw [abs_of_nonneg (by omega)]
      norm_num at h1' h2' ⊢
      omega
    · push_cast
      rw [sub_mul]
      congr 1
      norm_num [zpow_neg]

/-! ## The estimator -/

variable {factor addend : Nat}

theorem replay_of {rates : List Nat} (hr : ratesMake factor addend = some rates) (pre : List Bool) :
    replayWith factor addend pre = decRun rates (pack (2 ^ 21) 0) pre := by
  unfold replayWith
  rw [hr, ob_some, decNew_eq, ob_some]

theorem replay_next {rates : List Nat} (hr : ratesMake factor addend = some rates) {pre : List Bool} {e : Nat}
    (h : replayWith factor addend pre = some e) (b : Bool) : replayWith factor addend (pre ++ [b]) = decUpdate rates e b := by
  rw [replay_of hr] at h ⊢
  rw [decRun_append, h, Option.bind_some, decRun]
  cases decUpdate rates e b <;> rfl

theorem replay_packed (hU : Usable factor addend) (pre : List Bool) :
    ∃ p c, replayWith factor addend pre = some (pack p c) ∧ 1 ≤ p ∧ p < 2 ^ 22 ∧ c < 1024 := by
  obtain ⟨rates, hr, hg⟩ := good_of_usable hU
  obtain ⟨p, h1, h2, -⟩ := decRun_ok_with hg pre ok_new
  rw [← replay_of hr] at h1
  have hl := h2.lt
  exact ⟨p, _, h1, by omega, hl.2, by omega⟩

theorem toFinal {p : Nat} (h1 : 1 ≤ p) (h2 : p < 2 ^ 22) :
    toFixU 32 fractOnlyU32 finalProbability (p * 512) = some (2 * p) := by
  unfold toFixU
  rw [if_pos (by decide)]
  rw [show fractOnlyU32.frac - finalProbability.frac = 8 by decide,
    scaledDownU_nosat (by norm_num) (by norm_num) (by omega), ob_some]
  unfold finalProbability Coding.FinalProbability.newUnchecked
  dsimp only
  rw [check_pos (by omega), ob_some]
  exact congrArg some (by omega)

/-- what a bit is charged -/
theorem charge_ok (hU : Usable factor addend) {lut : List Nat} (hl : log2LutNew = some lut) (pre : List Bool) (b : Bool) {e : Nat}
    (he : replayWith factor addend pre = some e) :
    ∃ q cost, toFixU 32 fractOnlyU32 finalProbability (decPrediction e) = some q ∧ estimateCost lut q b = some cost ∧
      toFixI 64 log2D Pred.log2Q cost = some cost ∧ 1 ≤ cost ∧ cost ≤ 23 * 2048 ∧
      |(cost : ℝ) / 2048 - content factor addend pre b| ≤ 2 / 2048 := by
  obtain ⟨p, c, h1, h2, h3, h4⟩ := replay_packed hU pre
  rw [he, Option.some.injEq] at h1
  obtain ⟨cost, c1, c2, c3, c4⟩ := C11_cost lut hl (2 * p) b (by omega) (by omega)
  refine ⟨2 * p, cost, ?_, c1, ?_, c2, c3, ?_⟩
  · rw [h1, decPrediction_pack h3 h4]
    exact toFinal h2 h3
  · unfold toFixI
    rw [if_neg (by decide)]
    dsimp only [log2D, Pred.log2Q]
    have hw : wrapI 64 (cost * 2 ^ (11 - 11)) = cost := by
      unfold wrapI
      norm_num
      omega
    rw [check_pos (by decide), ob_some, hw, check_pos (by norm_num), ob_some]
  · have hp : predicted factor addend pre = ((2 * p : ℕ) : ℝ) / 2 ^ 23 := by
      unfold predicted
      rw [he, h1, Option.map_some, Option.getD_some, decPrediction_pack h3 h4]
      push_cast
      ring
    unfold content
    rw [hp]
    exact c4.le

/-! ## The loop -/

/-- the state after the bits `bits` -/
structure SimAt (factor addend : Nat) (p : ℚ) (L : Nat) (bits : List Bool) (s : Sim) : Prop where
  est : bits.length % L ≠ 0 → replayWith factor addend (bits.drop (bits.length / L * L)) = some s.estimator
  zeros : s.zeros = bits.count false
  acc0 : 0 ≤ s.acc
  acc1 : s.acc ≤ 1
  acc : |s.acc + bits.count false - p * (bits.length + 1)| ≤ bits.length / 2 ^ 53
  all : ∀ n ≤ bits.length, p * (n + 1) - 1 - n / 2 ^ 53 ≤ (bits.take n).count false ∧
    ((bits.take n).count false : ℚ) ≤ p * (n + 1) + n / 2 ^ 53
  total0 : bits.length ≤ s.total
  total1 : s.total ≤ 23 * 2048 * bits.length
  total : |(s.total : ℝ) / 2048 - contentOf factor addend L bits| ≤ bits.length * (2 / 2048)

theorem contentOf_snoc (L : Nat) (bits : List Bool) (b : Bool) : contentOf factor addend L (bits ++ [b]) =
    contentOf factor addend L bits + content factor addend (bits.drop (bits.length / L * L)) b := by
  unfold contentOf
  rw [List.length_append, List.length_singleton, Finset.sum_range_succ]
  congr 1
  · refine Finset.sum_congr rfl fun k hk => ?_
    rw [Finset.mem_range] at hk
    rw [List.take_append_of_le_length hk.le, List.getD_eq_getElem?_getD, List.getD_eq_getElem?_getD,
      List.getElem?_append_left hk]
  · rw [List.take_append_of_le_length (le_refl _), List.take_length, List.getD_eq_getElem?_getD,
      List.getElem?_append_right (le_refl _), Nat.sub_self]
    rfl

theorem simStep_ok (hU : Usable factor addend) {rates lut : List Nat} (hr : ratesMake factor addend = some rates)
    (hl : log2LutNew = some lut) {p : ℚ} (hp0 : 0 < p) (hp1 : p < 1) {L : Nat} (hL : 0 < L) {bits : List Bool} {s : Sim}
    (h : SimAt factor addend p L bits s) (hn : bits.length < 2 ^ 31) :
    ∃ b s', simStep p rates lut L bits.length s = some s' ∧ SimAt factor addend p L (bits ++ [b]) s' := by
  -- the accumulator
  have hs0 : 0 ≤ s.acc + p := by linarith [h.acc0]
  have hs2 : s.acc + p ≤ 2 := by linarith [h.acc1]
  set a := rnd (s.acc + p) with ha
  obtain ⟨a0, a2⟩ := rnd_between hs0 hs2
  have herr := rnd_error hs0 hs2
  rw [← ha] at a0 a2 herr
  set b := decide (a < 1) with hb
  obtain ⟨a', hacc, ha0, ha1, hav⟩ : ∃ a', (if 1 ≤ a then fSub a 1 else some a) = some a' ∧ 0 ≤ a' ∧ a' ≤ 1 ∧
      a' + (if b = false then 1 else 0) = a := by
    by_cases hc : 1 ≤ a
    · refine ⟨a - 1, ?_, by linarith, by linarith, ?_⟩
      · rw [if_pos hc]
        unfold fSub
        rw [fl_small (by linarith) (by linarith), rnd_sub_one (q := s.acc + p) (by rw [← ha]; exact hc) (by rw [← ha]; exact a2)]
      · rw [if_pos (by rw [hb]; simpa using hc)]
        ring
    · refine ⟨a, if_neg hc, a0, by linarith, ?_⟩
      rw [if_neg (by rw [hb]; simpa using hc)]
      ring
  -- the estimator
  obtain ⟨e, he1, he2⟩ : ∃ e, (if bits.length % L = 0 then decNew else some s.estimator) = some e ∧
      replayWith factor addend (bits.drop (bits.length / L * L)) = some e := by
    by_cases hc : bits.length % L = 0
    · refine ⟨_, by rw [if_pos hc]; exact decNew_eq, ?_⟩
      rw [Nat.div_mul_cancel (Nat.dvd_of_mod_eq_zero hc), List.drop_length, replay_of hr]
      rfl
    · exact ⟨_, if_neg hc, h.est hc⟩
  obtain ⟨q, cost, q1, q2, q3, q4, q5, q6⟩ := charge_ok hU hl _ b he2
  obtain ⟨p', c', u1, -⟩ := replay_packed hU (bits.drop (bits.length / L * L) ++ [b])
  rw [replay_next hr he2 b] at u1
  have hcount : (bits ++ [b]).count false = bits.count false + if b = false then 1 else 0 := by
    rw [List.count_append]
    cases b <;> simp
  have hz : (if b = false then u32 (s.zeros + 1) else some s.zeros) = some ((bits ++ [b]).count false) := by
    have hle : bits.count false ≤ bits.length := List.count_le_length
    rw [hcount, h.zeros]
    by_cases hc : b = false
    · rw [if_pos hc, if_pos hc, u32_eq (by omega)]
    · rw [if_neg hc, if_neg hc]
      rfl
  have hlen : ((bits ++ [b]).length : ℚ) = bits.length + 1 := by simp
  have hacc' : |a' + ((bits ++ [b]).count false : ℕ) - p * ((bits ++ [b]).length + 1)| ≤ (bits ++ [b]).length / 2 ^ 53 := by
    have e1 : (((bits ++ [b]).count false : ℕ) : ℚ) = bits.count false + (if b = false then 1 else 0) := by
      rw [hcount]
      push_cast
      congr 1
    rw [hlen, e1]
    have h1 := abs_le.mp h.acc
    have h2 := abs_le.mp herr
    rw [abs_le]
    constructor
    · have : a' + ((bits.count false : ℚ) + (if b = false then 1 else 0)) - p * (bits.length + 1 + 1) =
          (a - (s.acc + p)) + (s.acc + bits.count false - p * (bits.length + 1)) := by rw [← hav]; ring
      rw [this, add_div]
      linarith
    · have : a' + ((bits.count false : ℚ) + (if b = false then 1 else 0)) - p * (bits.length + 1 + 1) =
          (a - (s.acc + p)) + (s.acc + bits.count false - p * (bits.length + 1)) := by rw [← hav]; ring
      rw [this, add_div]
      linarith
  refine ⟨b, ⟨pack p' c', s.total + cost, (bits ++ [b]).count false, a'⟩, ?_, ?_⟩
  · unfold simStep
    have hadd : fAdd s.acc p = some a := fl_small hs0 hs2
    have htl := h.total1
    have ht0 := h.total0
    rw [check_pos (by omega), ob_some, he1, ob_some, hadd, ob_some, ← hb]
    dsimp only
    rw [hacc, ob_some, q1, ob_some, q2, ob_some, q3, ob_some, Pred.add_ok (by omega) (by omega), ob_some, hz, ob_some, u1, ob_some]
  · refine ⟨?_, rfl, ha0, ha1, hacc', ?_, ?_, ?_, ?_⟩
    · intro hm
      rw [List.length_append, List.length_singleton] at hm ⊢
      dsimp only
      have hd : (bits.length + 1) / L = bits.length / L := by
        rw [Nat.succ_div, if_neg, Nat.add_zero]
        intro hdvd
        exact hm (Nat.mod_eq_zero_of_dvd hdvd)
      rw [hd, List.drop_append_of_le_length (Nat.div_mul_le_self _ _), replay_next hr he2 b]
      exact u1
    · intro n hn'
      rw [List.length_append, List.length_singleton] at hn'
      rcases Nat.lt_or_ge bits.length n with hlt | hge
      · have hnn : n = (bits ++ [b]).length := by simp; omega
        rw [hnn, List.take_length]
        have h1 := abs_le.mp hacc'
        constructor <;> linarith
      · rw [List.take_append_of_le_length hge]
        exact h.all n hge
    · show _ ≤ s.total + cost
      have := h.total0
      rw [List.length_append, List.length_singleton]
      push_cast
      omega
    · show s.total + cost ≤ _
      have := h.total1
      rw [List.length_append, List.length_singleton]
      push_cast
      linarith
    · show |((s.total + cost : ℤ) : ℝ) / 2048 - _| ≤ _
      rw [contentOf_snoc, List.length_append, List.length_singleton]
      have h1 := abs_le.mp h.total
      have h2 := abs_le.mp q6
      push_cast
      rw [abs_le]
      constructor <;> linarith

theorem simLoop_ok (hU : Usable factor addend) {rates lut : List Nat} (hr : ratesMake factor addend = some rates)
    (hl : log2LutNew = some lut) {p : ℚ} (hp0 : 0 < p) (hp1 : p < 1) {L : Nat} (hL : 0 < L) : ∀ (n : Nat) (bits : List Bool) (s : Sim),
    SimAt factor addend p L bits s → bits.length + n < 2 ^ 31 →
    ∃ bits' s', simLoop p rates lut L n bits.length s = some s' ∧ bits'.length = bits.length + n ∧
      SimAt factor addend p L bits' s' := by
  intro n
  induction n with
  | zero => intro bits s h _; exact ⟨bits, s, rfl, rfl, h⟩
  | succ n ih =>
    intro bits s h hn
    obtain ⟨b, s1, e1, h1⟩ := simStep_ok hU hr hl hp0 hp1 hL h (by omega)
    obtain ⟨bits', s', e2, l2, h2⟩ := ih (bits ++ [b]) s1 h1 (by simp; omega)
    rw [List.length_append, List.length_singleton] at e2 l2
    exact ⟨bits', s', by rw [simLoop, e1, ob_some, e2], by omega, h2⟩

/-- **C69.** For every probability strictly between 0 and 1, every run length and every usable rate table, the simulation
does not panic. It processes 10000 bits. After `n` bits the number of zeros is `p * (n + 1)`, rounded
down (up to the rounding of the floats); the reported counts are those of the bits; and the total cost is the
information content of the bits under the predictions of the estimator, up to 1/1024 bit per bit. A bit costs at least
1/2048 and at most 23 bits. -/
theorem C69_simulation (hU : Usable factor addend) (p : ℚ) (hp0 : 0 < p) (hp1 : p < 1) (L : Nat) (hL : 0 < L) :
    ∃ bits total zeros ones, simulateWith factor addend p L = some (total, zeros, ones) ∧ bits.length = 10000 ∧
      (∀ n : ℕ, n ≤ 10000 → p * (n + 1) - 1 - n / 2 ^ 53 ≤ (bits.take n).count false ∧
        ((bits.take n).count false : ℚ) ≤ p * (n + 1) + n / 2 ^ 53) ∧
      zeros = bits.count false ∧ ones = bits.count true ∧ 10000 ≤ total ∧ total ≤ 23 * 2048 * 10000 ∧
      |(total : ℝ) / 2048 - contentOf factor addend L bits| ≤ 10000 / 1024 := by
  obtain ⟨rates, hr, -⟩ := good_of_usable hU
  obtain ⟨lut, hl, -⟩ := C10_table_exists
  obtain ⟨bits, s, e1, l1, h1⟩ := simLoop_ok hU hr hl hp0 hp1 hL 10000 [] ⟨pack (2 ^ 21) 0, 0, 0, p⟩
    ⟨fun h => by simp at h, rfl, hp0.le, hp1.le, by simp, by
      intro n hn
      have : n = 0 := by simpa using hn
      subst this
      simp only [List.take_nil, List.count_nil, Nat.cast_zero, zero_add, mul_one, zero_div, add_zero, sub_zero]
      exact ⟨by linarith, hp0.le⟩, by simp, by simp, by simp [contentOf]⟩ (by simp)
  rw [List.length_nil, Nat.zero_add] at l1
  rw [List.length_nil] at e1
  have hsum : bits.count true + bits.count false = 10000 := by
    rw [← l1]
    clear * -
    induction bits with
    | nil => rfl
    | cons b bits ih => cases b <;> simp <;> omega
  refine ⟨bits, s.total, bits.count false, bits.count true, ?_, l1, ?_, rfl, rfl, ?_, ?_, ?_⟩
  · unfold simulateWith simulate
    rw [hl, ob_some, hr, ob_some, check_pos ⟨hp0, hp1⟩, ob_some, decNew_eq, ob_some, e1, ob_some, h1.zeros,
      subU_eq (by omega), ob_some, show 10000 - bits.count false = bits.count true by omega]
  · intro n hn
    exact h1.all n (by omega)
  · have := h1.total0
    omega
  · have := h1.total1
    omega
  · have := h1.total
    rw [l1] at this
    refine this.trans (by norm_num)

/-- **C69 (counts).** For every probability between 1/10000 and 9999/10000, as `main` takes them, both bits occur, so that
the logarithms of the report are finite. -/
theorem C69_both_bits (hU : Usable factor addend) (p : ℚ) (hp0 : 1 / 10000 ≤ p) (hp1 : p ≤ 9999 / 10000) (L : Nat) (hL : 0 < L) :
    ∃ total zeros ones, simulateWith factor addend p L = some (total, zeros, ones) ∧ 0 < zeros ∧ 0 < ones ∧ zeros + ones = 10000 := by
  obtain ⟨bits, total, zeros, ones, e, l, hf, hz, ho, -, -, -⟩ :=
    C69_simulation hU p (by linarith) (by linarith) L hL
  have hsum : bits.count true + bits.count false = 10000 := by
    rw [← l]
    clear * -
    induction bits with
    | nil => rfl
    | cons b bits ih => cases b <;> simp <;> omega
  have h := hf 10000 (le_refl _)
  rw [List.take_of_length_le (by omega), ← hz] at h
  have h' := h
  norm_num at h'
  refine ⟨total, zeros, ones, e, ?_, ?_, by omega⟩
  · have : (0 : ℚ) < zeros := by linarith
    exact_mod_cast this
  · have : (zeros : ℚ) < 10000 := by linarith
    have : zeros < 10000 := by exact_mod_cast this
    omega

theorem fl_mid {q : ℚ} (h0 : 1 / 2 ^ 20 ≤ q) (h1 : q ≤ 2 ^ 20) : fl q = some (rnd q) ∧ |rnd q - q| ≤ q * (1 / 2 ^ 53) := by
  have hq : |q| = q := abs_of_pos (lt_of_lt_of_le (by norm_num) h0)
  have hr : |rnd q - q| ≤ q * (1 / 2 ^ 53) := by
    have := rnd_relative (q := q) (by
      rw [hq]
      refine le_trans ?_ h0
      rw [show (1 : ℚ) / 2 ^ 20 = 2 ^ (-20 : ℤ) by norm_num [zpow_neg]]
      exact zpow_le_zpow_right₀ (by norm_num) (by norm_num))
    rw [hq] at this
    refine this.trans (le_of_eq ?_)
    norm_num [zpow_neg]
  refine ⟨?_, hr⟩
  unfold fl
  rw [if_pos]
  have h2 := abs_le.mp hr
  rw [abs_of_nonneg (by linarith)]
  calc rnd q ≤ 2 ^ 21 := by linarith
    _ < 2 ^ 1024 := pow_lt_pow_right₀ (by norm_num) (by norm_num)

/-- **C69 (probabilities).** `main` computes its probabilities as `1 / (1 + exp(x / 2))` for `x` between -18 and 18. If what
`exp` returns is between 1/9000 and 9000 (the exact values are between 1/8104 and 8104), the probability meets the
conditions of `C69_both_bits`. -/
theorem C69_probability (y : ℚ) (h0 : 1 / 9000 ≤ y) (h1 : y ≤ 9000) :
    ∃ p, simProbability y = some p ∧ 1 / 10000 ≤ p ∧ p ≤ 9999 / 10000 := by
  obtain ⟨e1, r1⟩ := fl_mid (q := 1 + y) (by linarith) (by linarith)
  have r1 := abs_le.mp r1
  set a := rnd (1 + y)
  have a0 : 1 + 1 / 9001 ≤ a := by linarith
  have a1 : a ≤ 9002 := by linarith
  have hpos : 0 < a := by linarith
  have i0 : 1 / a ≤ 9001 / 9002 := by rw [div_le_div_iff₀ hpos (by norm_num)]; linarith
  have i1 : 1 / 9002 ≤ 1 / a := one_div_le_one_div_of_le hpos a1
  obtain ⟨e2, r2⟩ := fl_mid (q := 1 / a) (by linarith) (by linarith)
  have r2 := abs_le.mp r2
  refine ⟨rnd (1 / a), ?_, by linarith, by linarith⟩
  unfold simProbability
  rw [show fAdd 1 y = some a from e1, ob_some]
  unfold fDiv
  rw [if_neg hpos.ne', e2]

/-- **C69 (run length zero).** A run length of zero panics. -/
theorem C69_zero_run (factor addend : Nat) (p : ℚ) : simulateWith factor addend p 0 = none := by
  unfold simulateWith simulate
  cases log2LutNew with
  | none => rfl
  | some lut =>
    cases ratesMake factor addend with
    | none => rfl
    | some rates =>
      rw [ob_some, ob_some, decNew_eq]
      by_cases h : 0 < p ∧ p < 1
      · rw [check_pos h]
        rfl
      · rw [check_neg h]
        rfl

/-- the tables of `main` -/
example : Usable 1 2 ∧ Usable 1 3 ∧ Usable 2 2 ∧ Usable 2 3 := by
  unfold Usable
  omega

/-- with probability 1/4 every fourth bit is a zero, the first after two ones; the bits do not depend on the logarithms -/
example : ((List.range 9).foldl (fun (s : Option (Sim × List Nat)) i => do
    let (s, out) ← s
    let rates ← ratesMake 1 2
    let s ← simStep (1 / 4) rates (List.replicate 2048 0) 5 i s
    some (s, out ++ [s.zeros])) ((decNew).map fun e => (⟨e, 0, 0, 1 / 4⟩, []))).map (fun r => r.2) =
      some [0, 0, 1, 1, 1, 1, 2, 2, 2] := by
  decide +kernel

end Verif.Bin
