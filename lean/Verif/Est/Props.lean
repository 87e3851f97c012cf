import Verif.Est.Lemmas
import Mathlib.Algebra.Order.Field.Rat
import Mathlib.Tactic.FieldSimp
import Mathlib.Algebra.Order.Field.Basic

/-!
# C13 – C17: probability estimators

The specification side uses only bit lists, counts of zeros and exact rational arithmetic.
-/

namespace Verif.Est

open Verif Verif.Fixed

/-- `new()` followed by one update per bit, with the default rates. -/
def replay (bits : List Bool) : Option Nat := do
  let rates ← ratesDefault
  let e ← decNew
  decRun rates e bits

theorem isDefault_of {rates : List Nat} (h : ratesDefault = some rates) : IsDefault rates := by
  obtain ⟨r, h1, -, h2⟩ := ratesDefault_spec
  rw [h, Option.some.injEq] at h1
  subst h1
  exact h2

theorem replay_eq {rates : List Nat} (h : ratesDefault = some rates) (bits : List Bool) :
    replay bits = decRun rates (pack (2 ^ 21) 0) bits := by
  unfold replay
  rw [h, ob_some, decNew_eq, ob_some]

theorem rates_exist : ∃ r, ratesDefault = some r ∧ IsDefault r := by
  obtain ⟨r, h1, -, h2⟩ := ratesDefault_spec
  exact ⟨r, h1, h2⟩

/-! ## C13 -/

/-- **C13.** For every bit sequence, building the estimator and feeding the bits never panics; the
prediction is strictly between 0 and 1 (`2 ^ 31`) and the count is the number of bits, capped. -/
theorem C13_range (bits : List Bool) :
    ∃ e, replay bits = some e ∧ 0 < decPrediction e ∧ decPrediction e < 2 ^ 31 ∧
      decCount e = min bits.length 1000 := by
  obtain ⟨rates, hr, hd⟩ := rates_exist
  obtain ⟨p, h1, h2, -⟩ := decRun_ok hd bits ok_new
  have hl := h2.lt
  refine ⟨_, by rw [replay_eq hr, h1], ?_⟩
  rw [decPrediction_pack hl.2 (by omega), decCount_pack (by omega)]
  omega

/-- **C13 (direction).** Feeding one more zero never lowers the probability of zero and feeding one more
one never raises it. -/
theorem C13_monotone (bits : List Bool) :
    ∃ e e0 e1, replay bits = some e ∧ replay (bits ++ [false]) = some e0 ∧
      replay (bits ++ [true]) = some e1 ∧
      decPrediction e1 ≤ decPrediction e ∧ decPrediction e ≤ decPrediction e0 := by
  obtain ⟨rates, hr, hd⟩ := rates_exist
  obtain ⟨p, h1, h2, -⟩ := decRun_ok hd bits ok_new
  obtain ⟨q0, a0, b0, n0⟩ := decUpdate_step hd h2 false
  obtain ⟨q1, a1, b1, n1⟩ := decUpdate_step hd h2 true
  have key : ∀ b q, decUpdate rates (pack p (min (0 + bits.length) 1000)) b = some q →
      replay (bits ++ [b]) = some q := by
    intro b q h
    rw [replay_eq hr, decRun_append, h1, Option.bind_some, decRun, h, ob_some, decRun]
  refine ⟨_, _, _, by rw [replay_eq hr, h1], key _ _ a0, key _ _ a1, ?_⟩
  have hl := h2.lt
  rw [decPrediction_pack hl.2 (by omega), decPrediction_pack b0.lt.2 (by omega),
    decPrediction_pack b1.lt.2 (by omega)]
  have hrate : (0 : Int) ≤ rate (min (0 + bits.length) 1000) := by positivity
  generalize rate (min (0 + bits.length) 1000) = f at *
  have hp0 : (p : Int) ≤ 4194304 := by have := hl.2; omega
  have hp1 : (0 : Int) ≤ p := by positivity
  obtain ⟨n0, -⟩ := n0
  obtain ⟨n1, -⟩ := n1
  have t0 : (p : Int) * 2 ^ 40 ≤ target p f false := by
    unfold target
    simp only [Bool.false_eq_true, if_false]
    nlinarith
  have t1 : target p f true ≤ (p : Int) * 2 ^ 40 := by
    unfold target
    simp only [if_true]
    nlinarith
  have l0 := neg_abs_le (((q0 : Int) - 2 ^ 21) * 2 ^ 40 - (target p f false - 2 ^ 61))
  have l1 := le_abs_self (((q1 : Int) - 2 ^ 21) * 2 ^ 40 - (target p f true - 2 ^ 61))
  generalize target p f false = x0 at *
  generalize target p f true = x1 at *
  generalize |((q0 : Int) - 2 ^ 21) * 2 ^ 40 - (x0 - 2 ^ 61)| = y0 at *
  generalize |((q1 : Int) - 2 ^ 21) * 2 ^ 40 - (x1 - 2 ^ 61)| = y1 at *
  norm_num at *
  constructor <;> omega

/-- **C13 (finding).** The guarantee needs a state reached from `new()`: `make` accepts the largest
prediction with count zero, and one more zero bit then wraps the prediction to 0. -/
theorem C13_make_wraps : ∃ rates e, ratesDefault = some rates ∧ decMake (2 ^ 31 - 2 ^ 9) 0 = some e ∧
    (decUpdate rates e false).map decPrediction = some 0 := by
  obtain ⟨rates, hr, hd⟩ := rates_exist
  refine ⟨rates, pack (2 ^ 22 - 1) 0, hr, by decide +kernel, ?_⟩
  have h0 := hd 0 (by norm_num)
  obtain ⟨x, xs, rfl⟩ : ∃ x xs, rates = x :: xs := by
    cases rates with
    | nil => simp at h0
    | cons x xs => exact ⟨x, xs, rfl⟩
  simp only [List.getElem?_cons_zero, Option.some.injEq] at h0
  subst h0
  have : ∀ xs, decUpdate (rate 0 :: xs) (pack (2 ^ 22 - 1) 0) false =
      decUpdate [rate 0] (pack (2 ^ 22 - 1) 0) false := by
    intro xs
    unfold decUpdate
    rw [show decCount (pack (2 ^ 22 - 1) 0) = 0 by decide +kernel]
    dsimp only
    rw [List.getElem?_cons_zero, List.getElem?_cons_zero]
  rw [this]
  decide +kernel

example : (replay [false, true, true, false, false]).map (fun e => (decPrediction e, decCount e)) =
    some (1252698624, 5) := by decide +kernel

/-! ## C14 -/

/-- **C14.** The complemented sequence gives exactly the complementary prediction and the same count. -/
theorem C14_symmetry (bits : List Bool) :
    ∃ e e', replay bits = some e ∧ replay (bits.map not) = some e' ∧
      decPrediction e' = 2 ^ 31 - decPrediction e ∧ decCount e' = decCount e := by
  obtain ⟨rates, hr, hd⟩ := rates_exist
  obtain ⟨p, h1, h2, h3⟩ := decRun_ok hd bits ok_new
  have hl := h2.lt
  refine ⟨_, _, by rw [replay_eq hr, h1], by rw [replay_eq hr]; exact h3, ?_⟩
  rw [decPrediction_pack hl.2 (by omega), decPrediction_pack (by omega) (by omega),
    decCount_pack (by omega), decCount_pack (by omega)]
  omega

example : (replay [true, false, false, true, true]).map (fun e => (decPrediction e, decCount e)) =
    some (2 ^ 31 - 1252698624, 5) := by decide +kernel

/-! ## C15 -/

/-- number of zero bits in a sequence (specification) -/
def countZeros (bits : List Bool) : Nat := (bits.filter (fun b => b = false)).length

theorem countZeros_eq (bits : List Bool) : countZeros bits = zeros bits := by
  unfold countZeros zeros
  rw [List.count_eq_countP, List.countP_eq_length_filter]
  congr 1

/-- **C15 (exact error).** For up to 1001 bits the prediction is `(zeros + 1/2) / (bits + 1)` up to the
accumulated rounding error, stated without division in units of `2 ^ -31`. -/
theorem C15_error (bits : List Bool) (h : bits.length ≤ 1001) :
    ∃ e, replay bits = some e ∧
      2 * |((bits.length : Int) + 1) * decPrediction e - (2 ^ 31 * (countZeros bits : Int) + 2 ^ 30)| ≤
        257 * ((bits.length : Int) * (bits.length - 1)) + 1026 * bits.length := by
  obtain ⟨rates, hr, hd⟩ := rates_exist
  obtain ⟨p, h1, h2, h3⟩ := run_error hd bits ok_new (by omega)
  have hl := h2.lt
  refine ⟨_, by rw [replay_eq hr, h1], ?_⟩
  rw [decPrediction_pack hl.2 (by omega), countZeros_eq]
  clear h1 h2 hl
  rw [show ((2 ^ 21 : Nat) : Int) = 2097152 by norm_num, Nat.cast_zero] at h3
  rw [Nat.cast_mul]
  generalize (zeros bits : Int) = z at *
  generalize (bits.length : Int) = n at *
  generalize (p : Int) = p at *
  have e : (n + 1) * (p * ((512 : Nat) : Int)) - (2 ^ 31 * z + 2 ^ 30) =
      512 * ((0 + n + 1) * p - (0 + 1) * 2097152 - 4194304 * z) := by
    push_cast; ring
  rw [e, abs_mul, abs_of_nonneg (show (0 : Int) ≤ 512 by norm_num)]
  rw [show 2 * 0 + n - 1 = n - 1 by ring] at h3
  generalize |(0 + n + 1) * p - (0 + 1) * 2097152 - 4194304 * z| = w at *
  linarith

/-- **C15.** For every sequence of up to 1001 bits the prediction is within `2 ^ -14` of
`(zeros + 1/2) / (bits + 1)`. -/
theorem C15_estimate (bits : List Bool) (h : bits.length ≤ 1001) :
    ∃ e, replay bits = some e ∧
      |(decPrediction e : ℚ) / 2 ^ 31 - ((countZeros bits : ℚ) + 1 / 2) / (bits.length + 1)| <
        1 / 2 ^ 14 := by
  obtain ⟨e, h1, h2⟩ := C15_error bits h
  refine ⟨e, h1, ?_⟩
  have hq := (Int.cast_le (R := ℚ)).mpr h2
  rw [Int.cast_mul, Int.cast_abs] at hq
  simp only [Int.cast_sub, Int.cast_add, Int.cast_mul, Int.cast_natCast, Int.cast_ofNat, Int.cast_one,
    Int.cast_pow] at hq
  have hn : (bits.length : ℚ) ≤ 1001 := by exact_mod_cast h
  have hn0 : (0 : ℚ) ≤ bits.length := by positivity
  clear h1 h2 h
  generalize (bits.length : ℚ) = n at *
  generalize (decPrediction e : ℚ) = x at *
  generalize (countZeros bits : ℚ) = z at *
  have hpos : (0 : ℚ) < 2 ^ 31 * (n + 1) := by positivity
  have e1 : x / 2 ^ 31 - (z + 1 / 2) / (n + 1) =
      ((n + 1) * x - (2 ^ 31 * z + 2 ^ 30)) / (2 ^ 31 * (n + 1)) := by
    field_simp
  rw [e1, abs_div, abs_of_pos hpos, div_lt_div_iff₀ hpos (by positivity)]
  generalize |(n + 1) * x - (2 ^ 31 * z + 2 ^ 30)| = w at *
  norm_num
  nlinarith

example : countZeros [false, true, true, false, false] = 3 := by decide

/-! ## C16 -/

/-- **C16.** From any valid start the fixed speed estimator never overflows, stays strictly inside
`(0, 2 ^ 16)`, and the complemented sequence from the complementary start gives the complementary state. -/
theorem C16_fixed_speed (bits : List Bool) : ∀ x, 0 < x → x < 2 ^ 16 →
    ∃ y, fixRun x bits = some y ∧ 0 < y ∧ y < 2 ^ 16 ∧
      fixRun (2 ^ 16 - x) (bits.map not) = some (2 ^ 16 - y) := by
  have step : ∀ b x, 0 < x → x < 2 ^ 16 → ∃ y, fixUpdate x b = some y ∧ 0 < y ∧ y < 2 ^ 16 ∧
      fixUpdate (2 ^ 16 - x) (!b) = some (2 ^ 16 - y) := by
    intro b x h0 h1
    cases b
    · refine ⟨x + (2 ^ 16 - x) / 2 ^ 7, ?_, by omega, by omega, ?_⟩
      · unfold fixUpdate wrapU16
        simp only [Bool.false_eq_true, if_false]
        rw [subU_eq (by omega), ob_some, Nat.mod_eq_of_lt (by omega), u16_eq (by omega)]
      · unfold fixUpdate
        simp only [Bool.not_false, if_true]
        rw [subU_eq (by omega)]
        congr 1; omega
    · refine ⟨x - x / 2 ^ 7, ?_, by omega, by omega, ?_⟩
      · unfold fixUpdate
        simp only [if_true]
        rw [subU_eq (by omega)]
      · unfold fixUpdate wrapU16
        simp only [Bool.not_true, Bool.false_eq_true, if_false]
        rw [subU_eq (by omega), ob_some, Nat.mod_eq_of_lt (by omega), u16_eq (by omega)]
        congr 1; omega
  induction bits with
  | nil => intro x h0 h1; exact ⟨x, rfl, h0, h1, rfl⟩
  | cons b bits ih =>
    intro x h0 h1
    obtain ⟨y, e1, y0, y1, f1⟩ := step b x h0 h1
    obtain ⟨z, e2, z0, z1, f2⟩ := ih y y0 y1
    refine ⟨z, ?_, z0, z1, ?_⟩
    · rw [fixRun, e1, ob_some, e2]
    · rw [List.map_cons, fixRun, f1, ob_some, f2]

/-- **C16 (from default).** -/
theorem C16_default (bits : List Bool) :
    ∃ y, fixRun fixDefault bits = some y ∧ 0 < fixPrediction y ∧ fixPrediction y < 2 ^ 31 ∧
      ∃ y', fixRun fixDefault (bits.map not) = some y' ∧
        fixPrediction y' = 2 ^ 31 - fixPrediction y := by
  obtain ⟨y, h1, h2, h3, h4⟩ := C16_fixed_speed bits fixDefault (by decide) (by decide)
  refine ⟨y, h1, ?_, ?_, _, h4, ?_⟩ <;> unfold fixPrediction wrapU32 <;> omega

example : fixRun fixDefault [false, false, true] = some 33019 := by decide +kernel

/-! ## C17 -/

theorem cacheLoop_spec {rates : List Nat} (hd : IsDefault rates) : ∀ (k p c : Nat), Ok p c →
    ∃ cache, cacheLoop rates k (pack p c) = some cache ∧ cache.length = k ∧
      ∀ n, n < k → cache[n]? = decRun rates (pack p c) (List.replicate n false ++ [true]) := by
  intro k
  induction k with
  | zero => intro p c _; exact ⟨[], rfl, rfl, by intro n h; omega⟩
  | succ k ih =>
    intro p c h
    obtain ⟨q1, e1, o1, -⟩ := decUpdate_step hd h true
    obtain ⟨q0, e0, o0, -⟩ := decUpdate_step hd h false
    obtain ⟨cache, hc, hlen, hall⟩ := ih q0 _ o0
    refine ⟨_ :: cache, by rw [cacheLoop, e1, ob_some, e0, ob_some, hc, ob_some], by simp [hlen], ?_⟩
    intro n hn
    cases n with
    | zero =>
      rw [List.getElem?_cons_zero, List.replicate_zero, List.nil_append, decRun, e1, ob_some, decRun]
    | succ n =>
      rw [List.getElem?_cons_succ, hall n (by omega), List.replicate_succ, List.cons_append, decRun, e0,
        ob_some]

/-- **C17.** The run cache can be built, and for every supported run length the cached estimator equals
the one obtained by replaying the run of opposite bits followed by the last bit. -/
theorem C17_cache (rates cache : List Nat) (h : ratesDefault = some rates)
    (hc : cacheNew rates = some cache) (lastBit : Bool) (n : Nat) (hn : n ≤ 1000) :
    cacheForNewNode cache lastBit n = replay (List.replicate n (!lastBit) ++ [lastBit]) ∧
      (replay (List.replicate n (!lastBit) ++ [lastBit])).isSome := by
  have hd := isDefault_of h
  unfold cacheNew at hc
  rw [decNew_eq, ob_some] at hc
  obtain ⟨cache', hc', -, hall⟩ := cacheLoop_spec hd 1024 _ _ ok_new
  rw [hc, Option.some.injEq] at hc'
  subst hc'
  obtain ⟨p, h1, h2, h3⟩ := decRun_ok hd (List.replicate n false ++ [true]) ok_new
  have hl := h2.lt
  have hget := hall n (by omega)
  rw [h1] at hget
  unfold cacheForNewNode
  rw [check_pos (by unfold maxCount; omega), ob_some]
  have hm : min (0 + (List.replicate n false ++ [true]).length) 1000 = min (n + 1) 1000 := by simp
  rw [hm] at *
  cases lastBit
  · simp only [Bool.false_eq_true, if_false, Bool.not_false]
    rw [show (2 ^ 22 - 2 ^ 21) = 2 ^ 21 by norm_num,
      show (List.replicate n false ++ [true]).map not = List.replicate n true ++ [false] by simp] at h3
    rw [replay_eq h, h3, hget, ob_some, decPrediction_pack hl.2 (by omega)]
    refine ⟨?_, rfl⟩
    rw [((C09_flip (p * 512) (by omega)).1 (by omega)).1, ob_some, decCount_pack (by omega)]
    unfold decMake maxCount
    rw [check_pos (by omega), ob_some]
    dsimp only
    rw [show (2 ^ 31 - p * 512) / 512 = 2 ^ 22 - p by omega, if_neg (by omega), if_neg (by omega),
      check_pos (by omega), ob_some, check_pos (by omega), ob_some, Nat.mod_eq_of_lt (by omega),
      or_pack (by omega)]
  · simp only [if_true, Bool.not_true]
    rw [replay_eq h, h1, hget]
    exact ⟨rfl, rfl⟩

theorem C17_cache_exists : ∃ rates cache, ratesDefault = some rates ∧ cacheNew rates = some cache := by
  obtain ⟨rates, hr, hd⟩ := rates_exist
  obtain ⟨cache, hc, -⟩ := cacheLoop_spec hd 1024 _ _ ok_new
  exact ⟨rates, cache, hr, by unfold cacheNew; rw [decNew_eq, ob_some, hc]⟩

theorem predictionsLoop_spec {rates : List Nat} (hd : IsDefault rates) (stretch : Nat → Option Int)
    (hs : ∀ x, 0 < x → x < 2 ^ 31 → ∃ y, stretch x = some y) : ∀ (k p c : Nat), Ok p c →
    ∃ t, predictionsLoop rates stretch k (pack p c) = some t ∧
      ∀ n, n < k → ∃ e st, decRun rates (pack p c) (List.replicate n false) = some e ∧
        stretch (decPrediction e) = some st ∧ t[n]? = some (decPrediction e, st) := by
  intro k
  induction k with
  | zero => intro p c _; exact ⟨[], rfl, by intro n h; omega⟩
  | succ k ih =>
    intro p c h
    obtain ⟨q0, e0, o0, -⟩ := decUpdate_step hd h false
    obtain ⟨t, ht, hall⟩ := ih q0 _ o0
    have hl := h.lt
    have hpp := decPrediction_pack hl.2 (show c < 1024 by have := h.1; omega)
    obtain ⟨st, hst⟩ := hs (decPrediction (pack p c)) (by omega) (by omega)
    refine ⟨(decPrediction (pack p c), st) :: t, ?_, ?_⟩
    · unfold predictionsLoop
      dsimp only
      rw [hst, ob_some, e0, ob_some, ht, ob_some]
    · intro n hn
      cases n with
      | zero => exact ⟨_, st, rfl, hst, rfl⟩
      | succ n =>
        obtain ⟨e, st', a, b, c'⟩ := hall n (by omega)
        refine ⟨e, st', ?_, b, by rw [List.getElem?_cons_succ]; exact c'⟩
        rw [List.replicate_succ, decRun, e0, ob_some, a]

/-- **C17 (predictions).** For every total stretch function the deterministic run table can be built; the
entry for a run of `n ≤ 1000` zeros holds a probability within `2 ^ -13` of `(n + 1) / (n + 2)`, strictly
inside (0, 1), together with its stretched value. -/
theorem C17_predictions (rates : List Nat) (h : ratesDefault = some rates) (stretch : Nat → Option Int)
    (hs : ∀ x, 0 < x → x < 2 ^ 31 → ∃ y, stretch x = some y) :
    ∃ t, predictionsNew stretch rates = some t ∧ ∀ n, n ≤ 1000 →
      ∃ sq st, for0BitRun t n = some (sq, st) ∧ stretch sq = some st ∧ 0 < sq ∧ sq < 2 ^ 31 ∧
        |(sq : ℚ) / 2 ^ 31 - ((n : ℚ) + 1) / (n + 2)| < 1 / 2 ^ 13 := by
  have hd := isDefault_of h
  obtain ⟨t, ht, hall⟩ := predictionsLoop_spec hd stretch hs 1024 _ _ ok_half1
  refine ⟨t, by unfold predictionsNew; rw [decHalf1_eq, ob_some, ht], ?_⟩
  intro n hn
  obtain ⟨e, st, he, hst, hget⟩ := hall n (by omega)
  obtain ⟨p, h1, h2, h3⟩ := run_error hd (List.replicate n false) ok_half1 (by simp; omega)
  rw [he, Option.some.injEq] at h1
  have hl := h2.lt
  have hp := decPrediction_pack (p := p) (c := min (1 + (List.replicate n false).length) 1000) hl.2
    (by omega)
  rw [← h1] at hp
  refine ⟨decPrediction e, st, ?_, hst, by omega, by omega, ?_⟩
  · unfold for0BitRun
    rw [check_pos (by unfold maxCount; omega), ob_some, hget]
  · rw [hp]
    have hz : zeros (List.replicate n false) = n := by unfold zeros; simp
    rw [hz, List.length_replicate] at h3
    rw [show ((2 ^ 21 : Nat) : Int) = 2097152 by norm_num, Nat.cast_one] at h3
    have hq := (Int.cast_le (R := ℚ)).mpr h3
    rw [Int.cast_mul, Int.cast_abs] at hq
    simp only [Int.cast_sub, Int.cast_add, Int.cast_mul, Int.cast_natCast, Int.cast_ofNat, Int.cast_one]
      at hq
    have hn' : (n : ℚ) ≤ 1000 := by exact_mod_cast hn
    have hn0 : (0 : ℚ) ≤ n := by positivity
    rw [Nat.cast_mul, Nat.cast_ofNat]
    clear h3 h2 hl hp h1 he hall hget
    generalize (n : ℚ) = n at *
    generalize (p : ℚ) = x at *
    have hpos : (0 : ℚ) < 4194304 * (n + 2) := by positivity
    have e1 : x * 512 / 2 ^ 31 - (n + 1) / (n + 2) =
        ((1 + n + 1) * x - (1 + 1) * 2097152 - 4194304 * n) / (4194304 * (n + 2)) := by
      field_simp; ring
    rw [e1, abs_div, abs_of_pos hpos, div_lt_div_iff₀ hpos (by positivity)]
    generalize |(1 + n + 1) * x - (1 + 1) * 2097152 - 4194304 * n| = w at *
    norm_num
    nlinarith

example : (decMake (2 ^ 30) 1).map decPrediction = some (2 ^ 30) := by decide +kernel

end Verif.Est
