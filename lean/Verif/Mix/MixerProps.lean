import Verif.Mix.MixerLemmas
import Verif.Mix.MixerSpec
import Verif.Lut.Props
import Mathlib.Tactic.IntervalCases
import Mathlib.Data.List.Forall2

/-! # Mixer properties C38, C39, C40 and C48 -/

namespace Verif.Mix

open Verif Verif.Fixed Verif.Lut

/-- what the mixer needs from the squash table -/
def SquashOk (table : List Nat) : Prop :=
  ∀ x : Int, |x| ≤ 12 * 2 ^ 21 → ∃ r, squash table x = some r ∧ squash table (-x) = some (2 ^ 31 - r) ∧
    2 ^ 14 ≤ r ∧ r ≤ 2 ^ 31 - 2 ^ 14

theorem squashOk {lut : List (List Int)} {table : List Nat} (hlut : stretchLutNew = some lut)
    (htab : squashLutNew lut = some table) : SquashOk table := by
  obtain ⟨l, t, h1, h2, -, h3⟩ := C36_squash
  rw [hlut] at h1
  obtain rfl := Option.some.inj h1
  rw [htab] at h2
  obtain rfl := Option.some.inj h2
  exact h3

theorem rates_get {rates : List Nat} (h : Est.ratesDefault = some rates) {i : Nat} (hi : i ≤ 1000) :
    rates[i]? = some (2 ^ 31 / (i + 2)) ∧ 2 ^ 31 / (i + 2) ≤ 2 ^ 30 := by
  obtain ⟨r, h1, -, h2⟩ := Est.ratesDefault_spec
  rw [h] at h1
  obtain rfl := Option.some.inj h1
  refine ⟨h2 i (by omega), ?_⟩
  rw [Nat.div_le_iff_le_mul_add_pred (by omega)]
  omega

/-- the mask records exactly the inputs in `S` -/
def MaskOf (m : Mixer) (S : List Nat) : Prop :=
  (∀ i, m.mask.testBit i = decide (i ∈ S)) ∧ ∀ i ∈ S, i < m.inputs.length

theorem mask_and {m : Mixer} {S : List Nat} (h : MaskOf m S) (i : Nat) : m.mask &&& 2 ^ i = 0 ↔ i ∉ S := by
  constructor
  · intro e hs
    have h1 : (m.mask &&& 2 ^ i).testBit i = true := by
      rw [Nat.testBit_and, h.1 i, Nat.testBit_two_pow_self, decide_eq_true hs]; rfl
    rw [e, Nat.zero_testBit] at h1
    exact Bool.false_ne_true h1
  · intro hs
    refine Nat.eq_of_testBit_eq fun j => ?_
    rw [Nat.testBit_and, Nat.testBit_two_pow, Nat.zero_testBit, h.1 j]
    by_cases hj : i = j
    · subst hj; simp [hs]
    · simp [hj]

theorem mask_full {m : Mixer} {S : List Nat} (h : MaskOf m S) :
    m.mask = 2 ^ m.inputs.length - 1 ↔ ∀ i, i < m.inputs.length → i ∈ S := by
  constructor
  · intro e i hi
    have := h.1 i
    rw [e, Nat.testBit_two_pow_sub_one] at this
    simpa [hi] using this
  · intro hs
    refine Nat.eq_of_testBit_eq fun i => ?_
    rw [h.1 i, Nat.testBit_two_pow_sub_one]
    by_cases hi : i < m.inputs.length
    · simp [hi, hs i hi]
    · have : i ∉ S := fun hm => hi (h.2 i hm)
      simp [hi, this]

/-- the state of a mixer in terms of the protocol -/
structure Inv (n : Nat) (m : Mixer) (S : List Nat) (idx : Nat) : Prop where
  ok : MixerOk m
  len : m.inputs.length = n
  mask : MaskOf m S
  index : m.index = idx
  sq : ∀ x ∈ m.inputs, x.sq < 2 ^ 31

/-- the mixer after setting an input -/
def setTo (m : Mixer) (i sq : Nat) (st : Int) (x : MInput) : Mixer :=
  { m with mask := m.mask ||| 2 ^ i, inputs := m.inputs.set i { x with sq := sq, st := st } }

theorem setInput_eq {m : Mixer} {S : List Nat} (h : MaskOf m S) {i : Nat} (sq : Nat) (st : Int) :
    (¬ (i < m.inputs.length ∧ i ∉ S) → setInput m i sq st = none) ∧
    ∀ hi : i < m.inputs.length, i ∉ S → setInput m i sq st = some (setTo m i sq st m.inputs[i]) := by
  unfold setInput
  constructor
  · intro hn
    by_cases hi : i < m.inputs.length
    · rw [check_pos hi, ob_some, check_neg]
      · rfl
      · rw [mask_and h]; exact fun hs => hn ⟨hi, hs⟩
    · rw [check_neg hi]; rfl
  · intro hi hs
    rw [check_pos hi, ob_some, check_pos ((mask_and h i).mpr hs), ob_some, List.getElem?_eq_getElem hi, ob_some]
    rfl

theorem setTo_inv {n : Nat} {m : Mixer} {S : List Nat} {idx : Nat} (h : Inv n m S idx) {i sq : Nat} {st : Int}
    (hi : i < m.inputs.length) (hsq : sq < 2 ^ 31) (hst : StOk st) :
    Inv n (setTo m i sq st m.inputs[i]) (i :: S) idx where
  ok := by
    have hmem : m.inputs[i] ∈ m.inputs := List.getElem_mem hi
    refine ⟨?_, ?_, ?_, h.ok.index⟩
    · rw [setTo, List.length_set]; exact h.ok.size
    · intro y hy
      rcases List.mem_or_eq_of_mem_set hy with hy | rfl
      · exact h.ok.weight y hy
      · exact h.ok.weight m.inputs[i] hmem
    · intro y hy
      rcases List.mem_or_eq_of_mem_set hy with hy | rfl
      · exact h.ok.st y hy
      · exact hst
  len := by rw [setTo, List.length_set]; exact h.len
  mask := by
    refine ⟨fun j => ?_, ?_⟩
    · rw [setTo, Nat.testBit_or, h.mask.1 j, Nat.testBit_two_pow]
      by_cases hj : i = j
      · subst hj; simp
      · simp [hj, Ne.symm hj]
    · intro j hj
      rw [setTo, List.length_set]
      rcases List.mem_cons.mp hj with rfl | hj
      · exact hi
      · exact h.mask.2 j hj
  index := h.index
  sq := by
    intro y hy
    rcases List.mem_or_eq_of_mem_set hy with hy | rfl
    · exact h.sq y hy
    · exact hsq

theorem updated_inv {n : Nat} {m : Mixer} {S : List Nat} {idx : Nat} (h : Inv n m S idx) (rate : Nat) (bit : Bool)
    (sq : Nat) {limit : Nat} (hl : limit ≤ 1000) :
    Inv n (updated m rate bit sq limit) [] (min limit (idx + 1)) where
  ok := updated_ok h.ok rate bit sq hl
  len := by rw [updated, List.length_map]; exact h.len
  mask := ⟨fun i => by simp [updated], fun i hi => by simp at hi⟩
  index := by rw [← h.index]; rfl
  sq := by
    intro x hx
    obtain ⟨y, hy, rfl⟩ := List.mem_map.mp hx
    exact h.sq y hy

theorem read_eq {n : Nat} {m : Mixer} {S : List Nat} {idx : Nat} (h : Inv n m S idx) (i : Nat) :
    (i ∉ S → predictionSq m i = none ∧ predictionSt m i = none) ∧
    (i ∈ S → ∃ hi : i < m.inputs.length, predictionSq m i = some m.inputs[i].sq ∧
      predictionSt m i = some m.inputs[i].st) := by
  unfold predictionSq predictionSt
  constructor
  · intro hs
    by_cases hi : i < m.inputs.length
    · rw [check_pos hi, check_neg (by rw [not_not]; exact (mask_and h.mask i).mpr hs)]
      exact ⟨rfl, rfl⟩
    · rw [check_neg hi]; exact ⟨rfl, rfl⟩
  · intro hs
    have hi := h.mask.2 i hs
    refine ⟨hi, ?_⟩
    have hne : m.mask &&& 2 ^ i ≠ 0 := fun e => (mask_and h.mask i).mp e hs
    rw [check_pos hi, check_pos hne, List.getElem?_eq_getElem hi]
    exact ⟨rfl, rfl⟩

/-- one call: it succeeds exactly when allowed, its answer is in range, and the invariant is kept -/
theorem calls_spec {table rates : List Nat} (ht : SquashOk table) (hr : Est.ratesDefault = some rates) (n : Nat) :
    ∀ (es : List Event) (m : Mixer) (S : List Nat) (idx : Nat), Inv n m S idx → (∀ e ∈ es, Typed e) →
      (¬ Allowed n S idx es → calls table rates m es = none) ∧
      (Allowed n S idx es → ∃ os m' S' idx', calls table rates m es = some (os, m') ∧ Inv n m' S' idx' ∧
        os.length = es.length ∧ ∀ o ∈ os, o.InRange) := by
  intro es
  induction es with
  | nil =>
    intro m S idx h _
    exact ⟨fun hn => absurd trivial hn, fun _ => ⟨[], m, S, idx, rfl, h, rfl, by simp⟩⟩
  | cons e es ih =>
    intro m S idx h hty
    have hes : ∀ e ∈ es, Typed e := fun e he => hty e (by simp [he])
    have he := hty e (by simp)
    have step : ∀ {o : Out} {m1 : Mixer} {S1 : List Nat} {idx1 : Nat}, call table rates m e = some (o, m1) →
        Inv n m1 S1 idx1 → o.InRange →
        (¬ Allowed n S1 idx1 es → calls table rates m (e :: es) = none) ∧
        (Allowed n S1 idx1 es → ∃ os m' S' idx', calls table rates m (e :: es) = some (os, m') ∧ Inv n m' S' idx' ∧
          os.length = (e :: es).length ∧ ∀ o ∈ os, o.InRange) := by
      intro o m1 S1 idx1 hc hi ho
      obtain ⟨i1, i2⟩ := ih m1 S1 idx1 hi hes
      constructor
      · intro hn
        rw [calls, hc, ob_some]
        dsimp only
        rw [i1 hn]; rfl
      · intro ha
        obtain ⟨os, m', S', idx', j1, j2, j3, j4⟩ := i2 ha
        refine ⟨o :: os, m', S', idx', ?_, j2, by simp [j3], by simpa using ⟨ho, j4⟩⟩
        rw [calls, hc, ob_some]
        dsimp only
        rw [j1]; rfl
    have fail : call table rates m e = none → ¬ Allowed n S idx (e :: es) →
        (¬ Allowed n S idx (e :: es) → calls table rates m (e :: es) = none) ∧
        (Allowed n S idx (e :: es) → ∃ os m' S' idx', calls table rates m (e :: es) = some (os, m') ∧
          Inv n m' S' idx' ∧ os.length = (e :: es).length ∧ ∀ o ∈ os, o.InRange) := by
      intro hc hn
      exact ⟨fun _ => by rw [calls, hc]; rfl, fun ha => absurd ha hn⟩
    cases e with
    | set i sq st =>
      obtain ⟨f1, f2⟩ := setInput_eq h.mask (i := i) sq st
      by_cases hc : i < m.inputs.length ∧ i ∉ S
      · have := step (o := .nothing) (S1 := i :: S) (idx1 := idx)
          (by rw [call, f2 hc.1 hc.2]; rfl) (setTo_inv h hc.1 he.1 (abs_le.mpr he.2)) trivial
        have hc' : i < n ∧ i ∉ S := by rw [← h.len]; exact hc
        simpa only [Allowed, hc', not_false_eq_true, true_and] using this
      · refine fail (by rw [call, f1 hc]; rfl) ?_
        rw [h.len] at hc
        exact fun ha => hc ⟨ha.1, ha.2.1⟩
    | readSq i =>
      obtain ⟨f1, f2⟩ := read_eq h i
      by_cases hc : i ∈ S
      · obtain ⟨hi, g1, -⟩ := f2 hc
        have := step (o := .sq m.inputs[i].sq) (by rw [call, g1]; rfl) h (h.sq _ (List.getElem_mem hi))
        simpa only [Allowed, hc, true_and] using this
      · exact fail (by rw [call, (f1 hc).1]; rfl) (fun ha => hc ha.1)
    | readSt i =>
      obtain ⟨f1, f2⟩ := read_eq h i
      by_cases hc : i ∈ S
      · obtain ⟨hi, -, g1⟩ := f2 hc
        have := step (o := .st m.inputs[i].st) (by rw [call, g1]; rfl) h
          (abs_le.mp (h.ok.st _ (List.getElem_mem hi)))
        simpa only [Allowed, hc, true_and] using this
      · exact fail (by rw [call, (f1 hc).2]; rfl) (fun ha => hc ha.1)
    | mix =>
      have hf := mask_full h.mask
      by_cases hc : m.mask = 2 ^ m.inputs.length - 1
      · obtain ⟨r, hq, -, r1, r2⟩ := ht _ (mixOut_ok m.inputs)
        have := step (o := .both r (mixOut m.inputs))
          (by rw [call, mixAll_eq table h.ok, if_pos hc, hq]; rfl) h
          ⟨by omega, by omega, abs_le.mp (mixOut_ok m.inputs)⟩
        have hc' := hf.mp hc
        rw [h.len] at hc'
        simpa only [Allowed, show (∀ i, i < n → i ∈ S) = True from eq_true hc', true_and] using this
      · refine fail (by rw [call, mixAll_eq table h.ok, if_neg hc]; rfl) ?_
        rw [h.len] at hf hc
        exact fun ha => hc (hf.mpr ha.1)
    | update bit sq limit =>
      have hf := mask_full h.mask
      obtain ⟨g1, g2⟩ := rates_get hr h.ok.index
      have hu := update_eq bit (maxIndex := limit) h.ok g1 g2 he.1 he.2
      by_cases hc : m.mask = 2 ^ m.inputs.length - 1 ∧ m.index ≤ limit ∧ limit ≤ 1000
      · have := step (o := .nothing) (by rw [call, hu, if_pos hc]; rfl)
          (updated_inv h (2 ^ 31 / (m.index + 2)) bit sq hc.2.2) trivial
        have hc' := hf.mp hc.1
        rw [h.len] at hc'
        have hc2 := hc.2
        rw [h.index] at hc2
        simpa only [Allowed, show (∀ i, i < n → i ∈ S) = True from eq_true hc', true_and, hc2.1, hc2.2] using this
      · refine fail (by rw [call, hu, if_neg hc]; rfl) ?_
        rw [h.len, h.index] at hc
        rw [h.len] at hf
        exact fun ha => hc ⟨hf.mpr ha.1, ha.2.1, ha.2.2.1⟩

/-! ## Constructors -/

theorem initialize_spec {size idx : Nat} {mode : Init} {flat : Option Int} {m : Mixer}
    (h : initializeWeights ⟨List.replicate size neutralInput, 0, idx⟩ mode flat = some m)
    (hs : size ≤ 30) (hi : idx ≤ 1000) (hf : ∀ w, flat = some w → WeightOk w) : Inv size m [] idx := by
  have base : ∀ l : List MInput, l.length = size → (∀ x ∈ l, WeightOk x.weight ∧ x.st = 0 ∧ x.sq = 2 ^ 30) →
      Inv size ⟨l, 0, idx⟩ [] idx := by
    intro l hl hx
    refine ⟨⟨by simpa [hl] using hs, fun x h => (hx x h).1, fun x h => ?_, hi⟩, hl, ⟨fun i => by simp, by simp⟩, rfl,
      fun x h => ?_⟩
    · unfold StOk
      rw [(hx x h).2.1]; norm_num
    · rw [(hx x h).2.2]; norm_num
  have n0 : ∀ x ∈ List.replicate size neutralInput, WeightOk x.weight ∧ x.st = 0 ∧ x.sq = 2 ^ 30 := by
    intro x hx
    obtain ⟨-, rfl⟩ := List.mem_replicate.mp hx
    exact ⟨by unfold WeightOk neutralInput; norm_num, rfl, rfl⟩
  cases mode with
  | allZero =>
    obtain rfl := Option.some.inj h
    exact base _ (by simp) n0
  | dominantFirst =>
    cases size with
    | zero => cases h
    | succ k =>
      obtain rfl := Option.some.inj h
      refine base _ (by simp) ?_
      intro x hx
      rcases List.mem_cons.mp hx with rfl | hx
      · exact ⟨by unfold WeightOk; norm_num, rfl, rfl⟩
      · exact n0 x (by simp [List.replicate_succ] at hx ⊢; right; exact hx)
  | equalSummingToOne =>
    unfold initializeWeights at h
    dsimp only at h
    cases flat with
    | none => cases h
    | some w =>
      obtain rfl := Option.some.inj h
      refine base _ (by simp) ?_
      intro x hx
      obtain ⟨y, hy, rfl⟩ := List.mem_map.mp hx
      exact ⟨hf w rfl, (n0 y hy).2⟩

theorem flatWeight_spec {n : Nat} (h0 : 1 ≤ n) (h1 : n ≤ 30) :
    ∃ w, flatWeight n = some w ∧ NearestDiv (2 ^ 21) n w ∧ 0 ≤ w ∧ w ≤ 2 ^ 21 := by
  have hd : ∃ w, divI 32 (2 ^ 21) n = some w ∧ NearestDiv (2 ^ 21) n w := by
    refine C07_div_signed 32 (2 ^ 21) n (by omega) ?_
    have : (n : Int) / 2 ≤ 15 := by omega
    norm_num
    omega
  obtain ⟨w, hw, hn⟩ := hd
  refine ⟨w, ?_, hn, ?_⟩
  · unfold flatWeight
    rw [check_pos (by omega), ob_some, hw, ob_some]
    rfl
  · have hn1 := abs_le.mp (show |w * (n : Int) - 2 ^ 21| ≤ (n : Int) by have := hn.1; have := abs_nonneg (w * (n : Int) - 2 ^ 21); omega)
    have hn0 := hn.1
    constructor
    · by_contra hc
      have : w * (n : Int) ≤ -1 * n := mul_le_mul_of_nonneg_right (by omega) (by omega)
      norm_num at *
      omega
    · by_contra hc
      have h2 : ((2 : Int) ^ 21 + 1) * n ≤ w * n := mul_le_mul_of_nonneg_right (by omega) (by omega)
      have h3 := le_abs_self (w * (n : Int) - 2 ^ 21)
      have h4 : (2 : Int) ^ 21 * (n - 1) ≥ 0 := mul_nonneg (by norm_num) (by omega)
      by_cases h5 : n = 1
      · subst h5; norm_num at *; omega
      · norm_num at *
        omega

theorem new_inv {n idx : Nat} {mode : Init} {m : Mixer} (h : New n idx mode m) : Inv n m [] idx ∧ n ≤ 30 ∧ idx ≤ 1000 := by
  rcases h with ⟨h1, h2, h⟩ | h
  · unfold fixedNew at h
    by_cases hi : idx ≤ indexLimit
    swap
    · rw [check_neg hi] at h; cases h
    rw [check_pos hi, ob_some] at h
    refine ⟨initialize_spec h (by omega) hi ?_, by omega, hi⟩
    rintro w hw
    obtain rfl := Option.some.inj hw
    unfold WeightOk
    interval_cases n <;> norm_num
  · unfold mixerNNew at h
    by_cases hn : n ≤ 30
    swap
    · rw [check_neg hn] at h; cases h
    by_cases hi : idx ≤ indexLimit
    swap
    · rw [check_pos hn, ob_some, check_neg hi] at h; cases h
    rw [check_pos hn, ob_some, check_pos hi, ob_some] at h
    refine ⟨initialize_spec h hn hi ?_, hn, hi⟩
    intro w hw
    by_cases h0 : 1 ≤ n
    · obtain ⟨v, hv, -, v1, v2⟩ := flatWeight_spec h0 hn
      rw [hw] at hv
      obtain rfl := Option.some.inj hv
      unfold WeightOk
      rw [abs_of_nonneg v1]
      norm_num at *
      omega
    · unfold flatWeight at hw
      rw [check_neg (by omega)] at hw
      cases hw

/-- **C38 (start).** Construction succeeds for every size from 1 to 30 and every rate index up to 1000; the initial
weights are all zero, or one for the first input and zero elsewhere, or all equal to one divided by the size, rounded
(`MixerN`) or truncated (`Mixer1` … `Mixer5`). A `MixerN` of size 0 can only be made with the zero weights. -/
theorem C38_new (n idx : Nat) (hn : 1 ≤ n) (hn2 : n ≤ 30) (hi : idx ≤ 1000) :
    (∃ m, mixerNNew n idx .allZero = some m ∧ m.inputs.map (·.weight) = List.replicate n 0) ∧
    (∃ m, mixerNNew n idx .dominantFirst = some m ∧ m.inputs.map (·.weight) = 2 ^ 21 :: List.replicate (n - 1) 0) ∧
    (∃ m w, mixerNNew n idx .equalSummingToOne = some m ∧ m.inputs.map (·.weight) = List.replicate n w ∧
      NearestDiv (2 ^ 21) n w) ∧
    (n ≤ 5 → (∃ m, fixedNew n idx .allZero = some m ∧ m.inputs.map (·.weight) = List.replicate n 0) ∧
      (∃ m, fixedNew n idx .dominantFirst = some m ∧ m.inputs.map (·.weight) = 2 ^ 21 :: List.replicate (n - 1) 0) ∧
      (∃ m w, fixedNew n idx .equalSummingToOne = some m ∧ m.inputs.map (·.weight) = List.replicate n w ∧
        w * n ≤ 2 ^ 21 ∧ 2 ^ 21 < (w + 1) * n)) ∧
    (mixerNNew 0 idx .dominantFirst = none ∧ mixerNNew 0 idx .equalSummingToOne = none) ∧
    (∀ k mode, 30 < k → mixerNNew k idx mode = none) ∧
    (∀ j mode, 1000 < j → mixerNNew n j mode = none ∧ fixedNew n j mode = none) := by
  have c1 : check (n ≤ 30) = some () := check_pos hn2
  have c2 : check (idx ≤ indexLimit) = some () := check_pos hi
  obtain ⟨w, hw, hnd, -, -⟩ := flatWeight_spec hn hn2
  obtain ⟨k, rfl⟩ : ∃ k, n = k + 1 := ⟨n - 1, by omega⟩
  refine ⟨⟨_, by rw [mixerNNew, c1, ob_some, c2, ob_some]; rfl, by simp [neutralInput]⟩,
    ⟨_, by rw [mixerNNew, c1, ob_some, c2, ob_some]; rfl, by simp [neutralInput]⟩,
    ⟨_, w, by rw [mixerNNew, c1, ob_some, c2, ob_some, hw]; rfl, by simp, hnd⟩,
    fun h5 => ⟨⟨_, by rw [fixedNew, c2, ob_some]; rfl, by simp [neutralInput]⟩,
      ⟨_, by rw [fixedNew, c2, ob_some]; rfl, by simp [neutralInput]⟩,
      ⟨_, 2 ^ 21 / ((k + 1 : Nat) : Int), by rw [fixedNew, c2, ob_some]; rfl, by simp, ?_, ?_⟩⟩, ⟨?_, ?_⟩, ?_, ?_⟩
  · exact Int.ediv_mul_le _ (by omega)
  · exact Int.lt_ediv_add_one_mul_self _ (by omega)
  · rw [mixerNNew, check_pos (by omega), ob_some, c2, ob_some]; rfl
  · rw [mixerNNew, check_pos (by omega), ob_some, c2, ob_some]; rfl
  · intro j mode hj
    rw [mixerNNew, check_neg (by omega)]; rfl
  · intro j mode hj
    have : check (j ≤ indexLimit) = none := check_neg (by unfold indexLimit Est.maxCount; omega)
    rw [mixerNNew, fixedNew, c1, ob_some, this]
    exact ⟨rfl, rfl⟩

/-! ## C38 and C40 -/

theorem reachable_inv {table rates : List Nat} (ht : SquashOk table) (hr : Est.ratesDefault = some rates) {n : Nat}
    {m : Mixer} (h : Reachable table rates n m) : ∃ S idx, Inv n m S idx := by
  obtain ⟨idx, mode, m0, es, os, h1, h2, h3⟩ := h
  obtain ⟨f1, f2⟩ := calls_spec ht hr n es m0 [] idx (new_inv h1).1 h2
  by_cases ha : Allowed n [] idx es
  · obtain ⟨os', m', S', idx', g1, g2, -⟩ := f2 ha
    rw [h3] at g1
    cases Option.some.inj g1
    exact ⟨_, _, g2⟩
  · rw [f1 ha] at h3; cases h3

/-- **C40.** A history of well typed calls on a new mixer panics exactly when it breaks the protocol: an input is set
out of range or twice before an update, an input is read before it is set, mixing or updating happens before all
inputs are set, or the rate limit is below the current rate index or above 1000. -/
theorem C40_protocol (lut : List (List Int)) (table rates : List Nat) (hlut : stretchLutNew = some lut)
    (htab : squashLutNew lut = some table) (hr : Est.ratesDefault = some rates) (n idx : Nat) (mode : Init)
    (m : Mixer) (hm : New n idx mode m) (es : List Event) (hes : ∀ e ∈ es, Typed e) :
    (calls table rates m es).isSome ↔ Allowed n [] idx es := by
  obtain ⟨f1, f2⟩ := calls_spec (squashOk hlut htab) hr n es m [] idx (new_inv hm).1 hes
  by_cases ha : Allowed n [] idx es
  · obtain ⟨os, m', S', idx', g1, -⟩ := f2 ha
    simp [g1, ha]
  · simp [f1 ha, ha]

example : Allowed 2 [] 10 [.set 1 5 3, .set 0 7 (-2), .mix, .readSt 1, .update true 9 300, .set 0 1 0] ∧
    ¬ Allowed 2 [] 10 [.set 1 5 3, .mix] := by
  refine ⟨⟨by omega, by simp, by omega, by simp, ?_, by simp, ?_, by omega, by omega, by omega, by simp, trivial⟩, ?_⟩
  · intro i hi; simp; omega
  · intro i hi; simp; omega
  · rintro ⟨-, -, h, -⟩
    simpa using h 0 (by omega)

/-- **C38.** After every history that does not panic all weights are within ±8 and every answer is in range: mixed
probabilities are strictly inside (0, 1) and stretched ones within ±12. -/
theorem C38_in_range (lut : List (List Int)) (table rates : List Nat) (hlut : stretchLutNew = some lut)
    (htab : squashLutNew lut = some table) (hr : Est.ratesDefault = some rates) (n idx : Nat) (mode : Init)
    (m m' : Mixer) (hm : New n idx mode m) (es : List Event) (os : List Out) (hes : ∀ e ∈ es, Typed e)
    (h : calls table rates m es = some (os, m')) :
    (∀ x ∈ m'.inputs, |x.weight| ≤ 8 * 2 ^ 21) ∧ (∀ o ∈ os, o.InRange) ∧ os.length = es.length ∧
      m'.inputs.length = n := by
  obtain ⟨f1, f2⟩ := calls_spec (squashOk hlut htab) hr n es m [] idx (new_inv hm).1 hes
  by_cases ha : Allowed n [] idx es
  · obtain ⟨os', m1, S', idx', g1, g2, g3, g4⟩ := f2 ha
    rw [h] at g1
    cases Option.some.inj g1
    exact ⟨g2.ok.weight, g4, g3, g2.len⟩
  · rw [f1 ha] at h; cases h

theorem sumQ_err : ∀ l : List MInput,
    |sumQ l * 2 ^ 2 - (l.map fun x => x.weight * x.st).sum| ≤ 2 * (l.length : Int) := by
  intro l
  induction l with
  | nil => simp [sumQ]
  | cons x l ih =>
    have h1 := rnd_err (x.weight * x.st) (s := 2) (by omega)
    rw [sumQ_cons, List.map_cons, List.sum_cons, List.length_cons]
    rw [show (rnd (x.weight * x.st) 2 + sumQ l) * 2 ^ 2 - (x.weight * x.st + (l.map fun x => x.weight * x.st).sum) =
      (rnd (x.weight * x.st) 2 * 2 ^ 2 - x.weight * x.st) +
      (sumQ l * 2 ^ 2 - (l.map fun x => x.weight * x.st).sum) by ring]
    refine (abs_add_le _ _).trans ?_
    rw [Nat.cast_succ]
    linarith

/-- **C38 (value).** The mixed stretched probability is the weighted sum of the stretched inputs, limited to ±12; the
error is at most half a unit in the last place plus `2n` units of `2 ^ -42`. The other result is its squash. -/
theorem C38_mix_value (lut : List (List Int)) (table rates : List Nat) (hlut : stretchLutNew = some lut)
    (htab : squashLutNew lut = some table) (hr : Est.ratesDefault = some rates) (n : Nat)
    (m : Mixer) (hm : Reachable table rates n m) (sq : Nat) (st : Int) (h : mixAll table m = some (sq, st)) :
    |st * 2 ^ 21 - limited (12 * 2 ^ 42) (m.inputs.map fun x => x.weight * x.st).sum| ≤ 2 ^ 20 + 2 * (n : Int) ∧
      squash table st = some sq := by
  obtain ⟨S, idx, hI⟩ := reachable_inv (squashOk hlut htab) hr hm
  rw [mixAll_eq table hI.ok] at h
  by_cases hc : m.mask = 2 ^ m.inputs.length - 1
  swap
  · rw [if_neg hc] at h; cases h
  rw [if_pos hc] at h
  obtain ⟨q, h1, h2⟩ := Option.map_eq_some_iff.mp h
  cases h2
  refine ⟨?_, h1⟩
  have e1 := sumQ_err m.inputs
  rw [hI.len] at e1
  have e2 := rnd_err (clampStretchedQ (sumQ m.inputs)) (s := 19) (by omega)
  unfold mixOut
  generalize (m.inputs.map fun x => x.weight * x.st).sum = z at *
  generalize rnd (clampStretchedQ (sumQ m.inputs)) 19 = r at *
  generalize sumQ m.inputs = q at *
  unfold clampStretchedQ at e2
  unfold limited
  rw [abs_le] at *
  have e2' := abs_le.mp (show |r * 2 ^ 19 - min (max q (-(12 * 2 ^ 40))) (12 * 2 ^ 40)| ≤ 2 ^ 18 by
    norm_num at *; omega)
  norm_num at *
  split_ifs <;> omega

/-- **C38 (learning).** An update adds to every weight (subtracts, for a one bit) its stretched input times the
prediction error times half the rate of the current index, each product rounded to nearest, limited to ±8. Inputs
themselves stay as they are. -/
theorem C38_update_value (lut : List (List Int)) (table rates : List Nat) (hlut : stretchLutNew = some lut)
    (htab : squashLutNew lut = some table) (hr : Est.ratesDefault = some rates) (n : Nat) (m m' : Mixer)
    (hm : Reachable table rates n m) (bit : Bool) (sq limit : Nat) (h0 : 0 < sq) (h1 : sq < 2 ^ 31)
    (h : updateAndReset rates m bit sq limit = some m') :
    m'.index = min limit (m.index + 1) ∧ m'.mask = 0 ∧ m'.inputs.length = n ∧
    ∃ half step : Int, Nearest ((2 ^ 31 / (m.index + 2) : Nat) : Int) 1 half ∧
      Nearest ((if bit then (sq : Int) else 2 ^ 31 - sq) * half) 31 step ∧
      ∀ i (hi : i < m.inputs.length) (hi' : i < m'.inputs.length), ∃ d : Int,
        Nearest (m.inputs[i].st * step) 31 d ∧ m'.inputs[i].st = m.inputs[i].st ∧ m'.inputs[i].sq = m.inputs[i].sq ∧
        m'.inputs[i].weight =
          limited (8 * 2 ^ 21) (if bit then m.inputs[i].weight - d else m.inputs[i].weight + d) := by
  obtain ⟨S, idx, hI⟩ := reachable_inv (squashOk hlut htab) hr hm
  obtain ⟨g1, g2⟩ := rates_get hr hI.ok.index
  rw [update_eq bit hI.ok g1 g2 h0 h1] at h
  by_cases hc : m.mask = 2 ^ m.inputs.length - 1 ∧ m.index ≤ limit ∧ limit ≤ 1000
  swap
  · rw [if_neg hc] at h; cases h
  rw [if_pos hc] at h
  obtain rfl := Option.some.inj h
  refine ⟨rfl, rfl, by rw [updated, List.length_map]; exact hI.len, _, _, rnd_nearest _ (by omega),
    rnd_nearest _ (by omega), ?_⟩
  intro i hi hi'
  refine ⟨_, rnd_nearest _ (by omega), ?_, ?_, ?_⟩
  · simp [updated]
  · simp [updated]
  · have : (updated m (2 ^ 31 / (m.index + 2)) bit sq limit).inputs[i].weight =
        weightOf bit (stepOf (2 ^ 31 / (m.index + 2)) bit sq) m.inputs[i] := by simp [updated]
    rw [this]
    unfold weightOf clampWeight limited deltaOf stepOf errOf
    generalize (if bit = true then _ else _ : Int) = z
    split_ifs <;> omega

/-! ## C39 -/

/-- inputs of a mixer and of its complement -/
def FlipInput (x y : MInput) : Prop := y.weight = x.weight ∧ y.st = -x.st ∧ y.sq = 2 ^ 31 - x.sq

/-- a mixer and its complement -/
structure FlipMixer (m k : Mixer) : Prop where
  mask : k.mask = m.mask
  index : k.index = m.index
  inputs : List.Forall₂ FlipInput m.inputs k.inputs

theorem flip_sumQ : ∀ {l k : List MInput}, List.Forall₂ FlipInput l k → sumQ k = -sumQ l := by
  intro l k h
  induction h with
  | nil => rfl
  | @cons x y l k hxy _ ih =>
    rw [sumQ_cons, sumQ_cons, ih, hxy.1, hxy.2.1, mul_neg, rnd_neg]
    ring

theorem flip_mixOut {l k : List MInput} (h : List.Forall₂ FlipInput l k) : mixOut k = -mixOut l := by
  unfold mixOut
  rw [flip_sumQ h, ← rnd_neg]
  congr 1
  unfold clampStretchedQ
  omega

theorem flip_ok {n : Nat} {m k : Mixer} {S : List Nat} {idx : Nat} (h : Inv n m S idx) (hf : FlipMixer m k) :
    MixerOk k ∧ k.inputs.length = m.inputs.length ∧ MaskOf k S := by
  have hl := hf.inputs.length_eq
  have hall : ∀ y ∈ k.inputs, ∃ x ∈ m.inputs, FlipInput x y := by
    intro y hy
    obtain ⟨i, hi, rfl⟩ := List.mem_iff_getElem.mp hy
    exact ⟨m.inputs[i], List.getElem_mem _, hf.inputs.get (by omega) hi⟩
  refine ⟨⟨by have := h.ok.size; omega, ?_, ?_, by rw [hf.index]; exact h.ok.index⟩, hl.symm, ?_⟩
  · intro y hy
    obtain ⟨x, hx, h1, -⟩ := hall y hy
    rw [h1]; exact h.ok.weight x hx
  · intro y hy
    obtain ⟨x, hx, -, h1, -⟩ := hall y hy
    rw [h1]; unfold StOk; rw [abs_neg]; exact h.ok.st x hx
  · unfold MaskOf
    rw [hf.mask, ← hl]; exact h.mask

theorem flip_set {m k : Mixer} (hf : FlipMixer m k) {i sq : Nat} {st : Int}
    (hi : i < m.inputs.length) (hi' : i < k.inputs.length) :
    FlipMixer (setTo m i sq st m.inputs[i]) (setTo k i (2 ^ 31 - sq) (-st) k.inputs[i]) where
  mask := by simp [setTo, hf.mask]
  index := hf.index
  inputs := by
    have h0 := hf.inputs.get hi hi'
    rw [List.forall₂_iff_get]
    refine ⟨by simp [setTo, hf.inputs.length_eq], ?_⟩
    intro j h1 h2
    by_cases hj : i = j
    · subst hj
      simp only [setTo, List.get_eq_getElem, List.getElem_set_self]
      exact ⟨h0.1, rfl, rfl⟩
    · simp only [setTo, List.get_eq_getElem, List.getElem_set_ne hj]
      simp only [setTo, List.length_set] at h1 h2
      exact hf.inputs.get h1 h2

theorem flip_errOf (bit : Bool) {sq : Nat} (h : sq < 2 ^ 31) : errOf (!bit) (2 ^ 31 - sq) = errOf bit sq := by
  unfold errOf
  cases bit <;> simp <;> omega

theorem flip_updated {m k : Mixer} (hf : FlipMixer m k) (rate : Nat) (bit : Bool) {sq : Nat} (hs : sq < 2 ^ 31)
    (limit : Nat) : FlipMixer (updated m rate bit sq limit) (updated k rate (!bit) (2 ^ 31 - sq) limit) where
  mask := rfl
  index := by simp only [updated, hf.index]
  inputs := by
    have e : stepOf rate (!bit) (2 ^ 31 - sq) = stepOf rate bit sq := by
      unfold stepOf; rw [flip_errOf bit hs]
    unfold updated
    rw [e, List.forall₂_map_left_iff, List.forall₂_map_right_iff]
    refine hf.inputs.imp ?_
    rintro x y ⟨h1, h2, h3⟩
    refine ⟨?_, h2, h3⟩
    change weightOf _ _ _ = weightOf _ _ _
    unfold weightOf deltaOf
    rw [h1, h2, neg_mul, rnd_neg]
    cases bit
    · simp
    · simp [sub_eq_add_neg]

theorem calls_flip {table rates : List Nat} (ht : SquashOk table) (hr : Est.ratesDefault = some rates) (n : Nat) :
    ∀ (es : List Event) (m k : Mixer) (S : List Nat) (idx : Nat), Inv n m S idx → FlipMixer m k →
      (∀ e ∈ es, Typed e) → ∀ os m', calls table rates m es = some (os, m') →
        ∃ k', calls table rates k (es.map Event.flip) = some (os.map Out.flip, k') ∧ FlipMixer m' k' := by
  intro es
  induction es with
  | nil =>
    intro m k S idx _ hf _ os m' h
    cases Option.some.inj h
    exact ⟨k, rfl, hf⟩
  | cons e es ih =>
    intro m k S idx h hf hty os m' hcalls
    have hes : ∀ e ∈ es, Typed e := fun e he => hty e (by simp [he])
    have he := hty e (by simp)
    obtain ⟨hk, hlen, hmk⟩ := flip_ok h hf
    have step : ∀ {o : Out} {m1 k1 : Mixer} {S1 : List Nat} {idx1 : Nat}, call table rates m e = some (o, m1) →
        call table rates k e.flip = some (o.flip, k1) → Inv n m1 S1 idx1 → FlipMixer m1 k1 →
        ∃ k', calls table rates k ((e :: es).map Event.flip) = some (os.map Out.flip, k') ∧ FlipMixer m' k' := by
      intro o m1 k1 S1 idx1 c1 c2 i1 f1
      rw [calls, c1, ob_some] at hcalls
      dsimp only at hcalls
      cases hr : calls table rates m1 es with
      | none => rw [hr] at hcalls; cases hcalls
      | some p =>
        obtain ⟨os1, m2⟩ := p
        rw [hr] at hcalls
        cases Option.some.inj hcalls
        obtain ⟨k', j1, j2⟩ := ih m1 k1 S1 idx1 i1 f1 hes os1 _ hr
        refine ⟨k', ?_, j2⟩
        rw [List.map_cons, calls, c2, ob_some]
        dsimp only
        rw [j1]; rfl
    have fail : call table rates m e = none →
        ∃ k', calls table rates k ((e :: es).map Event.flip) = some (os.map Out.flip, k') ∧ FlipMixer m' k' := by
      intro c
      rw [calls, c] at hcalls
      cases hcalls
    cases e with
    | set i sq st =>
      obtain ⟨f1, f2⟩ := setInput_eq h.mask (i := i) sq st
      obtain ⟨-, g2⟩ := setInput_eq hmk (i := i) (2 ^ 31 - sq) (-st)
      by_cases hc : i < m.inputs.length ∧ i ∉ S
      · exact step (o := .nothing) (by rw [call, f2 hc.1 hc.2]; rfl)
          (by rw [Event.flip, call, g2 (hlen ▸ hc.1) hc.2]; rfl) (setTo_inv h hc.1 he.1 (abs_le.mpr he.2))
          (flip_set hf hc.1 _)
      · exact fail (by rw [call, f1 hc]; rfl)
    | readSq i =>
      obtain ⟨f1, f2⟩ := read_eq h i
      by_cases hc : i ∈ S
      · obtain ⟨hi, g1, -⟩ := f2 hc
        have hi' : i < k.inputs.length := by omega
        have hx := hf.inputs.get hi hi'
        refine step (o := .sq m.inputs[i].sq) (k1 := k) (by rw [call, g1]; rfl) ?_ h hf
        rw [Event.flip, call, predictionSq, check_pos hi', ob_some,
          check_pos (show k.mask &&& 2 ^ i ≠ 0 from fun e => (mask_and hmk i).mp e hc), ob_some,
          List.getElem?_eq_getElem hi', ob_some]
        rw [show k.inputs[i].sq = 2 ^ 31 - m.inputs[i].sq from hx.2.2]
        rfl
      · exact fail (by rw [call, (f1 hc).1]; rfl)
    | readSt i =>
      obtain ⟨f1, f2⟩ := read_eq h i
      by_cases hc : i ∈ S
      · obtain ⟨hi, -, g1⟩ := f2 hc
        have hi' : i < k.inputs.length := by omega
        have hx := hf.inputs.get hi hi'
        refine step (o := .st m.inputs[i].st) (k1 := k) (by rw [call, g1]; rfl) ?_ h hf
        rw [Event.flip, call, predictionSt, check_pos hi', ob_some,
          check_pos (show k.mask &&& 2 ^ i ≠ 0 from fun e => (mask_and hmk i).mp e hc), ob_some,
          List.getElem?_eq_getElem hi', ob_some]
        rw [show k.inputs[i].st = -m.inputs[i].st from hx.2.1]
        rfl
      · exact fail (by rw [call, (f1 hc).2]; rfl)
    | mix =>
      by_cases hc : m.mask = 2 ^ m.inputs.length - 1
      · obtain ⟨r, hq, hq', r1, r2⟩ := ht _ (mixOut_ok m.inputs)
        refine step (o := .both r (mixOut m.inputs)) (k1 := k)
          (by rw [call, mixAll_eq table h.ok, if_pos hc, hq]; rfl) ?_ h hf
        rw [Event.flip, call, mixAll_eq table hk, hf.mask, hlen, if_pos hc, flip_mixOut hf.inputs, hq']
        rfl
      · exact fail (by rw [call, mixAll_eq table h.ok, if_neg hc]; rfl)
    | update bit sq limit =>
      obtain ⟨g1, g2⟩ := rates_get hr h.ok.index
      have hu := update_eq bit (maxIndex := limit) h.ok g1 g2 he.1 he.2
      obtain ⟨g3, g4⟩ := rates_get hr hk.index
      have hv := update_eq (!bit) (sq := 2 ^ 31 - sq) (maxIndex := limit) hk g3 g4 (by have := he.2; omega)
        (by have := he.1; omega)
      by_cases hc : m.mask = 2 ^ m.inputs.length - 1 ∧ m.index ≤ limit ∧ limit ≤ 1000
      · refine step (o := .nothing) (by rw [call, hu, if_pos hc]; rfl) ?_
          (updated_inv h (2 ^ 31 / (m.index + 2)) bit sq hc.2.2) (flip_updated hf _ bit he.2 limit)
        rw [Event.flip, call, hv, if_pos (by rw [hf.mask, hlen, hf.index]; exact hc), hf.index]
        rfl
      · exact fail (by rw [call, hu, if_neg hc]; rfl)

/-- **C39.** If a history of calls on a new mixer does not panic then the history with all probabilities and bits
complemented does not panic either, all answers are complemented exactly, and the weights and rate index afterwards
are the same. -/
theorem C39_symmetry (lut : List (List Int)) (table rates : List Nat) (hlut : stretchLutNew = some lut)
    (htab : squashLutNew lut = some table) (hr : Est.ratesDefault = some rates) (n idx : Nat) (mode : Init)
    (m m' : Mixer) (hm : New n idx mode m) (es : List Event) (os : List Out) (hes : ∀ e ∈ es, Typed e)
    (h : calls table rates m es = some (os, m')) :
    ∃ k', calls table rates m (es.map Event.flip) = some (os.map Out.flip, k') ∧
      k'.inputs.map (·.weight) = m'.inputs.map (·.weight) ∧ k'.index = m'.index := by
  have hself : FlipMixer m m := by
    refine ⟨rfl, rfl, ?_⟩
    rw [List.forall₂_same]
    have key : ∀ mode flat mm size idx,
        initializeWeights ⟨List.replicate size neutralInput, 0, idx⟩ mode flat = some mm →
        ∀ x ∈ mm.inputs, FlipInput x x := by
      intro mode flat mm size idx hi
      have n0 : ∀ x ∈ List.replicate size neutralInput, FlipInput x x := by
        intro x hx
        obtain ⟨-, rfl⟩ := List.mem_replicate.mp hx
        exact ⟨rfl, rfl, rfl⟩
      cases mode with
      | allZero => cases Option.some.inj hi; exact n0
      | dominantFirst =>
        cases size with
        | zero => cases hi
        | succ k =>
          cases Option.some.inj hi
          intro x hx
          rcases List.mem_cons.mp hx with rfl | hx
          · exact ⟨rfl, rfl, rfl⟩
          · exact n0 x (List.mem_cons_of_mem _ hx)
      | equalSummingToOne =>
        cases flat with
        | none => cases hi
        | some w =>
          cases Option.some.inj hi
          intro x hx
          obtain ⟨y, hy, rfl⟩ := List.mem_map.mp hx
          obtain ⟨-, h2, h3⟩ := n0 y hy
          exact ⟨rfl, h2, h3⟩
    rcases hm with ⟨-, -, hm⟩ | hm
    · unfold fixedNew at hm
      by_cases hi : idx ≤ indexLimit
      · rw [check_pos hi, ob_some] at hm; exact key _ _ _ _ _ hm
      · rw [check_neg hi] at hm; cases hm
    · unfold mixerNNew at hm
      by_cases hn : n ≤ 30
      swap
      · rw [check_neg hn] at hm; cases hm
      by_cases hi : idx ≤ indexLimit
      · rw [check_pos hn, ob_some, check_pos hi, ob_some] at hm; exact key _ _ _ _ _ hm
      · rw [check_pos hn, ob_some, check_neg hi] at hm; cases hm
  obtain ⟨k', h1, h2⟩ := calls_flip (squashOk hlut htab) hr n es m m [] idx (new_inv hm).1 hself hes os m' h
  refine ⟨k', h1, ?_, h2.index⟩
  have := h2.inputs
  generalize m'.inputs = a at *
  generalize k'.inputs = b at *
  clear h h1 h2
  induction this with
  | nil => rfl
  | cons hxy _ ih => rw [List.map_cons, List.map_cons, ih, hxy.1]

/-! ## C48 -/

theorem setInputs_same : ∀ {sets : List (Nat × Nat × Int)} {m m' : Mixer}, setInputs m sets = some m' →
    (∀ s ∈ sets, ∃ hi : s.1 < m.inputs.length, m.inputs[s.1].sq = s.2.1 ∧ m.inputs[s.1].st = s.2.2) →
    m'.inputs = m.inputs := by
  intro sets
  induction sets with
  | nil => intro m m' h _; cases Option.some.inj h; rfl
  | cons s sets ih =>
    intro m m' h hs
    obtain ⟨i, sq, st⟩ := s
    obtain ⟨hi, h1, h2⟩ := hs (i, sq, st) (by simp)
    dsimp only at hi h1 h2
    rw [setInputs] at h
    cases hc : setInput m i sq st with
    | none => rw [hc] at h; cases h
    | some m1 =>
      rw [hc, ob_some] at h
      have e : m1.inputs = m.inputs := by
        unfold setInput at hc
        by_cases hb : m.mask &&& 2 ^ i = 0
        · rw [check_pos hi, ob_some, check_pos hb, ob_some, List.getElem?_eq_getElem hi, ob_some] at hc
          cases Option.some.inj hc
          rw [← h1, ← h2]
          exact List.set_getElem_self hi
        · rw [check_pos hi, ob_some, check_neg hb] at hc; cases hc
      rw [← e]
      exact ih h (by rw [e]; exact fun s h => hs s (by simp [h]))

theorem clampQ_mono {a b : Int} (h : a ≤ b) : clampStretchedQ a ≤ clampStretchedQ b := by
  unfold clampStretchedQ
  omega

/-- a weight moves in the direction of the input for a zero bit, and against it for a one bit -/
theorem weight_move {step : Int} (h0 : 0 ≤ step) {x : MInput} (hw : WeightOk x.weight) :
    x.weight * x.st ≤ weightOf false step x * x.st ∧ weightOf true step x * x.st ≤ x.weight * x.st := by
  have hw2 := abs_le.mp hw
  unfold weightOf
  rw [if_neg (by decide), if_pos rfl]
  rcases le_total 0 x.st with hst | hst
  · have hd : 0 ≤ deltaOf step x.st := le_rnd (by omega) (by rw [zero_mul]; exact mul_nonneg hst h0)
    constructor
    · refine mul_le_mul_of_nonneg_right ?_ hst
      unfold clampWeight; omega
    · refine mul_le_mul_of_nonneg_right ?_ hst
      unfold clampWeight; omega
  · have hd : deltaOf step x.st ≤ 0 := rnd_le (by omega) (by
      rw [zero_mul]; exact mul_nonpos_of_nonpos_of_nonneg hst h0)
    constructor
    · refine mul_le_mul_of_nonpos_right ?_ hst
      unfold clampWeight; omega
    · refine mul_le_mul_of_nonpos_right ?_ hst
      unfold clampWeight; omega

theorem sumQ_move {step : Int} (h0 : 0 ≤ step) : ∀ {l : List MInput}, (∀ x ∈ l, WeightOk x.weight) →
    sumQ l ≤ sumQ (l.map fun x => { x with weight := weightOf false step x }) ∧
    sumQ (l.map fun x => { x with weight := weightOf true step x }) ≤ sumQ l := by
  intro l
  induction l with
  | nil => intro _; exact ⟨le_refl _, le_refl _⟩
  | cons x l ih =>
    intro h
    obtain ⟨i1, i2⟩ := ih fun y hy => h y (by simp [hy])
    obtain ⟨w1, w2⟩ := weight_move h0 (h x (by simp))
    rw [List.map_cons, List.map_cons, sumQ_cons, sumQ_cons, sumQ_cons]
    exact ⟨add_le_add (rnd_mono 2 w1) i1, add_le_add (rnd_mono 2 w2) i2⟩

/-- **C48.** Learning goes in the right direction: presenting the same inputs again after an update never gives a
prediction further away from the bit seen. For a zero bit the mixed stretched prediction (of a zero) does not fall,
for a one bit it does not rise; the squashed prediction follows up to one unit of `2 ^ -31`. -/
theorem C48_learns (lut : List (List Int)) (table rates : List Nat) (hlut : stretchLutNew = some lut)
    (htab : squashLutNew lut = some table) (hr : Est.ratesDefault = some rates) (n : Nat) (m m1 m2 : Mixer)
    (hm : Reachable table rates n m) (bit : Bool) (q limit : Nat) (h0 : 0 < q) (h1 : q < 2 ^ 31)
    (sets : List (Nat × Nat × Int))
    (hs : ∀ s ∈ sets, ∃ hi : s.1 < m.inputs.length, m.inputs[s.1].sq = s.2.1 ∧ m.inputs[s.1].st = s.2.2)
    (sq sq' : Nat) (st st' : Int) (g0 : mixAll table m = some (sq, st))
    (g1 : updateAndReset rates m bit q limit = some m1) (g2 : setInputs m1 sets = some m2)
    (g3 : mixAll table m2 = some (sq', st')) :
    (bit = false → st ≤ st' ∧ sq ≤ sq' + 1) ∧ (bit = true → st' ≤ st ∧ sq' ≤ sq + 1) := by
  obtain ⟨S, idx, hI⟩ := reachable_inv (squashOk hlut htab) hr hm
  obtain ⟨r1, r2⟩ := rates_get hr hI.ok.index
  have hu := update_eq bit (maxIndex := limit) hI.ok r1 r2 h0 h1
  rw [g1] at hu
  by_cases hc : m.mask = 2 ^ m.inputs.length - 1 ∧ m.index ≤ limit ∧ limit ≤ 1000
  swap
  · rw [if_neg hc] at hu; cases hu
  rw [if_pos hc] at hu
  obtain rfl := Option.some.inj hu
  obtain ⟨-, -, t1, -⟩ := stepOf_bounds (bit := bit) r2 h0 h1
  have hok := updated_ok hI.ok (2 ^ 31 / (m.index + 2)) bit q hc.2.2
  have hin : m2.inputs = (updated m (2 ^ 31 / (m.index + 2)) bit q limit).inputs := by
    refine setInputs_same g2 ?_
    intro s h
    obtain ⟨hi, a, b⟩ := hs s h
    exact ⟨by rw [updated, List.length_map]; exact hi, by simpa [updated] using a, by simpa [updated] using b⟩
  -- the index is unchanged by setting inputs
  have hidx : ∀ (l : List (Nat × Nat × Int)) (a b : Mixer), setInputs a l = some b → b.index = a.index := by
    intro l
    induction l with
    | nil => intro a b h; cases Option.some.inj h; rfl
    | cons s l ih =>
      intro a b h
      obtain ⟨i, x, y⟩ := s
      rw [setInputs] at h
      cases hcc : setInput a i x y with
      | none => rw [hcc] at h; cases h
      | some c =>
        rw [hcc, ob_some] at h
        rw [ih c b h]
        unfold setInput at hcc
        by_cases ha : i < a.inputs.length
        · by_cases hb : a.mask &&& 2 ^ i = 0
          · rw [check_pos ha, ob_some, check_pos hb, ob_some, List.getElem?_eq_getElem ha, ob_some] at hcc
            cases Option.some.inj hcc
            rfl
          · rw [check_pos ha, ob_some, check_neg hb] at hcc; cases hcc
        · rw [check_neg ha] at hcc; cases hcc
  have hok2 : MixerOk m2 := by
    refine ⟨by rw [hin]; exact hok.size, by rw [hin]; exact hok.weight, by rw [hin]; exact hok.st, ?_⟩
    rw [hidx _ _ _ g2]; exact hok.index
  have hout : ∀ {mm : Mixer} {a : Nat} {b : Int}, MixerOk mm → mixAll table mm = some (a, b) →
      b = mixOut mm.inputs ∧ squash table b = some a := by
    intro mm a b ho h
    rw [mixAll_eq table ho] at h
    by_cases hm : mm.mask = 2 ^ mm.inputs.length - 1
    · rw [if_pos hm] at h
      obtain ⟨v, hv, hv2⟩ := Option.map_eq_some_iff.mp h
      cases hv2
      exact ⟨rfl, hv⟩
    · rw [if_neg hm] at h; cases h
  obtain ⟨o1, o2⟩ := hout hI.ok g0
  obtain ⟨o3, o4⟩ := hout hok2 g3
  obtain ⟨v1, v2⟩ := sumQ_move t1 hI.ok.weight
  have near : ∀ {x y : Int} {a b : Nat}, StOk x → StOk y → x ≤ y → squash table x = some a → squash table y = some b →
      a ≤ b + 1 := by
    intro x y a b hx hy hxy ha hb
    obtain ⟨r, t, c1, c2, c3⟩ := C36_near_monotone lut table hlut htab x y hx hy hxy
    rw [ha] at c1
    rw [hb] at c2
    cases Option.some.inj c1
    cases Option.some.inj c2
    exact c3
  have k1 : StOk st := o1 ▸ mixOut_ok _
  have k2 : StOk st' := o3 ▸ mixOut_ok _
  constructor
  · rintro rfl
    have : st ≤ st' := by
      rw [o1, o3, hin]
      exact rnd_mono 19 (clampQ_mono v1)
    exact ⟨this, near k1 k2 this o2 o4⟩
  · rintro rfl
    have : st' ≤ st := by
      rw [o1, o3, hin]
      exact rnd_mono 19 (clampQ_mono v2)
    exact ⟨this, near k2 k1 this o4 o2⟩

/-- C38, C39: the hypotheses are met by a history with two updates -/
example : ∃ lut table rates m os m', stretchLutNew = some lut ∧ squashLutNew lut = some table ∧
    Est.ratesDefault = some rates ∧ New 2 10 .dominantFirst m ∧
    calls table rates m [.set 1 (2 ^ 29) (-(2 ^ 21)), .set 0 (2 ^ 30 + 7) 5, .mix, .update true (2 ^ 30) 300,
      .set 0 77 12345, .set 1 78 (-54321), .mix, .readSt 1, .update false (2 ^ 30 + 1) 300] = some (os, m') := by
  obtain ⟨lut, table, h1, h2, -⟩ := C36_squash
  obtain ⟨rates, h3, -⟩ := Est.ratesDefault_spec
  have hm : New 2 10 .dominantFirst ⟨[⟨2 ^ 21, 2 ^ 30, 0⟩, ⟨0, 2 ^ 30, 0⟩], 0, 10⟩ :=
    Or.inl ⟨by omega, by omega, by decide +kernel⟩
  have hc := C40_protocol lut table rates h1 h2 h3 2 10 .dominantFirst _ hm
    [.set 1 (2 ^ 29) (-(2 ^ 21)), .set 0 (2 ^ 30 + 7) 5, .mix, .update true (2 ^ 30) 300,
      .set 0 77 12345, .set 1 78 (-54321), .mix, .readSt 1, .update false (2 ^ 30 + 1) 300]
    (by simp [Typed])
  have two : ∀ S : List Nat, 0 ∈ S → 1 ∈ S → ∀ i, i < 2 → i ∈ S := by
    intro S a b i hi
    obtain rfl | rfl : i = 0 ∨ i = 1 := by omega
    · exact a
    · exact b
  obtain ⟨r, hr⟩ := Option.isSome_iff_exists.mp (hc.mpr ⟨by omega, by simp, by omega, by simp,
    two _ (by simp) (by simp), two _ (by simp) (by simp), by omega, by omega, by omega, by simp, by omega, by simp,
    two _ (by simp) (by simp), by simp, two _ (by simp) (by simp), by omega, by omega, trivial⟩)
  exact ⟨lut, table, rates, _, r.1, r.2, h1, h2, h3, hm, hr⟩

/-- C48: the hypotheses are met -/
example : ∃ lut table rates m m1 m2 sq st sq' st', stretchLutNew = some lut ∧ squashLutNew lut = some table ∧
    Est.ratesDefault = some rates ∧ Reachable table rates 1 m ∧ mixAll table m = some (sq, st) ∧
    updateAndReset rates m false sq 300 = some m1 ∧ setInputs m1 [(0, 2 ^ 29, -(2 ^ 21))] = some m2 ∧
    mixAll table m2 = some (sq', st') ∧
    ∃ hi : 0 < m.inputs.length, m.inputs[0].sq = 2 ^ 29 ∧ m.inputs[0].st = -(2 ^ 21) := by
  obtain ⟨lut, table, h1, h2, -⟩ := C36_squash
  obtain ⟨rates, h3, -⟩ := Est.ratesDefault_spec
  have ht := squashOk h1 h2
  have hm0 : New 1 10 .dominantFirst ⟨[⟨2 ^ 21, 2 ^ 30, 0⟩], 0, 10⟩ := Or.inl ⟨by omega, by omega, by decide +kernel⟩
  have hm : Reachable table rates 1 ⟨[⟨2 ^ 21, 2 ^ 29, -(2 ^ 21)⟩], 1, 10⟩ :=
    ⟨10, .dominantFirst, _, [.set 0 (2 ^ 29) (-(2 ^ 21))], [.nothing], hm0, by simp [Typed], rfl⟩
  obtain ⟨S, idx, hI⟩ := reachable_inv ht h3 hm
  obtain ⟨q, e1, -, q1, q2⟩ := ht _ (mixOut_ok [⟨2 ^ 21, 2 ^ 29, -(2 ^ 21)⟩])
  obtain ⟨r1, r2⟩ := rates_get h3 hI.ok.index
  have hu := update_eq false (maxIndex := 300) hI.ok r1 r2 (by omega : 0 < q) (by omega)
  rw [if_pos (by decide)] at hu
  have hok := updated_ok hI.ok (2 ^ 31 / (10 + 2)) false q (show 300 ≤ 1000 by omega)
  generalize hw : weightOf false (stepOf (2 ^ 31 / (10 + 2)) false q) ⟨2 ^ 21, 2 ^ 29, -(2 ^ 21)⟩ = w at *
  have hup : updated ⟨[⟨2 ^ 21, 2 ^ 29, -(2 ^ 21)⟩], 1, 10⟩ (2 ^ 31 / (10 + 2)) false q 300 =
      ⟨[⟨w, 2 ^ 29, -(2 ^ 21)⟩], 0, 11⟩ := by rw [← hw]; rfl
  rw [hup] at hok
  have hok2 : MixerOk ⟨[⟨w, 2 ^ 29, -(2 ^ 21)⟩], 1, 11⟩ := ⟨hok.size, hok.weight, hok.st, hok.index⟩
  obtain ⟨q', e2, -⟩ := ht _ (mixOut_ok [⟨w, 2 ^ 29, -(2 ^ 21)⟩])
  refine ⟨lut, table, rates, _, _, ⟨[⟨w, 2 ^ 29, -(2 ^ 21)⟩], 1, 11⟩, q,
    mixOut [⟨2 ^ 21, 2 ^ 29, -(2 ^ 21)⟩], q', mixOut [⟨w, 2 ^ 29, -(2 ^ 21)⟩], h1, h2, h3, hm, ?_, hu, ?_, ?_,
    Nat.one_pos, rfl, rfl⟩
  · rw [mixAll_eq table hI.ok, if_pos (by decide), e1]; rfl
  · rw [hup]; simp [setInputs, setInput, check]
  · rw [mixAll_eq table hok2, if_pos (by simp), e2]; rfl

end Verif.Mix
