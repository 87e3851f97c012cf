import Verif.Mix.Regret

/-!
# C76: a mixer codes any bits nearly as well as the best fixed weights

A round is: set all inputs, mix, use the mixed prediction for a bit, update with that prediction and the bit. The bits
and inputs are arbitrary.
-/

namespace Verif.Mix

open Verif Verif.Fixed Verif.Lut

/-- `set_input` for all inputs in turn (`mixer.rs:62-70`), starting with input `i` -/
def setAll : Mixer → Nat → List (Nat × Int) → Option Mixer
  | m, _, [] => some m
  | m, i, (sq, st) :: rest => do
    let m ← setInput m i sq st
    setAll m (i + 1) rest

/-- a round: `set_input` for all inputs, `mix_all` and `update_and_reset` with the mixed prediction
(`mixer.rs:62-130`). Gives the mixed prediction. -/
def codeRound (table rates : List Nat) (limit : Nat) (m : Mixer) (inputs : List (Nat × Int)) (bit : Bool) :
    Option (Nat × Mixer) := do
  let m ← setAll m 0 inputs
  let (sq, _) ← mixAll table m
  let m ← updateAndReset rates m bit sq limit
  some (sq, m)

/-- a sequence of rounds. Gives the mixed predictions. -/
def codeRounds (table rates : List Nat) (limit : Nat) : Mixer → List (List (Nat × Int) × Bool) →
    Option (List Nat × Mixer)
  | m, [] => some ([], m)
  | m, (inputs, bit) :: rest => do
    let (sq, m) ← codeRound table rates limit m inputs bit
    let (sqs, m) ← codeRounds table rates limit m rest
    some (sq :: sqs, m)

/-- the weights of a mixer, as real numbers -/
noncomputable def weightsOf (m : Mixer) : List ℝ := m.inputs.map fun x => (x.weight : ℝ) / 2 ^ 21

/-- stretched inputs of a round, as real numbers -/
noncomputable def stretchedOf (inputs : List (Nat × Int)) : List ℝ := inputs.map fun x => (x.2 : ℝ) / 2 ^ 21

/-- a prediction as a real number -/
noncomputable def probOf (sq : Nat) : ℝ := (sq : ℝ) / 2 ^ 31

/-- the inputs of a round are as many as the mixer has, and well typed -/
def RoundOk (n : Nat) (inputs : List (Nat × Int)) : Prop :=
  inputs.length = n ∧ ∀ x ∈ inputs, x.1 < 2 ^ 31 ∧ |x.2| ≤ 12 * 2 ^ 21

/-! ## Setting all inputs -/

theorem setAll_spec {n idx : Nat} : ∀ {ins : List (Nat × Int)} {m : Mixer} {S : List Nat} {j : Nat},
    Inv n m S idx → (∀ i, i ∈ S ↔ i < j) → j + ins.length = n →
    (∀ x ∈ ins, x.1 < 2 ^ 31 ∧ |x.2| ≤ 12 * 2 ^ 21) →
    ∃ m' S', setAll m j ins = some m' ∧ Inv n m' S' idx ∧ (∀ i, i ∈ S' ↔ i < n) ∧
      (m'.inputs.map (·.weight)) = m.inputs.map (·.weight) ∧
      m'.inputs.map (·.st) = (m.inputs.map (·.st)).take j ++ ins.map (·.2) := by
  intro ins
  induction ins with
  | nil =>
    intro m S j hI hS hj _
    have hj' : j = n := by simpa using hj
    refine ⟨m, S, rfl, hI, by rw [← hj']; exact hS, rfl, ?_⟩
    rw [List.take_of_length_le (by rw [List.length_map, hI.len]; omega)]
    simp
  | cons x ins ih =>
    intro m S j hI hS hj hx
    rw [List.length_cons] at hj
    have hjl : j < m.inputs.length := by rw [hI.len]; omega
    have hjS : j ∉ S := by rw [hS]; omega
    obtain ⟨x1, x2⟩ := hx x (by simp)
    have hset := (setInput_eq hI.mask x.1 x.2).2 hjl hjS
    have hI' := setTo_inv hI hjl x1 (show StOk x.2 from x2)
    obtain ⟨m', S', g1, g2, g3, g4, g5⟩ := ih hI' (j := j + 1) (by intro i; simp [hS]; omega) (by omega)
      (fun y hy => hx y (by simp [hy]))
    refine ⟨m', S', ?_, g2, g3, ?_, ?_⟩
    · obtain ⟨sq, st⟩ := x
      unfold setAll
      rw [hset, ob_some]
      exact g1
    · rw [g4, setTo, List.map_set]
      apply List.ext_getElem
      · simp
      · intro i h1 h2
        by_cases hi : j = i
        · subst hi; simp
        · rw [List.getElem_set_ne hi]
    · rw [g5, setTo, List.map_set]
      have hl : j < (m.inputs.map (·.st)).length := by rw [List.length_map]; exact hjl
      rw [List.take_add_one, List.take_set_of_le (le_refl _)]
      simp [hjl]

/-! ## One round -/

/-- what a round does, in terms of the inputs with the weights -/
theorem codeRound_spec {lut : List (List Int)} {table rates : List Nat} (hlut : stretchLutNew = some lut)
    (htab : squashLutNew lut = some table) (hr : Est.ratesDefault = some rates) {n idx : Nat} {m : Mixer}
    (hI : Inv n m [] idx) {ins : List (Nat × Int)} (hins : RoundOk n ins) (bit : Bool) {limit : Nat}
    (h1 : idx ≤ limit) (h2 : limit ≤ 1000) :
    ∃ sq st m1 S, Inv n m1 S idx ∧ m1.inputs.map (·.weight) = m.inputs.map (·.weight) ∧
      m1.inputs.map (·.st) = ins.map (·.2) ∧ |st| ≤ 12 * 2 ^ 21 ∧
      |st * 2 ^ 21 - limited (12 * 2 ^ 42) (m1.inputs.map fun x => x.weight * x.st).sum| ≤ 2 ^ 20 + 2 * (n : Int) ∧
      squash table st = some sq ∧ 2 ^ 14 ≤ sq ∧ sq ≤ 2 ^ 31 - 2 ^ 14 ∧
      codeRound table rates limit m ins bit = some (sq, updated m1 (2 ^ 31 / (idx + 2)) bit sq limit) ∧
      Inv n (updated m1 (2 ^ 31 / (idx + 2)) bit sq limit) [] (min limit (idx + 1)) := by
  obtain ⟨m1, S, g1, g2, g3, g4, g5⟩ := setAll_spec hI (j := 0) (by simp) (by rw [hins.1]; omega) hins.2
  obtain ⟨sq, q1, q2, q3, q4⟩ := squashOk hlut htab _ (mixOut_ok m1.inputs)
  have hmask : m1.mask = 2 ^ m1.inputs.length - 1 := by
    rw [mask_full g2.mask]
    intro i hi
    rw [g3, ← g2.len]
    exact hi
  obtain ⟨r1, r2⟩ := rates_get hr g2.ok.index
  have hm : mixAll table m1 = some (sq, mixOut m1.inputs) := by
    rw [mixAll_eq table g2.ok, if_pos hmask, q1]
    rfl
  have hu := update_eq bit (maxIndex := limit) g2.ok r1 r2 (show 0 < sq by omega) (show sq < 2 ^ 31 by omega)
  rw [if_pos ⟨hmask, by rw [g2.index]; exact h1, h2⟩, g2.index] at hu
  refine ⟨sq, mixOut m1.inputs, m1, S, g2, g4, by simpa using g5, mixOut_ok _, ?_, q1, q3, q4, ?_,
    updated_inv g2 _ bit sq h2⟩
  · have e1 := sumQ_err m1.inputs
    rw [g2.len] at e1
    have e2 := rnd_err (clampStretchedQ (sumQ m1.inputs)) (s := 19) (by omega)
    unfold mixOut
    generalize (m1.inputs.map fun x => x.weight * x.st).sum = z at *
    generalize rnd (clampStretchedQ (sumQ m1.inputs)) 19 = r at *
    generalize sumQ m1.inputs = q at *
    unfold clampStretchedQ at e2
    unfold limited
    rw [abs_le] at *
    have e2' := abs_le.mp (show |r * 2 ^ 19 - min (max q (-(12 * 2 ^ 40))) (12 * 2 ^ 40)| ≤ 2 ^ 18 by
      norm_num at e2 ⊢; omega)
    norm_num at e1 e2' ⊢
    split_ifs <;> omega
  · unfold codeRound
    rw [g1, ob_some, hm, ob_some]
    dsimp only
    rw [hu, ob_some]

/-! ## Sums -/

theorem sum_bound : ∀ {l : List MInput}, (∀ x ∈ l, WeightOk x.weight ∧ StOk x.st) →
    |(l.map fun x => x.weight * x.st).sum| ≤ l.length * (96 * 2 ^ 42) := by
  intro l
  induction l with
  | nil => intro _; simp
  | cons x l ih =>
    intro h
    obtain ⟨h1, h2⟩ := h x (by simp)
    have a := mul_abs_le h1 h2
    have b := ih (fun y hy => h y (by simp [hy]))
    rw [List.map_cons, List.sum_cons, List.length_cons]
    refine le_trans (abs_add_le _ _) ?_
    push_cast
    norm_num at a b ⊢
    linarith

/-- the dot product of weights and inputs -/
theorem dot_sum : ∀ l : List MInput, dot (l.map fun x => (x.weight : ℝ) / 2 ^ 21) (l.map fun x => (x.st : ℝ) / 2 ^ 21) =
    (((l.map fun x => x.weight * x.st).sum : ℤ) : ℝ) / 2 ^ 42 := by
  intro l
  induction l with
  | nil => simp [dot]
  | cons x l ih =>
    unfold dot at *
    rw [List.map_cons, List.map_cons, List.zipWith_cons_cons, List.sum_cons, ih, List.map_cons, List.sum_cons]
    push_cast
    norm_num
    ring

theorem clampWeight_real (z : Int) : (clampWeight z : ℝ) / 2 ^ 21 = max (min ((z : ℝ) / 2 ^ 21) 8) (-8) := by
  have e : (clampWeight z : ℝ) = max (min (z : ℝ) (8 * 2 ^ 21)) (-(8 * 2 ^ 21)) := by
    have : clampWeight z = max (min z (8 * 2 ^ 21)) (-(8 * 2 ^ 21)) := by unfold clampWeight; norm_num; omega
    rw [this]
    push_cast
    norm_num
  rw [e, max_div_div_right (by positivity) _ _ |>.symm, min_div_div_right (by positivity) _ _ |>.symm]
  norm_num

/-- all weights together -/
theorem steps_real {k : Nat} (hk : k ≤ 1000) {bit : Bool} {sq : Nat} (h0 : 0 < sq) (h1 : sq < 2 ^ 31) {s : ℝ}
    (hs : s = if bit then -1 else 1) : ∀ {l : List MInput} {us : List ℝ},
    (∀ x ∈ l, WeightOk x.weight ∧ StOk x.st) → (∀ a ∈ us, |a| ≤ 8) → us.length = l.length →
    ((k : ℝ) + 2) * sqDist (l.map fun x => (weightOf bit (stepOf (2 ^ 31 / (k + 2)) bit sq) x : ℝ) / 2 ^ 21) us ≤
      ((k : ℝ) + 2) * sqDist (l.map fun x => (x.weight : ℝ) / 2 ^ 21) us +
      s * missed bit (probOf sq) * (dot (l.map fun x => (x.weight : ℝ) / 2 ^ 21) (l.map fun x => (x.st : ℝ) / 2 ^ 21) -
        dot us (l.map fun x => (x.st : ℝ) / 2 ^ 21)) +
      missed bit (probOf sq) ^ 2 * sqNorm (l.map fun x => (x.st : ℝ) / 2 ^ 21) / (4 * ((k : ℝ) + 2)) +
      l.length * (((k : ℝ) + 2) / 10 ^ 5) := by
  have p0 : 0 < probOf sq := by
    unfold probOf
    have : (0 : ℝ) < sq := by exact_mod_cast h0
    positivity
  have p1 : probOf sq < 1 := by
    unfold probOf
    rw [div_lt_one (by positivity)]
    exact_mod_cast h1
  have e0 : 0 ≤ missed bit (probOf sq) ∧ missed bit (probOf sq) ≤ 1 := by
    unfold missed
    cases bit <;> simp <;> constructor <;> linarith
  intro l
  induction l with
  | nil =>
    intro us _ _ _
    simp [sqDist, dot, sqNorm]
  | cons x l ih =>
    intro us hl hu hlen
    cases us with
    | nil => simp at hlen
    | cons a us =>
      obtain ⟨hw, hst⟩ := hl x (by simp)
      have ha := hu a (by simp)
      have IH := ih (us := us) (fun y hy => hl y (by simp [hy])) (fun y hy => hu y (by simp [hy])) (by simpa using hlen)
      have hwr : |(x.weight : ℝ) / 2 ^ 21| ≤ 8 := by
        rw [abs_div, abs_of_pos (show (0 : ℝ) < 2 ^ 21 by positivity), div_le_iff₀ (by positivity)]
        unfold WeightOk at hw
        exact_mod_cast hw
      have hxr : |(x.st : ℝ) / 2 ^ 21| ≤ 12 := by
        rw [abs_div, abs_of_pos (show (0 : ℝ) < 2 ^ 21 by positivity), div_le_iff₀ (by positivity)]
        unfold StOk at hst
        exact_mod_cast hst
      have hd := delta_real hk (bit := bit) h0 h1 hst
      have hK : (2 : ℝ) ≤ (k : ℝ) + 2 := by
        have : (0 : ℝ) ≤ k := by positivity
        linarith
      have hss : s = 1 ∨ s = -1 := by rw [hs]; cases bit <;> simp
      have st := step_real hK hwr ha hxr e0.1 e0.2 hss hd
      have hwe : (weightOf bit (stepOf (2 ^ 31 / (k + 2)) bit sq) x : ℝ) / 2 ^ 21 =
          max (min ((x.weight : ℝ) / 2 ^ 21 +
            s * ((deltaOf (stepOf (2 ^ 31 / (k + 2)) bit sq) x.st : ℝ) / 2 ^ 21)) 8) (-8) := by
        unfold weightOf
        rw [clampWeight_real, hs]
        congr 2
        cases bit
        · simp; ring
        · simp; ring
      have cl := clamp_sq (y := (x.weight : ℝ) / 2 ^ 21 +
            s * ((deltaOf (stepOf (2 ^ 31 / (k + 2)) bit sq) x.st : ℝ) / 2 ^ 21)) ha
      rw [← hwe] at cl
      have cl2 := mul_le_mul_of_nonneg_left cl (show 0 ≤ (k : ℝ) + 2 by linarith)
      unfold sqDist dot sqNorm at *
      simp only [List.map_cons, List.zipWith_cons_cons, List.sum_cons, List.length_cons]
      push_cast
      generalize ((x.weight : ℝ) / 2 ^ 21) = W at *
      generalize ((x.st : ℝ) / 2 ^ 21) = X at *
      generalize missed bit (probOf sq) = e at *
      rw [show e ^ 2 * (X ^ 2 + (List.map (fun x => x ^ 2) (List.map (fun x => (x.st : ℝ) / 2 ^ 21) l)).sum) /
        (4 * ((k : ℝ) + 2)) = e ^ 2 * X ^ 2 / (4 * ((k : ℝ) + 2)) +
        e ^ 2 * (List.map (fun x => x ^ 2) (List.map (fun x => (x.st : ℝ) / 2 ^ 21) l)).sum / (4 * ((k : ℝ) + 2)) by ring]
      linarith

/-- the round inequality -/
theorem round_real {lut : List (List Int)} {table rates : List Nat} (hlut : stretchLutNew = some lut)
    (htab : squashLutNew lut = some table) (hr : Est.ratesDefault = some rates) {n idx : Nat} {m : Mixer}
    (hI : Inv n m [] idx) {ins : List (Nat × Int)} (hins : RoundOk n ins) (bit : Bool) {limit : Nat}
    (h1 : idx ≤ limit) (h2 : limit ≤ 1000) :
    ∃ sq m', codeRound table rates limit m ins bit = some (sq, m') ∧ 0 < sq ∧ sq < 2 ^ 31 ∧
      Inv n m' [] (min limit (idx + 1)) ∧
      ∀ us : List ℝ, us.length = n → (∀ a ∈ us, |a| ≤ 8) →
        bitCost bit (probOf sq) + ((idx : ℝ) + 2) * sqDist (weightsOf m') us ≤
          fixedCost us (stretchedOf ins) bit + ((idx : ℝ) + 2) * sqDist (weightsOf m) us +
          missed bit (probOf sq) ^ 2 * sqNorm (stretchedOf ins) / (4 * ((idx : ℝ) + 2)) +
          ((n : ℝ) + 1) / 1000 + n * (((idx : ℝ) + 2) / 10 ^ 5) := by
  obtain ⟨sq, st, m1, S, g1, g2, g3, g4, g5, g6, g7, g8, g9, g10⟩ := codeRound_spec hlut htab hr hI hins bit h1 h2
  refine ⟨sq, _, g9, by omega, by omega, g10, ?_⟩
  intro us hlen hu
  have hidx : idx ≤ 1000 := by omega
  have hall : ∀ x ∈ m1.inputs, WeightOk x.weight ∧ StOk x.st := fun x hx => ⟨g1.ok.weight x hx, g1.ok.st x hx⟩
  have key := steps_real hidx (bit := bit) (sq := sq) (by omega) (by omega) rfl hall hu (by rw [hlen, g1.len])
  have hn : n ≤ 30 := by rw [← g1.len]; exact g1.ok.size
  have hb := sum_bound hall
  rw [g1.len] at hb
  have hw : weightsOf m = m1.inputs.map fun x => (x.weight : ℝ) / 2 ^ 21 := by
    unfold weightsOf
    have := congrArg (List.map fun w : Int => (w : ℝ) / 2 ^ 21) g2
    rw [List.map_map, List.map_map] at this
    exact this.symm
  have hx : stretchedOf ins = m1.inputs.map fun x => (x.st : ℝ) / 2 ^ 21 := by
    unfold stretchedOf
    have := congrArg (List.map fun w : Int => (w : ℝ) / 2 ^ 21) g3
    rw [List.map_map, List.map_map] at this
    exact this.symm
  have hw' : weightsOf (updated m1 (2 ^ 31 / (idx + 2)) bit sq limit) =
      m1.inputs.map fun x => (weightOf bit (stepOf (2 ^ 31 / (idx + 2)) bit sq) x : ℝ) / 2 ^ 21 := by
    unfold weightsOf updated
    rw [List.map_map]
    rfl
  rw [hw, hx, hw']
  rw [dot_sum, g1.len] at key
  have p0 : 0 < probOf sq := by
    unfold probOf
    have : 0 < sq := by omega
    have : (0 : ℝ) < sq := by exact_mod_cast this
    positivity
  have p1 : probOf sq < 1 := by
    unfold probOf
    rw [div_lt_one (by positivity)]
    have : sq < 2 ^ 31 := by omega
    exact_mod_cast this
  unfold fixedCost
  generalize m1.inputs.map (fun x => (x.st : ℝ) / 2 ^ 21) = X at *
  generalize (m1.inputs.map fun x => x.weight * x.st).sum = Z at *
  cases bit
  · have a := log_loss (dot us X) p0 p1
    have b := mix_gap hlut htab hn g4 g6 hb g5
    change (1 - probOf sq) * ((Z : ℝ) / 2 ^ 42 - logit (probOf sq)) ≤ _ at b
    simp only [missed, bitCost, Bool.false_eq_true, if_false, one_mul] at key ⊢
    nlinarith
  · have a := log_loss (-dot us X) (show 0 < 1 - probOf sq by linarith) (by linarith)
    obtain ⟨r', f1, f2, f3, f4⟩ := squashOk hlut htab st g4
    rw [g6] at f1
    obtain rfl := Option.some.inj f1
    have b := mix_gap hlut htab hn (show |-st| ≤ _ by rw [abs_neg]; exact g4) f2
      (S := -Z) (show |-Z| ≤ _ by rw [abs_neg]; exact hb) (by
        rw [limited_neg (by norm_num), show -st * 2 ^ 21 - -limited (12 * 2 ^ 42) Z =
          -(st * 2 ^ 21 - limited (12 * 2 ^ 42) Z) by ring, abs_neg]
        exact g5)
    have e : ((2 ^ 31 - sq : ℕ) : ℝ) / 2 ^ 31 = 1 - probOf sq := by
      unfold probOf
      rw [Nat.cast_sub (by omega)]
      push_cast
      norm_num
      ring
    rw [e, logit_flip] at b
    rw [logistic_neg, logit_flip] at a
    push_cast at b
    simp only [missed, bitCost, if_true] at key ⊢
    nlinarith

/-! ## The properties -/

/-- a reachable mixer with no inputs set satisfies the invariant -/
theorem fresh_inv {lut : List (List Int)} {table rates : List Nat} (hlut : stretchLutNew = some lut)
    (htab : squashLutNew lut = some table) (hr : Est.ratesDefault = some rates) {n : Nat} {m : Mixer}
    (hm : Reachable table rates n m) (h0 : m.mask = 0) : Inv n m [] m.index := by
  obtain ⟨S, idx, hI⟩ := reachable_inv (squashOk hlut htab) hr hm
  have hS : S = [] := by
    rw [List.eq_nil_iff_forall_not_mem]
    intro i hi
    have := hI.mask.1 i
    rw [h0, Nat.zero_testBit, decide_eq_true hi] at this
    cases this
  subst hS
  have := hI.index
  rw [← this] at hI
  exact hI

/-- **C76 (one round).** Take any mixer after any history, no inputs set, any inputs, any bit, and any other weights
within ±8. A round does not panic. The cost of the bit plus the weighted squared distance of the weights afterwards
from the other weights is at most what the other weights would have paid plus the weighted squared distance before,
plus the price of the move and the loss to rounding. -/
theorem C76_round (lut : List (List Int)) (table rates : List Nat) (hlut : stretchLutNew = some lut)
    (htab : squashLutNew lut = some table) (hr : Est.ratesDefault = some rates) (n : Nat) (m : Mixer)
    (hm : Reachable table rates n m) (h0 : m.mask = 0) (ins : List (Nat × Int)) (hins : RoundOk n ins) (bit : Bool)
    (limit : Nat) (h1 : m.index ≤ limit) (h2 : limit ≤ 1000) :
    ∃ sq m', codeRound table rates limit m ins bit = some (sq, m') ∧ 0 < sq ∧ sq < 2 ^ 31 ∧
      m'.mask = 0 ∧ m'.index = min limit (m.index + 1) ∧
      ∀ us : List ℝ, us.length = n → (∀ a ∈ us, |a| ≤ 8) →
        bitCost bit (probOf sq) + ((m.index : ℝ) + 2) * sqDist (weightsOf m') us ≤
          fixedCost us (stretchedOf ins) bit + ((m.index : ℝ) + 2) * sqDist (weightsOf m) us +
          missed bit (probOf sq) ^ 2 * sqNorm (stretchedOf ins) / (4 * ((m.index : ℝ) + 2)) +
          ((n : ℝ) + 1) / 1000 + n * (((m.index : ℝ) + 2) / 10 ^ 5) := by
  obtain ⟨sq, m', a1, a2, a3, a4, a5⟩ := round_real hlut htab hr (fresh_inv hlut htab hr hm h0) hins bit h1 h2
  refine ⟨sq, m', a1, a2, a3, ?_, a4.index, a5⟩
  refine Nat.eq_of_testBit_eq fun i => ?_
  rw [a4.mask.1 i, Nat.zero_testBit]
  simp

/-- distances within the box -/
theorem sqDist_le : ∀ {ws us : List ℝ}, (∀ w ∈ ws, |w| ≤ 8) →
    sqDist ws us ≤ (us.map fun a => (8 + |a|) ^ 2).sum := by
  intro ws
  induction ws with
  | nil =>
    intro us _
    have : 0 ≤ (us.map fun a => (8 + |a|) ^ 2).sum := by
      apply List.sum_nonneg
      intro x hx
      obtain ⟨a, -, rfl⟩ := List.mem_map.mp hx
      positivity
    simpa [sqDist] using this
  | cons w ws ih =>
    intro us h
    cases us with
    | nil => simp [sqDist]
    | cons a us =>
      have IH := ih (us := us) (fun y hy => h y (by simp [hy]))
      have hw := h w (by simp)
      unfold sqDist at *
      simp only [List.map_cons, List.zipWith_cons_cons, List.sum_cons]
      have : (w - a) ^ 2 ≤ (8 + |a|) ^ 2 := by
        rw [← sq_abs (w - a)]
        refine pow_le_pow_left₀ (abs_nonneg _) ?_ 2
        have := abs_sub w a
        linarith
      linarith

theorem weightsOf_box {n : Nat} {m : Mixer} {S : List Nat} {idx : Nat} (h : Inv n m S idx) :
    ∀ w ∈ weightsOf m, |w| ≤ 8 := by
  intro w hw
  obtain ⟨x, hx, rfl⟩ := List.mem_map.mp hw
  have := h.ok.weight x hx
  rw [abs_div, abs_of_pos (show (0 : ℝ) < 2 ^ 21 by positivity), div_le_iff₀ (by positivity)]
  unfold WeightOk at this
  exact_mod_cast this

theorem sqDist_nonneg (a b : List ℝ) : 0 ≤ sqDist a b := by
  unfold sqDist
  apply List.sum_nonneg
  intro x hx
  obtain ⟨i, hi, rfl⟩ := List.mem_iff_getElem.mp hx
  rw [List.getElem_zipWith]
  positivity

/-- what the mixer pays in total -/
noncomputable def totalCost (rounds : List (List (Nat × Int) × Bool)) (ps : List Nat) : ℝ :=
  (List.zipWith (fun r p => bitCost r.2 (probOf p)) rounds ps).sum

/-- what fixed weights pay in total -/
noncomputable def totalFixed (us : List ℝ) (rounds : List (List (Nat × Int) × Bool)) : ℝ :=
  (rounds.map fun r => fixedCost us (stretchedOf r.1) r.2).sum

/-- inputs and errors of the rounds -/
noncomputable def moves (rounds : List (List (Nat × Int) × Bool)) (ps : List Nat) : List (List ℝ × ℝ) :=
  List.zipWith (fun r p => (stretchedOf r.1, missed r.2 (probOf p))) rounds ps

theorem rounds_real {lut : List (List Int)} {table rates : List Nat} (hlut : stretchLutNew = some lut)
    (htab : squashLutNew lut = some table) (hr : Est.ratesDefault = some rates) {n limit : Nat} (h2 : limit ≤ 1000) :
    ∀ {rounds : List (List (Nat × Int) × Bool)} {m : Mixer} {idx : Nat}, Inv n m [] idx → idx ≤ limit →
      (∀ r ∈ rounds, RoundOk n r.1) →
      ∃ ps m', codeRounds table rates limit m rounds = some (ps, m') ∧ ps.length = rounds.length ∧
        Inv n m' [] (min limit (idx + rounds.length)) ∧
        ∀ us : List ℝ, us.length = n → (∀ a ∈ us, |a| ≤ 8) →
          totalCost rounds ps + ((min limit (idx + rounds.length) : ℕ) + 2 : ℝ) * sqDist (weightsOf m') us ≤
            totalFixed us rounds + ((idx : ℝ) + 2) * sqDist (weightsOf m) us +
            ((min limit (idx + rounds.length) : ℕ) - idx : ℝ) * (us.map fun a => (8 + |a|) ^ 2).sum +
            movePrice limit idx (moves rounds ps) +
            rounds.length * (((n : ℝ) + 1) / 1000 + n * (((limit : ℝ) + 2) / 10 ^ 5)) := by
  intro rounds
  induction rounds with
  | nil =>
    intro m idx hI hl _
    refine ⟨[], m, rfl, rfl, ?_, ?_⟩
    · rw [List.length_nil, Nat.add_zero, Nat.min_eq_right hl]; exact hI
    · intro us _ _
      rw [List.length_nil, Nat.add_zero, Nat.min_eq_right hl]
      simp [totalCost, totalFixed, moves, movePrice]
  | cons r rounds ih =>
    intro m idx hI hl hok
    obtain ⟨sq, m1, a1, a2, a3, a4, a5⟩ := round_real hlut htab hr hI (hok r (by simp)) r.2 hl h2
    obtain ⟨ps, m', b1, b2, b3, b4⟩ := ih a4 (by omega) (fun y hy => hok y (by simp [hy]))
    have hmin : min limit (min limit (idx + 1) + rounds.length) = min limit (idx + (r :: rounds).length) := by
      rw [List.length_cons]; omega
    rw [hmin] at b3 b4
    refine ⟨sq :: ps, m', ?_, by simp [b2], b3, ?_⟩
    · obtain ⟨ins, bit⟩ := r
      unfold codeRounds
      rw [a1, ob_some]
      dsimp only
      rw [b1, ob_some]
    · intro us hu1 hu2
      have A := a5 us hu1 hu2
      have B := b4 us hu1 hu2
      have D := sqDist_le (us := us) (weightsOf_box a4)
      unfold totalCost totalFixed moves at *
      simp only [List.zipWith_cons_cons, List.map_cons, List.sum_cons, movePrice]
      rw [List.length_cons] at *
      generalize min limit (idx + (rounds.length + 1)) = kT at *
      have hk1 : (idx : ℝ) ≤ (min limit (idx + 1) : ℕ) := by
        have : idx ≤ min limit (idx + 1) := by omega
        exact_mod_cast this
      have hD := mul_le_mul_of_nonneg_left D (show 0 ≤ ((min limit (idx + 1) : ℕ) : ℝ) - idx by linarith)
      have hlim : (n : ℝ) * (((idx : ℝ) + 2) / 10 ^ 5) ≤ n * (((limit : ℝ) + 2) / 10 ^ 5) := by
        have : (idx : ℝ) ≤ limit := by exact_mod_cast hl
        apply mul_le_mul_of_nonneg_left _ (by positivity)
        apply div_le_div_of_nonneg_right _ (by positivity)
        linarith
      push_cast at *
      linarith

/-- **C76.** Over any number of rounds with any inputs and any bits a mixer pays at most as much as any fixed weights
within ±8 would have paid, plus a term for the distance of its first weights, a term for the growth of the denominator
of the learning rate, the price of moving the weights, and a loss to rounding per round. -/
theorem C76_regret (lut : List (List Int)) (table rates : List Nat) (hlut : stretchLutNew = some lut)
    (htab : squashLutNew lut = some table) (hr : Est.ratesDefault = some rates) (n : Nat) (m : Mixer)
    (hm : Reachable table rates n m) (h0 : m.mask = 0) (rounds : List (List (Nat × Int) × Bool))
    (hok : ∀ r ∈ rounds, RoundOk n r.1) (limit : Nat) (h1 : m.index ≤ limit) (h2 : limit ≤ 1000) :
    ∃ ps m', codeRounds table rates limit m rounds = some (ps, m') ∧ ps.length = rounds.length ∧
      m'.index = min limit (m.index + rounds.length) ∧
      ∀ us : List ℝ, us.length = n → (∀ a ∈ us, |a| ≤ 8) →
        totalCost rounds ps ≤
          totalFixed us rounds + ((m.index : ℝ) + 2) * sqDist (weightsOf m) us +
          ((m'.index : ℝ) - m.index) * (us.map fun a => (8 + |a|) ^ 2).sum +
          movePrice limit m.index (moves rounds ps) +
          rounds.length * (((n : ℝ) + 1) / 1000 + n * (((limit : ℝ) + 2) / 10 ^ 5)) := by
  obtain ⟨ps, m', a1, a2, a3, a4⟩ := rounds_real hlut htab hr h2 (fresh_inv hlut htab hr hm h0) h1 hok
  refine ⟨ps, m', a1, a2, a3.index, ?_⟩
  intro us hu1 hu2
  have A := a4 us hu1 hu2
  have B := sqDist_nonneg (weightsOf m') us
  rw [a3.index]
  have : 0 ≤ ((min limit (m.index + rounds.length) : ℕ) + 2 : ℝ) * sqDist (weightsOf m') us := by positivity
  linarith

/-- the error of a prediction is at most the cost of the bit -/
theorem missed_le {bit : Bool} {p : ℝ} (h0 : 0 < p) (h1 : p < 1) :
    0 ≤ missed bit p ∧ missed bit p ≤ 1 ∧ missed bit p ≤ bitCost bit p := by
  unfold missed bitCost
  cases bit
  · simp only [Bool.false_eq_true, if_false]
    have := Real.log_le_sub_one_of_pos h0
    exact ⟨by linarith, by linarith, by linarith⟩
  · simp only [if_true]
    have := Real.log_le_sub_one_of_pos (show 0 < 1 - p by linarith)
    exact ⟨by linarith, by linarith, by linarith⟩

theorem movePrice_le {limit : Nat} {X : ℝ} {k0 : Nat} :
    ∀ {rounds : List (List (Nat × Int) × Bool)} {ps : List Nat} {k : Nat}, k0 ≤ k → k0 ≤ limit →
      (∀ r ∈ rounds, sqNorm (stretchedOf r.1) ≤ X) → (∀ p ∈ ps, 0 < p ∧ p < 2 ^ 31) →
      movePrice limit k (moves rounds ps) ≤ X / (4 * ((k0 : ℝ) + 2)) * totalCost rounds ps := by
  intro rounds
  induction rounds with
  | nil => intro ps k _ _ _ _; simp [moves, movePrice, totalCost]
  | cons r rounds ih =>
    intro ps k hk hl hX hp
    cases ps with
    | nil => simp [moves, movePrice, totalCost]
    | cons p ps =>
      have IH := ih (ps := ps) (k := min limit (k + 1)) (by omega) hl (fun y hy => hX y (by simp [hy]))
        (fun y hy => hp y (by simp [hy]))
      unfold moves totalCost at *
      simp only [List.zipWith_cons_cons, List.sum_cons, movePrice]
      obtain ⟨p0, p1⟩ := hp p (by simp)
      have q0 : 0 < probOf p := by
        unfold probOf
        have : (0 : ℝ) < p := by exact_mod_cast p0
        positivity
      have q1 : probOf p < 1 := by
        unfold probOf
        rw [div_lt_one (by positivity)]
        exact_mod_cast p1
      obtain ⟨e0, e1, e2⟩ := missed_le (bit := r.2) q0 q1
      have hx := hX r (by simp)
      have hx0 : 0 ≤ sqNorm (stretchedOf r.1) := by
        unfold sqNorm
        apply List.sum_nonneg
        intro x hx
        obtain ⟨a, -, rfl⟩ := List.mem_map.mp hx
        positivity
      have hkr : (k0 : ℝ) ≤ k := by exact_mod_cast hk
      have step : missed r.2 (probOf p) ^ 2 * sqNorm (stretchedOf r.1) / (4 * ((k : ℝ) + 2)) ≤
          X / (4 * ((k0 : ℝ) + 2)) * bitCost r.2 (probOf p) := by
        have s1 : missed r.2 (probOf p) ^ 2 * sqNorm (stretchedOf r.1) ≤ X * bitCost r.2 (probOf p) := by
          have t1 : missed r.2 (probOf p) ^ 2 ≤ bitCost r.2 (probOf p) := by nlinarith
          calc _ ≤ bitCost r.2 (probOf p) * X := mul_le_mul t1 hx hx0 (by linarith)
            _ = _ := by ring
        calc _ ≤ X * bitCost r.2 (probOf p) / (4 * ((k : ℝ) + 2)) := by
              apply div_le_div_of_nonneg_right s1 (by positivity)
          _ ≤ X * bitCost r.2 (probOf p) / (4 * ((k0 : ℝ) + 2)) := by
              apply div_le_div_of_nonneg_left _ (by positivity) (by linarith)
              have : 0 ≤ bitCost r.2 (probOf p) := by linarith
              have : 0 ≤ X := le_trans hx0 hx
              positivity
          _ = _ := by ring
      linarith

/-- the input `i` alone as fixed weights -/
def only (n i : Nat) : List ℝ := (List.replicate n 0).set i 1

theorem only_box (n i : Nat) : (only n i).length = n ∧ ∀ a ∈ only n i, |a| ≤ 8 := by
  constructor
  · simp [only]
  · intro a ha
    rcases List.mem_or_eq_of_mem_set ha with h | h
    · rw [List.mem_replicate] at h
      rw [h.2]
      norm_num
    · rw [h]
      norm_num

theorem only_dot : ∀ {n i : Nat} {xs : List ℝ}, xs.length = n → (hi : i < xs.length) → dot (only n i) xs = xs[i] := by
  intro n
  have zero : ∀ (n : Nat) (xs : List ℝ), dot (List.replicate n 0) xs = 0 := by
    intro n
    induction n with
    | zero => intro xs; simp [dot]
    | succ n ih =>
      intro xs
      cases xs with
      | nil => simp [dot]
      | cons x xs =>
        have := ih xs
        unfold dot at *
        rw [List.replicate_succ, List.zipWith_cons_cons, List.sum_cons, this]
        ring
  induction n with
  | zero => intro i xs h hi; omega
  | succ n ih =>
    intro i xs h hi
    cases xs with
    | nil => simp at h
    | cons x xs =>
      cases i with
      | zero =>
        have := zero n xs
        unfold dot only at *
        rw [List.replicate_succ, List.set_cons_zero, List.zipWith_cons_cons, List.sum_cons, this]
        simp
      | succ i =>
        have := ih (i := i) (xs := xs) (by simpa using h) (by simpa using hi)
        unfold dot only at *
        rw [List.replicate_succ, List.set_cons_succ, List.zipWith_cons_cons, List.sum_cons, this]
        simp

theorem only_sum {n i : Nat} (hi : i < n) : ((only n i).map fun a => (8 + |a|) ^ 2).sum ≤ 64 * (n : ℝ) + 17 := by
  have : ∀ {n i : Nat}, i < n → ((only n i).map fun a => (8 + |a|) ^ 2).sum = 64 * (n : ℝ) + 17 := by
    intro n
    induction n with
    | zero => intro i h; omega
    | succ n ih =>
      intro i h
      unfold only at *
      rw [List.replicate_succ]
      cases i with
      | zero =>
        rw [List.set_cons_zero, List.map_cons, List.sum_cons, List.map_replicate, List.sum_replicate]
        push_cast
        norm_num
        ring
      | succ i =>
        rw [List.set_cons_succ, List.map_cons, List.sum_cons, ih (by omega)]
        push_cast
        norm_num
        ring
  exact (this hi).le

/-- **C76 (best input).** Whatever the inputs and bits: for each of its inputs a mixer pays at most what that input
alone would have paid, plus the terms of `C76_regret`. -/
theorem C76_best_input (lut : List (List Int)) (table rates : List Nat) (hlut : stretchLutNew = some lut)
    (htab : squashLutNew lut = some table) (hr : Est.ratesDefault = some rates) (n : Nat) (m : Mixer)
    (hm : Reachable table rates n m) (h0 : m.mask = 0) (rounds : List (List (Nat × Int) × Bool))
    (hok : ∀ r ∈ rounds, RoundOk n r.1) (limit : Nat) (h1 : m.index ≤ limit) (h2 : limit ≤ 1000) :
    ∃ ps m', codeRounds table rates limit m rounds = some (ps, m') ∧ ps.length = rounds.length ∧
      m'.index = min limit (m.index + rounds.length) ∧
      ∀ i, i < n →
        totalCost rounds ps ≤
          (rounds.map fun r => bitCost r.2 (logistic ((stretchedOf r.1).getD i 0))).sum +
          ((m.index : ℝ) + 2) * sqDist (weightsOf m) (only n i) +
          ((m'.index : ℝ) - m.index) * (64 * n + 17) +
          movePrice limit m.index (moves rounds ps) +
          rounds.length * (((n : ℝ) + 1) / 1000 + n * (((limit : ℝ) + 2) / 10 ^ 5)) := by
  obtain ⟨ps, m', a1, a2, a3, a4⟩ := C76_regret lut table rates hlut htab hr n m hm h0 rounds hok limit h1 h2
  refine ⟨ps, m', a1, a2, a3, ?_⟩
  intro i hi
  have A := a4 (only n i) (only_box n i).1 (only_box n i).2
  have e : totalFixed (only n i) rounds =
      (rounds.map fun r => bitCost r.2 (logistic ((stretchedOf r.1).getD i 0))).sum := by
    unfold totalFixed
    refine congrArg List.sum (List.map_congr_left ?_)
    intro r hr
    unfold fixedCost
    have hl := (hok r hr).1
    have hl2 : (stretchedOf r.1).length = n := by unfold stretchedOf; rw [List.length_map, hl]
    rw [only_dot hl2 (by omega), List.getD_eq_getElem?_getD, List.getElem?_eq_getElem (by omega), Option.getD_some]
  rw [e] at A
  have hg : (0 : ℝ) ≤ (m'.index : ℝ) - m.index := by
    have : m.index ≤ m'.index := by omega
    have : (m.index : ℝ) ≤ m'.index := by exact_mod_cast this
    linarith
  have := mul_le_mul_of_nonneg_left (only_sum hi) hg
  linarith

/-- **C76 (small inputs).** If the squared length of the inputs of every round is at most `X` then the mixer pays at
most, up to the factor `1 - X / (4 (index + 2))` and the other terms, what any fixed weights within ±8 would have
paid. -/
theorem C76_small (lut : List (List Int)) (table rates : List Nat) (hlut : stretchLutNew = some lut)
    (htab : squashLutNew lut = some table) (hr : Est.ratesDefault = some rates) (n : Nat) (m : Mixer)
    (hm : Reachable table rates n m) (h0 : m.mask = 0) (rounds : List (List (Nat × Int) × Bool))
    (hok : ∀ r ∈ rounds, RoundOk n r.1) (limit : Nat) (h1 : m.index ≤ limit) (h2 : limit ≤ 1000) (X : ℝ)
    (hX : ∀ r ∈ rounds, sqNorm (stretchedOf r.1) ≤ X) :
    ∃ ps m', codeRounds table rates limit m rounds = some (ps, m') ∧ ps.length = rounds.length ∧
      m'.index = min limit (m.index + rounds.length) ∧
      ∀ us : List ℝ, us.length = n → (∀ a ∈ us, |a| ≤ 8) →
        (1 - X / (4 * ((m.index : ℝ) + 2))) * totalCost rounds ps ≤
          totalFixed us rounds + ((m.index : ℝ) + 2) * sqDist (weightsOf m) us +
          ((m'.index : ℝ) - m.index) * (us.map fun a => (8 + |a|) ^ 2).sum +
          rounds.length * (((n : ℝ) + 1) / 1000 + n * (((limit : ℝ) + 2) / 10 ^ 5)) := by
  obtain ⟨ps, m', a1, a2, a3, a4⟩ := C76_regret lut table rates hlut htab hr n m hm h0 rounds hok limit h1 h2
  refine ⟨ps, m', a1, a2, a3, ?_⟩
  intro us hu1 hu2
  have A := a4 us hu1 hu2
  have hp : ∀ p ∈ ps, 0 < p ∧ p < 2 ^ 31 := by
    have := fresh_inv hlut htab hr hm h0
    clear a3 a4 A hu1 hu2 h0 hm hX a2
    revert this h1
    generalize m.index = idx
    induction rounds generalizing m ps m' idx with
    | nil =>
      intro h1 hI p hp
      cases Option.some.inj a1
      cases hp
    | cons r rounds ih =>
      intro h1 hI
      obtain ⟨sq, m1, b1, b2, b3, b4, -⟩ := round_real hlut htab hr hI (hok r (by simp)) r.2 h1 h2
      obtain ⟨qs, m2, c1, -⟩ := rounds_real hlut htab hr h2 (rounds := rounds) b4 (by omega)
        (fun y hy => hok y (by simp [hy]))
      obtain ⟨ins, bit⟩ := r
      unfold codeRounds at a1
      rw [b1, ob_some] at a1
      dsimp only at a1
      rw [c1, ob_some] at a1
      cases Option.some.inj a1
      intro p hp
      rcases List.mem_cons.mp hp with rfl | hp
      · exact ⟨b2, b3⟩
      · exact ih m1 (fun y hy => hok y (by simp [hy])) qs m2 c1 _ (by omega) b4 p hp
  have B := movePrice_le (limit := limit) (k0 := m.index) (le_refl _) h1 hX hp
  have : (1 - X / (4 * ((m.index : ℝ) + 2))) * totalCost rounds ps =
    totalCost rounds ps - X / (4 * ((m.index : ℝ) + 2)) * totalCost rounds ps := by ring
  linarith

/-- C76: the hypotheses are met by a new mixer of two inputs and three rounds -/
example : ∃ lut table rates m, stretchLutNew = some lut ∧ squashLutNew lut = some table ∧
    Est.ratesDefault = some rates ∧ Reachable table rates 2 m ∧ m.mask = 0 ∧ m.index ≤ 300 ∧
    ∀ r ∈ [([((5 : Nat), (-7 : Int)), (2 ^ 30, 2 ^ 21)], true), ([(77, 12345), (78, -54321)], false),
      ([(1, 12 * 2 ^ 21), (2 ^ 31 - 1, -(12 * 2 ^ 21))], true)], RoundOk 2 r.1 := by
  obtain ⟨lut, table, h1, h2, -⟩ := C36_squash
  obtain ⟨rates, h3, -⟩ := Est.ratesDefault_spec
  refine ⟨lut, table, rates, ⟨[⟨2 ^ 21, 2 ^ 30, 0⟩, ⟨0, 2 ^ 30, 0⟩], 0, 10⟩, h1, h2, h3,
    ⟨10, .dominantFirst, _, [], [], Or.inr (show mixerNNew 2 10 .dominantFirst = some _ by decide +kernel), by simp,
      rfl⟩, rfl, by norm_num, ?_⟩
  intro r hr
  simp only [List.mem_cons, List.not_mem_nil, or_false] at hr
  rcases hr with rfl | rfl | rfl <;> refine ⟨rfl, ?_⟩ <;> simp

end Verif.Mix
