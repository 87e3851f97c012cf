import Verif.Est.Props

/-!
# C16: what a fixed speed estimator accepts, where it stays and how it learns

Predictions are probabilities of a zero bit in units of `2^-31`, states are in units of `2^-16`.
-/

namespace Verif.Est

open Verif

theorem fixPrediction_eq {x : Nat} (h : x < 2 ^ 16) : fixPrediction x = x * 2 ^ 15 := by
  unfold fixPrediction wrapU32
  omega

/-- **C16 (new).** Every start but zero is accepted, it is the first prediction, and after any bits the prediction is
strictly between zero and one; the opposite bits from the complementary start give the complementary prediction. -/
theorem C16_new (v : Nat) (hv : v < 2 ^ 16) (bits : List Bool) :
    (fixNew 0 = none) ∧
    (v ≠ 0 → ∃ e y, fixNew v = some e ∧ fixPrediction e = v * 2 ^ 15 ∧ fixRun e bits = some y ∧
      0 < fixPrediction y ∧ fixPrediction y < 2 ^ 31 ∧
      ∃ e' y', fixNew (2 ^ 16 - v) = some e' ∧ fixRun e' (bits.map not) = some y' ∧
        fixPrediction y' = 2 ^ 31 - fixPrediction y) := by
  refine ⟨by decide, fun h0 => ?_⟩
  obtain ⟨y, h1, h2, h3, h4⟩ := C16_fixed_speed bits v (by omega) hv
  have hn : ∀ w, w ≠ 0 → fixNew w = some w := by
    intro w hw
    unfold fixNew
    rw [check_pos hw, ob_some]
  refine ⟨v, y, hn v h0, ?_, h1, ?_, ?_, _, _, hn _ (by omega), h4, ?_⟩ <;> unfold fixPrediction wrapU32 <;> omega

/-- **C16 (learning).** After any bits from any accepted start, one more bit moves the prediction towards that bit by
1/128 of the distance, up to one unit of `2^-16`. -/
theorem C16_learns (v : Nat) (h0 : v ≠ 0) (hv : v < 2 ^ 16) (bits : List Bool) (b : Bool) :
    ∃ x y, fixRun v bits = some x ∧ fixRun v (bits ++ [b]) = some y ∧
      (b = false → fixPrediction x ≤ fixPrediction y) ∧ (b = true → fixPrediction y ≤ fixPrediction x) ∧
      |128 * ((fixPrediction y : Int) - fixPrediction x) - ((if b then 0 else 2 ^ 31) - fixPrediction x)|
        < 128 * 2 ^ 15 := by
  have happ : ∀ (l : List Bool) (e : Nat), fixRun e (l ++ [b]) = (fixRun e l).bind fun x => fixRun x [b] := by
    intro l
    induction l with
    | nil => intro e; rfl
    | cons c l ih =>
      intro e
      simp only [List.cons_append, fixRun]
      cases h : fixUpdate e c with
      | none => rfl
      | some z => exact ih z
  obtain ⟨x, h1, h2, h3, -⟩ := C16_fixed_speed bits v (by omega) hv
  have hone : fixRun x [b] = fixUpdate x b := by
    simp only [fixRun]
    cases fixUpdate x b <;> rfl
  have hlast : fixRun v (bits ++ [b]) = fixUpdate x b := by
    rw [happ, h1, Option.bind_some, hone]
  cases b
  · refine ⟨x, x + (2 ^ 16 - x) / 2 ^ 7, h1, ?_, ?_, by simp, ?_⟩
    · rw [hlast]
      unfold fixUpdate wrapU16
      simp only [Bool.false_eq_true, if_false]
      rw [subU_eq (by omega), ob_some, Nat.mod_eq_of_lt (by omega), u16_eq (by omega)]
    · intro _
      rw [fixPrediction_eq h3, fixPrediction_eq (by omega)]
      omega
    · rw [fixPrediction_eq h3, fixPrediction_eq (by omega), abs_lt]
      simp only [Bool.false_eq_true, if_false]
      constructor <;> omega
  · refine ⟨x, x - x / 2 ^ 7, h1, ?_, by simp, ?_, ?_⟩
    · rw [hlast]
      unfold fixUpdate
      simp only [if_true]
      rw [subU_eq (by omega)]
    · intro _
      rw [fixPrediction_eq h3, fixPrediction_eq (by omega)]
      omega
    · rw [fixPrediction_eq h3, fixPrediction_eq (by omega), abs_lt]
      simp only [if_true]
      constructor <;> omega

/-- **C16 (limits).** From the default the prediction never comes closer to zero or one than 127/65536, and both
limits are reached. -/
theorem C16_limits :
    (∀ bits, ∃ y, fixRun fixDefault bits = some y ∧ 127 * 2 ^ 15 ≤ fixPrediction y ∧
      fixPrediction y ≤ 2 ^ 31 - 127 * 2 ^ 15) ∧
    (∃ bits, (fixRun fixDefault bits).map fixPrediction = some (127 * 2 ^ 15)) ∧
    ∃ bits, (fixRun fixDefault bits).map fixPrediction = some (2 ^ 31 - 127 * 2 ^ 15) := by
  refine ⟨?_, ⟨List.replicate 1000 true, by decide +kernel⟩, ⟨List.replicate 1000 false, by decide +kernel⟩⟩
  have key : ∀ (bits : List Bool) (x : Nat), 127 ≤ x → x ≤ 2 ^ 16 - 127 →
      ∃ y, fixRun x bits = some y ∧ 127 ≤ y ∧ y ≤ 2 ^ 16 - 127 := by
    intro bits
    induction bits with
    | nil => intro x h1 h2; exact ⟨x, rfl, h1, h2⟩
    | cons b bits ih =>
      intro x h1 h2
      cases b
      · obtain ⟨y, k1, k2⟩ := ih (x + (2 ^ 16 - x) / 2 ^ 7) (by omega) (by omega)
        refine ⟨y, ?_, k2⟩
        have : fixUpdate x false = some (x + (2 ^ 16 - x) / 2 ^ 7) := by
          unfold fixUpdate wrapU16
          simp only [Bool.false_eq_true, if_false]
          rw [subU_eq (by omega), ob_some, Nat.mod_eq_of_lt (by omega), u16_eq (by omega)]
        simp only [fixRun]
        rw [this, ob_some, k1]
      · obtain ⟨y, k1, k2⟩ := ih (x - x / 2 ^ 7) (by omega) (by omega)
        refine ⟨y, ?_, k2⟩
        have : fixUpdate x true = some (x - x / 2 ^ 7) := by
          unfold fixUpdate
          simp only [if_true]
          rw [subU_eq (by omega)]
        simp only [fixRun]
        rw [this, ob_some, k1]
  intro bits
  obtain ⟨y, h1, h2, h3⟩ := key bits fixDefault (by decide) (by decide)
  refine ⟨y, h1, ?_, ?_⟩ <;> unfold fixPrediction wrapU32 <;> omega

/-- an accepted start that is not the default, and two bits -/
example : (fixNew 1000).bind (fun e => fixRun e [false, true]) = some 1493 := by decide +kernel

end Verif.Est
