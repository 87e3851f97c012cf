import Verif.Mix.LearnSpec

/-!
# What a map of probabilities pays compared with a list of probabilities

A list assigns a probability of a zero to some of the contexts.
-/

namespace Verif.Mix

/-- the probability of a bit when a zero has the probability `q` -/
noncomputable def chanceOf (q : ℝ) (bit : Bool) : ℝ := if bit then 1 - q else q

/-- the allowance for a bit: the ideal code length by the list, and a little more the less the bit was expected; a flat 33
bits where the list says nothing, or less than one in 32 -/
noncomputable def allowance (list : Nat → Option ℝ) (context : Nat) (bit : Bool) : ℝ :=
  match list context with
  | none => 33
  | some q =>
    if 1 / 32 ≤ chanceOf q bit then
      -Real.logb 2 (chanceOf q bit) + 8 / 5 * (1 - chanceOf q bit) * (1 + 1 / (64 * chanceOf q bit))
    else 33

/-- the number of contexts in the list -/
noncomputable def listCount (list : Nat → Option ℝ) (contexts : Nat) : Nat :=
  (List.range contexts).countP fun c => (list c).isSome

/-- the list contains probabilities only -/
def IsList (list : Nat → Option ℝ) : Prop := ∀ c q, list c = some q → 0 ≤ q ∧ q ≤ 1

end Verif.Mix
