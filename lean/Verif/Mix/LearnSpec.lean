import Verif.Mix.ApmSpec
import Mathlib.Analysis.SpecialFunctions.Log.Base

/-!
# What a map of probabilities pays compared with a list of guesses

A guess assigns a bit to some of the contexts.
-/

namespace Verif.Mix

/-- one round: a probability is refined in a context, then the bit is learned in the same context -/
structure LearnRound where
  context : Nat
  /-- the probability to be refined -/
  sq : Nat
  /-- the same probability, stretched -/
  st : Int
  bit : Bool
  /-- whether both entries learn with half of the rate, or with their weights in the interpolation -/
  fixed : Bool

/-- the calls of a round -/
def LearnRound.calls (rate : Nat) (r : LearnRound) : List ApmEvent :=
  [.refine r.context r.sq r.st, .update r.context r.bit rate r.fixed]

/-- the ideal code length in bits of a bit when a zero has the probability `p / 2^31` -/
noncomputable def bitLength (p : Nat) (bit : Bool) : ℝ :=
  -Real.logb 2 (if bit then 1 - (p : ℝ) / 2 ^ 31 else (p : ℝ) / 2 ^ 31)

/-- the number of contexts with a guess -/
def guessCount (guess : Nat → Option Bool) (contexts : Nat) : Nat :=
  (List.range contexts).countP fun c => (guess c).isSome

/-- the number of rounds for which there was no guess or a wrong one -/
def missCount (guess : Nat → Option Bool) (rounds : List LearnRound) : Nat :=
  rounds.countP fun r => guess r.context ≠ some r.bit

end Verif.Mix
