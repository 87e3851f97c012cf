import Verif.Pred.LearnSpec
import Verif.Mix.ProbSpec
import Mathlib.Algebra.BigOperators.Ring.Finset

/-!
# What compressing costs compared with lists of probabilities

A list names the probability of a zero for some of the contexts of order 1, 2 or 3.
-/

namespace Verif.Pred

open Verif.Mix

/-- the allowances for all bits of a file -/
noncomputable def fileAllowance (order : Nat) (list : Nat → Option ℝ) (bytes : List (List Bool)) : ℝ :=
  ∑ i ∈ Finset.range (8 * bytes.length), allowance list (contextOf order bytes i) (bytes.flatten.getD i false)

/-- the ideal code length of a file by a list -/
noncomputable def fileIdeal (order : Nat) (q : Nat → ℝ) (bytes : List (List Bool)) : ℝ :=
  ∑ i ∈ Finset.range (8 * bytes.length), -Real.logb 2 (chanceOf (q (contextOf order bytes i)) (bytes.flatten.getD i false))

/-- no bit of the file surprises the list: each had at least one chance in 32 -/
def Expected (order : Nat) (q : Nat → ℝ) (bytes : List (List Bool)) : Prop :=
  ∀ i, i < 8 * bytes.length → 1 / 32 ≤ chanceOf (q (contextOf order bytes i)) (bytes.flatten.getD i false)

end Verif.Pred
