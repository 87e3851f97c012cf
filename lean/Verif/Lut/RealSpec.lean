import Mathlib.Analysis.SpecialFunctions.Log.Basic
import Mathlib.Analysis.SpecialFunctions.Exp

/-!
# The real functions stretch and squash stand for
-/

namespace Verif.Lut

/-- logit: natural logarithm of the odds of a probability -/
noncomputable def logit (p : ℝ) : ℝ := Real.log (p / (1 - p))

/-- logistic function, the inverse of logit -/
noncomputable def logistic (x : ℝ) : ℝ := 1 / (1 + Real.exp (-x))

end Verif.Lut
