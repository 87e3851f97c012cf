import Verif.Lut.RealSpec

/-!
# What a sequence of predictions costs

Probabilities are those of a zero bit. Costs are in nats: a bit of probability `p` costs `-ln p`.
-/

namespace Verif.Mix

open Verif.Lut

/-- the cost of a bit when a zero has probability `p` -/
noncomputable def bitCost (bit : Bool) (p : ℝ) : ℝ := -Real.log (if bit then 1 - p else p)

/-- the probability the prediction `p` gave to the other bit -/
noncomputable def missed (bit : Bool) (p : ℝ) : ℝ := if bit then p else 1 - p

/-- inner product -/
def dot (a b : List ℝ) : ℝ := (List.zipWith (fun x y => x * y) a b).sum

/-- squared distance -/
def sqDist (a b : List ℝ) : ℝ := (List.zipWith (fun x y => (x - y) ^ 2) a b).sum

/-- squared length -/
def sqNorm (a : List ℝ) : ℝ := (a.map fun x => x ^ 2).sum

/-- what fixed weights pay for a bit: they predict the logistic function of the weighted sum of the inputs -/
noncomputable def fixedCost (weights inputs : List ℝ) (bit : Bool) : ℝ := bitCost bit (logistic (dot weights inputs))

/-- the price of moving the weights: for every round the squared length of the inputs times the squared error, divided
by four times the denominator of the learning rate. The denominator grows from `k + 2` by one per round, up to
`limit + 2`. -/
noncomputable def movePrice (limit : Nat) : Nat → List (List ℝ × ℝ) → ℝ
  | _, [] => 0
  | k, (inputs, error) :: rest =>
    error ^ 2 * sqNorm inputs / (4 * (k + 2)) + movePrice limit (min limit (k + 1)) rest

end Verif.Mix
