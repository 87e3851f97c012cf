import Verif.Mix.Apm
import Mathlib.Algebra.Order.Group.Unbundled.Int

/-! # What users of an adaptive probability map rely on -/

namespace Verif.Mix

open Verif Verif.Fixed Verif.Lut

/-- The two forms of an input belong together: one was computed from the other with the tables. With more than two
fractional index bits only the first direction is supported. -/
def Belongs (lut : List (List Int)) (table : List Nat) (fb sq : Nat) (st : Int) : Prop :=
  |st| ≤ 12 * 2 ^ 21 ∧ sq < 2 ^ 31 ∧ (squash table st = some sq ∨ (fb ≤ 2 ∧ stretch lut sq = some st))

/-- calls with inputs that belong together and without the fastest rate -/
def ApmEvent.Sane (lut : List (List Int)) (table : List Nat) (fb : Nat) : ApmEvent → Prop
  | .refine _ sq st => Belongs lut table fb sq st
  | .update _ _ rate _ => rate ≠ 1

/-- the calls alternate between refining and updating, with existing contexts and permitted rates -/
def ApmAllowed (contexts : Nat) : Bool → List ApmEvent → Prop
  | _, [] => True
  | pending, .refine c _ _ :: es => pending = false ∧ c < contexts ∧ ApmAllowed contexts true es
  | pending, .update c _ rate _ :: es =>
    pending = true ∧ c < contexts ∧ 0 < rate ∧ rate < 30 ∧ ApmAllowed contexts false es

/-- number of refinements in a history -/
def refineCount : List ApmEvent → Nat
  | [] => 0
  | .refine _ _ _ :: es => refineCount es + 1
  | .update _ _ _ _ :: es => refineCount es

/-- whether the history ends with a refinement that was not learned from yet -/
def endsPending : Bool → List ApmEvent → Bool
  | p, [] => p
  | _, .refine _ _ _ :: es => endsPending true es
  | _, .update _ _ _ _ :: es => endsPending false es

/-- the same call with every probability and bit complemented -/
def ApmEvent.flip : ApmEvent → ApmEvent
  | .refine c sq st => .refine c (2 ^ 31 - sq) (-st)
  | .update c bit rate fixed => .update c (!bit) rate fixed

/-- the input, limited to the range of squash, is not the value of squash at an interior multiple of `2^-fb` -/
def OffStops (table : List Nat) (fb sq : Nat) : Prop :=
  ∀ lo up v (i : Int), squash table (-(12 * 2 ^ 21)) = some lo → squash table (12 * 2 ^ 21) = some up →
    |i| < 12 * 2 ^ fb → squash table (i * 2 ^ (21 - fb)) = some v → v ≠ max (min sq up) lo

/-- calls that learn with fixed weights, from inputs that are not on a stop -/
def ApmEvent.Even (table : List Nat) (fb : Nat) : ApmEvent → Prop
  | .refine _ sq _ => OffStops table fb sq
  | .update _ _ _ fixed => fixed = true

end Verif.Mix
