import Verif.Mix.Mixer

/-!
# Specification of the mixer interface

`Allowed n S idx es` is the protocol: `S` are the inputs set since the last update, `idx` the number of updates so
far (saturated by the limits given). It mentions no operation of the model.
-/

namespace Verif.Mix

/-- the value ranges of the argument types: `FractOnlyU32` and `StretchedProbD`; the squashed prediction passed to an
update is a probability strictly inside (0, 1) -/
def Typed : Event → Prop
  | .set _ sq st => sq < 2 ^ 31 ∧ -(12 * 2 ^ 21) ≤ st ∧ st ≤ 12 * 2 ^ 21
  | .update _ sq _ => 0 < sq ∧ sq < 2 ^ 31
  | _ => True

/-- is the call sequence allowed for a mixer of `n` inputs -/
def Allowed (n : Nat) : List Nat → Nat → List Event → Prop
  | _, _, [] => True
  | S, idx, .set i _ _ :: es => i < n ∧ i ∉ S ∧ Allowed n (i :: S) idx es
  | S, idx, .readSq i :: es => i ∈ S ∧ Allowed n S idx es
  | S, idx, .readSt i :: es => i ∈ S ∧ Allowed n S idx es
  | S, idx, .mix :: es => (∀ i, i < n → i ∈ S) ∧ Allowed n S idx es
  | S, idx, .update _ _ limit :: es =>
    (∀ i, i < n → i ∈ S) ∧ idx ≤ limit ∧ limit ≤ 1000 ∧ Allowed n [] (min limit (idx + 1)) es

/-- the same call with every probability and bit complemented -/
def Event.flip : Event → Event
  | .set i sq st => .set i (2 ^ 31 - sq) (-st)
  | .update bit sq limit => .update (!bit) (2 ^ 31 - sq) limit
  | .readSq i => .readSq i
  | .readSt i => .readSt i
  | .mix => .mix

/-- the same answer with every probability complemented -/
def Out.flip : Out → Out
  | .nothing => .nothing
  | .sq v => .sq (2 ^ 31 - v)
  | .st v => .st (-v)
  | .both p x => .both (2 ^ 31 - p) (-x)

/-- an answer in range: a mixed probability is strictly inside (0, 1) and its stretched form within ±12 -/
def Out.InRange : Out → Prop
  | .nothing => True
  | .sq v => v < 2 ^ 31
  | .st v => -(12 * 2 ^ 21) ≤ v ∧ v ≤ 12 * 2 ^ 21
  | .both p x => 0 < p ∧ p < 2 ^ 31 ∧ -(12 * 2 ^ 21) ≤ x ∧ x ≤ 12 * 2 ^ 21

/-- `m` was made by a constructor: `Mixer1::new` … `Mixer5::new` or `MixerN::new` -/
def New (n idx : Nat) (mode : Init) (m : Mixer) : Prop :=
  (1 ≤ n ∧ n ≤ 5 ∧ fixedNew n idx mode = some m) ∨ mixerNNew n idx mode = some m

/-- `m` is the state of a mixer of `n` inputs after some history of well typed calls -/
def Reachable (table rates : List Nat) (n : Nat) (m : Mixer) : Prop :=
  ∃ idx mode m0 es os, New n idx mode m0 ∧ (∀ e ∈ es, Typed e) ∧ calls table rates m0 es = some (os, m)

/-- a number limited to `[-k, k]` -/
def limited (k z : Int) : Int := if z < -k then -k else if k < z then k else z

end Verif.Mix
