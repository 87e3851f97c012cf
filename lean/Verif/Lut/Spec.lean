import Verif.Lut.Model
import Mathlib.Algebra.Order.Group.Unbundled.Int

/-!
# Specification of the stretch and squash tables
-/

namespace Verif.Lut

/-- A segment of the interpolation grid of stretch below one half: probabilities with 31 bits; every octave from
`2^-8` up is cut into 512 equal segments, everything below `2^-8` into segments of `2^-17`. -/
def Segment (a s : Nat) : Prop :=
  s ∣ a ∧ ((s = 2 ^ 14 ∧ 2 ^ 14 ≤ a ∧ a < 2 ^ 23) ∨
    ∃ e, 23 ≤ e ∧ e < 30 ∧ s = 2 ^ (e - 9) ∧ 2 ^ e ≤ a ∧ a < 2 ^ (e + 1))

/-- `r` lies on the straight line from `(0, l)` to `(s, u)` at abscissa `d`, up to less than one unit. -/
def OnLine (l u : Int) (s d : Nat) (r : Int) : Prop :=
  |r * s - (l * (s - d) + u * d)| < s

/-- the largest value of stretch: `ln(2^17 - 1)` with 21 bits -/
def stretchLimit : Int := 24711779

/-- `r` is the best inverse image of `t` that a search over all probabilities can promise: an exact preimage, or
the better end of a gap of adjacent probabilities around `t`, or the end of the accurate range if `t` exceeds
every value of stretch. -/
def BestInverse (f : Nat → Option Int) (t : Int) (r : Nat) : Prop :=
  f r = some t ∨
  (∃ lo a b c, f lo = some a ∧ f (lo + 1) = some b ∧ a < t ∧ t < b ∧ (r = lo ∨ r = lo + 1) ∧ f r = some c ∧
    |c - t| ≤ t - a ∧ |c - t| ≤ b - t) ∨
  (r = 2 ^ 31 - 2 ^ 14 ∧ ∀ q, 0 < q → q < 2 ^ 31 → ∃ v, f q = some v ∧ v < t)

end Verif.Lut
