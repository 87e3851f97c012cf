import Verif.Random.Model
import Mathlib.Algebra.Order.Floor.Ring
import Mathlib.Data.Set.Card
import Mathlib.Data.Rat.Floor

/-! # The test values of the sigmoid benchmark, as a function of the random words -/

namespace Verif.Bin

/-- the low 32 bits of a word as a signed number -/
def signed (x : Nat) : Int := if x % 2 ^ 32 < 2 ^ 31 then (x % 2 ^ 32 : ℕ) else (x % 2 ^ 32 : ℕ) - 2 ^ 32

/-- the word gives a value, a multiple of `2^-27` up to 12 -/
def Accepted (x : Nat) : Prop := |(signed x : ℚ) / 2 ^ 27| ≤ 12

/-- the value, rounded down to a multiple of `2^-21`, in units of `2^-21` -/
def valueOf (x : Nat) : Int := ⌊(signed x : ℚ) / 2 ^ 27 * 2 ^ 21⌋

end Verif.Bin
