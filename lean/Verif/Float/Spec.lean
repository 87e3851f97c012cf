import Mathlib.Data.Rat.Floor
import Verif.Random.Model

/-! # Floating point numbers -/

namespace Verif.Float

/-- the numbers with `prec` significant bits and smallest exponent `emin` -/
def Fits (prec : ℕ) (emin : ℤ) (q : ℚ) : Prop := ∃ m k : ℤ, |m| < 2 ^ prec ∧ emin ≤ k ∧ q = m * 2 ^ k

/-- a finite `f64` -/
def IsF64 (q : ℚ) : Prop := Fits 53 (-1074) q ∧ |q| < 2 ^ 1024

/-- a finite `f32` -/
def IsF32 (q : ℚ) : Prop := Fits 24 (-149) q ∧ |q| < 2 ^ 128

/-- one of the `f64` nearest to a number -/
def NearestF64 (x r : ℚ) : Prop := IsF64 r ∧ ∀ y, IsF64 y → |r - x| ≤ |y - x|

/-- one of the `f32` nearest to a number -/
def NearestF32 (x r : ℚ) : Prop := IsF32 r ∧ ∀ y, IsF32 y → |r - x| ≤ |y - x|

/-- a generator made from a seed, after any number of calls -/
inductive Reached : Random.Twister → Prop
  | scalar {seed t} : seed < 2 ^ 64 → Random.newByScalarSeed seed = some t → Reached t
  | vector {key t} : Random.newByVectorSeed key = some t → Reached t
  | next {t x t'} : Reached t → Random.nextInt64 t = some (x, t') → Reached t'

end Verif.Float
