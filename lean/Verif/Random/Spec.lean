import Verif.Rust

/-! # The published MT19937-64 generator, independent of arrays and indices -/

namespace Verif.Random

/-- the linear recurrence over a sequence of words -/
def Recurrence (x : Nat → Nat) : Prop :=
  ∀ k, x (k + 312) =
    let y := x k / 2 ^ 31 * 2 ^ 31 + x (k + 1) % 2 ^ 31
    x (k + 156) ^^^ (y / 2) ^^^ (if y % 2 = 1 then 0xB5026F5AA96619E9 else 0)

/-- the linear congruential initialisation from one word -/
def ScalarSeed (seed : Nat) (x : Nat → Nat) : Prop :=
  x 0 = seed ∧ ∀ k, k < 311 → x (k + 1) = (6364136223846793005 * (x k ^^^ (x k / 2 ^ 62)) + (k + 1)) % 2 ^ 64

/-- The initialisation from a key as one sequence of values `u`, where value `t` lands in word `1 + t % 311`. The first
`max 312 n` values absorb the key of length `n`, the next 311 values mix once more. `x` is the scalar
initialisation. -/
def VectorSeed (key : List Nat) (x u : Nat → Nat) : Prop :=
  ∀ t, t < max 312 key.length + 311 →
    let old := if t < 311 then x (t + 1) else u (t - 311)
    let prev := if t = 0 then x 0 else u (t - 1)
    let h := prev ^^^ (prev / 2 ^ 62)
    if t < max 312 key.length then
      u t = ((old ^^^ (h * 3935559000370003845 % 2 ^ 64)) + key.getD (t % key.length) 0 + t % key.length) % 2 ^ 64
    else u t = ((old ^^^ (h * 2862933555777941757 % 2 ^ 64)) + (2 ^ 64 - (1 + t % 311))) % 2 ^ 64

/-- the published tempering of a word -/
def tempered (x : Nat) : Nat :=
  let a := x ^^^ (x / 2 ^ 29 &&& 0x5555555555555555)
  let b := a ^^^ (a * 2 ^ 17 % 2 ^ 64 &&& 0x71D67FFFEDA60000)
  let c := b ^^^ (b * 2 ^ 37 % 2 ^ 64 &&& 0xFFF7EEE000000000)
  c ^^^ (c / 2 ^ 43)

end Verif.Random
