/-!
# Specification: exact interval coding

An interval coder with unbounded integers: no bytes, no carries, no buffers.
After `k` byte shifts the current interval is `[low, low + range)` in units of `256^-k * 2^-31`.
-/

namespace Verif.Coding

/-- Interval `[low, low+range)` at scale `k`. -/
structure Iv where
  low : Nat
  range : Nat
  k : Nat
  deriving Repr, DecidableEq

/-- The interval before the first event. -/
def Iv.init : Iv := { low := 0, range := 2 ^ 31 - 1, k := 0 }

/-- Number of byte shifts needed to bring a positive range below `2^31` up to at least `2^23`. -/
def shifts (range : Nat) : Nat :=
  if 2 ^ 23 ≤ range then 0 else if 2 ^ 15 ≤ range then 1 else if 2 ^ 7 ≤ range then 2 else 3

/-- Change of scale. -/
def Iv.scale (iv : Iv) (s : Nat) : Iv :=
  { low := iv.low * 256 ^ s, range := iv.range * 256 ^ s, k := iv.k + s }

/-- Rescale so that `range ≥ 2^23`. -/
def Iv.norm (iv : Iv) : Iv := iv.scale (shifts iv.range)

/-- Size of the part of a normalised interval that belongs to bit 0 (to "not rare"). -/
def split (range p : Nat) : Nat := range * p / 2 ^ 23

/-- Keep the lower part of size `m`, or the rest. -/
def Iv.select (iv : Iv) (m : Nat) (upper : Bool) : Iv :=
  if upper then { iv with low := iv.low + m, range := iv.range - m } else { iv with range := m }

/-- Value of a big-endian byte string. -/
def val (bytes : List Nat) : Nat := bytes.foldl (fun a b => a * 256 + b) 0

end Verif.Coding
