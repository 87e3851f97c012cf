import Verif.Pred.CodingProps
import Verif.Mix.LearnSpec

/-!
# What compressing costs compared with lists of guesses

The last stage of the predictor refines a probability in three contexts: the bits of the unfinished byte together with
the last byte, the last two and the last three bytes. Each of them is given by a number below 65536. A list of guesses
names a bit for some of these numbers.
-/

namespace Verif.Pred

open Verif.Util Verif.Bits

/-- the number of the context of order 1, 2 or 3 -/
def contextHash (order : Nat) (before : List (List Bool)) (part : List Bool) : Nat :=
  if order = 1 then 2 ^ (8 + part.length) + (prevByte 1 before * 2 ^ part.length + val part)
  else if order = 2 then fnvSpec [prevByte 2 before, prevByte 1 before, enc part]
  else fnvSpec [prevByte 3 before, prevByte 2 before, prevByte 1 before, enc part]

/-- the number of the context of the bit with index `i` -/
def contextOf (order : Nat) (bytes : List (List Bool)) (i : Nat) : Nat :=
  contextHash order (bytes.take (i / 8)) ((bytes.getD (i / 8) []).take (i % 8))

/-- the number of bits without a guess or with a wrong one -/
def unguessed (order : Nat) (guess : Nat → Option Bool) (bytes : List (List Bool)) : Nat :=
  (List.range (8 * bytes.length)).countP fun i => guess (contextOf order bytes i) ≠ some (bytes.flatten.getD i false)

/-- the number of different contexts of a file -/
def contextsSeen (order : Nat) (bytes : List (List Bool)) : Nat :=
  ((List.range (8 * bytes.length)).map (contextOf order bytes)).dedup.length

/-- the same context is never followed by different bits -/
def Determined (order : Nat) (bytes : List (List Bool)) : Prop :=
  ∀ i j, i < 8 * bytes.length → j < 8 * bytes.length → contextOf order bytes i = contextOf order bytes j →
    bytes.flatten.getD i false = bytes.flatten.getD j false

end Verif.Pred
