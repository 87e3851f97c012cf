import Verif.Window.Model

/-!
# Specification of the input window: a bounded queue of bytes
-/

namespace Verif.Window

/-- operations -/
inductive Op
  | advanceCursor
  | advanceStart
  | setByte (v : Nat)
  | setBit (b : Bool) (i : Nat)
  deriving DecidableEq, Repr

/-- replacing bit `i` of a byte -/
def replaceBit (x : Nat) (b : Bool) (i : Nat) : Nat :=
  x / 2 ^ (i + 1) * 2 ^ (i + 1) + b.toNat * 2 ^ i + x % 2 ^ i

/-- replacing the last element of a queue -/
def setLast (q : List Nat) (f : Nat → Nat) : Option (List Nat) :=
  match q.getLast? with
  | none => none
  | some x => some (q.dropLast ++ [f x])

/-- a queue of at most `m` bytes: new bytes enter at the back as zero, bytes leave at the front, the byte
at the back can be overwritten -/
def specStep (m : Nat) (q : List Nat) : Op → Option (List Nat)
  | .advanceCursor => if q.length < m then some (q ++ [0]) else none
  | .advanceStart => if q = [] then none else some q.tail
  | .setByte v => if v < 256 then setLast q (fun _ => v) else none
  | .setBit b i => if i < 8 then setLast q (fun x => replaceBit x b i) else none

/-- a sequence of queue operations -/
def specRun (m : Nat) : List Nat → List Op → Option (List Nat)
  | q, [] => some q
  | q, o :: os => do
    let q ← specStep m q o
    specRun m q os

/-- the corresponding window operation -/
def step (w : Win) : Op → Option Win
  | .advanceCursor => advanceCursor w
  | .advanceStart => advanceStart w
  | .setByte v => setByteAtCursor w v
  | .setBit b i => setBitAtCursor w b i

/-- a sequence of window operations -/
def run : Win → List Op → Option Win
  | w, [] => some w
  | w, o :: os => do
    let w ← step w o
    run w os

/-- the position holding the `a`-th oldest byte -/
def posOf (w : Win) (a : Nat) : Nat := (w.start + a) % w.max

/-- the bytes of the window, oldest first -/
def contents (w : Win) : List Nat :=
  (List.range w.size).map (fun a => w.buffer.getD (posOf w a) 0)

end Verif.Window
