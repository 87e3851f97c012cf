import Verif.Rust

/-!
# Model of the input window, `src/history/window.rs`

A window position is its raw `usize`. The buffer is the list of its bytes. The capacity of the vector is
not a field of the model: `Vec::with_capacity(n)` is taken to allocate exactly `n` bytes (which the code
itself asserts at `window.rs:60`), and a vector whose length stays within its capacity keeps it.
Shifts and masks are written with `/`, `%`, `*`.
-/

namespace Verif.Window

open Verif

/-- `InputWindow` (`window.rs:47-53`) -/
structure Win where
  buffer : List Nat
  start : Nat
  cursor : Nat
  size : Nat
  max : Nat
  deriving DecidableEq, Repr

/-- `InputWindow::new` (`window.rs:56-74`); resizing beyond the capacity reallocates, so the capacity
assertion of line 60 fails exactly when `initial_shift > max_window_size` -/
def winNew (maxSize shift : Nat) : Option Win := do
  check (maxSize > 0)
  check (shift ≤ maxSize)
  let cursor := if shift > 0 then shift - 1 else maxSize - 1
  some ⟨List.replicate shift 0, shift, cursor, 0, maxSize⟩

/-- `InputWindow::index_add` (`window.rs:131-138`) -/
def indexAdd (w : Win) (index toAdd : Nat) : Option Nat := do
  let result ← usize (index + toAdd)
  if result ≥ w.max then do
    check (w.buffer.length = w.max)
    some (result - w.max)
  else some result

/-- `InputWindow::index_increment` (`window.rs:140-142`) -/
def indexIncrement (w : Win) (index : Nat) : Option Nat := indexAdd w index 1

/-- `InputWindow::index_subtract` (`window.rs:144-154`) -/
def indexSubtract (w : Win) (index toSubtract : Nat) : Option Nat :=
  if index ≥ toSubtract then some (index - toSubtract)
  else do
    check (w.buffer.length = w.max)
    let r ← usize (index + w.max)
    subU r toSubtract

/-- `InputWindow::index_decrement` (`window.rs:156-158`) -/
def indexDecrement (w : Win) (index : Nat) : Option Nat := indexSubtract w index 1

/-- `InputWindow::index_diff` (`window.rs:160-163`) -/
def indexDiff (w : Win) (target source : Nat) : Option Nat := indexSubtract w target source

/-- the value compared by `index_is_smaller` (`window.rs:169-172`) -/
def ageKey (w : Win) (idx : Nat) : Option Nat :=
  if idx < w.start then usize (idx + w.max) else some idx

/-- `InputWindow::index_is_smaller` (`window.rs:165-174`) -/
def indexIsSmaller (w : Win) (idx1 idx2 : Nat) : Option Bool := do
  let fst ← ageKey w idx1
  let snd ← ageKey w idx2
  some (decide (fst < snd))

/-- `InputWindow::index_is_smaller_or_equal` (`window.rs:176-179`) -/
def indexIsSmallerOrEqual (w : Win) (idx1 idx2 : Nat) : Option Bool := do
  let r ← indexIsSmaller w idx2 idx1
  some (!r)

/-- `InputWindow::check_size_invariants` (`window.rs:118-129`) -/
def checkSize (w : Win) : Option Unit := do
  check (w.size ≤ w.max)
  if w.size > 1 then do
    let a ← indexAdd w w.start (w.size - 1)
    check (w.cursor = a)
    let d ← indexDiff w w.cursor w.start
    check (w.size - 1 = d)
  else if w.size = 1 then check (w.start = w.cursor)
  else check (w.size = 0)

/-- writing one byte of the buffer; out of bounds panics (the assignments in `src/history/window.rs:92-98`, `255-262`) -/
def bufSet (w : Win) (i byte : Nat) : Option Win := do
  check (i < w.buffer.length)
  some { w with buffer := w.buffer.set i byte }

/-- `InputWindow::set_byte_at_cursor` (`window.rs:260-262`) -/
def setByteAtCursor (w : Win) (byte : Nat) : Option Win := bufSet w w.cursor byte

/-- `InputWindow::set_bit_at_cursor` (`window.rs:255-258`); `byte & !(1 << i)` followed by
`| (bit << i)` on a `u8` -/
def setBitAtCursor (w : Win) (bit : Bool) (bitIndex : Nat) : Option Win := do
  let byte ← w.buffer[w.cursor]?
  check (bitIndex < 8)
  let cleared := byte &&& (255 - 2 ^ bitIndex)
  bufSet w w.cursor (cleared ||| wrapU8 (bit.toNat * 2 ^ bitIndex))

/-- `InputWindow::advance_start` (`window.rs:92-98`) -/
def advanceStart (w : Win) : Option Win := do
  check (w.size ≠ 0)
  let w ← bufSet w w.start 0
  let start ← indexIncrement w w.start
  let size ← subU w.size 1
  let w := { w with start := start, size := size }
  checkSize w
  some w

/-- `InputWindow::advance_cursor` (`window.rs:100-116`) -/
def advanceCursor (w : Win) : Option Win := do
  check (w.size < w.max)
  let w ←
    if w.buffer.length = w.max then do
      let cursor ← indexIncrement w w.cursor
      let w ← setByteAtCursor { w with cursor := cursor } 0
      check (w.buffer.length = w.max)
      some w
    else do
      check (w.buffer.length < w.max)
      let w := { w with buffer := w.buffer ++ [0] }
      let cursor ← usize (w.cursor + 1)
      let cursor := if cursor = w.max then 0 else cursor
      some { w with cursor := cursor }
  let size ← usize (w.size + 1)
  let w := { w with size := size }
  checkSize w
  some w

/-- `InputWindow::for_each_suffix` (`window.rs:181-193`): the visited positions -/
def forEachSuffix (w : Win) : Option (List Nat) := do
  let stop ← usize (w.cursor + 1)
  let range :=
    if w.size = 0 ∨ w.start ≤ w.cursor then (List.range stop).drop w.start
    else (List.range w.max).drop w.start ++ List.range stop
  check (range.length = w.size)
  some range

/-- `get_bit` (`window.rs:22-24`) -/
def getBit (byte bitIndex : Nat) : Bool := byte / 2 ^ bitIndex % 2 = 1

/-- `InputWindow::get_bit` (`window.rs:251-253`) -/
def winGetBit (w : Win) (byteIndex bitIndex : Nat) : Option Bool := do
  let byte ← w.buffer[byteIndex]?
  check (bitIndex < 8)
  some (getBit byte bitIndex)

/-- `InputWindow::bytes_differ_on` (`window.rs:244-249`) -/
def bytesDifferOn (w : Win) (first second bitIndex : Nat) : Option Bool := do
  let a ← w.buffer[first]?
  let b ← w.buffer[second]?
  check (bitIndex < 8)
  some (getBit (a ^^^ b) bitIndex)

/-- the byte loop of `compare_for_equal_prefix_straight` (`window.rs:228-232`); the loop runs over the
positions in increasing order and stops at the first difference -/
def straightBytes (w : Win) (i1 i2 : Nat) : Nat → Nat → Option Bool
  | 0, _ => some true
  | k + 1, position => do
    let a ← usize (i1 + position)
    let a ← w.buffer[a]?
    let b ← usize (i2 + position)
    let b ← w.buffer[b]?
    if a = b then straightBytes w i1 i2 k (position + 1) else some false

/-- the bit loop of `compare_for_equal_prefix_straight` (`window.rs:233-240`); `fuel` counts
`bit_position - bit_index` -/
def straightBits (w : Win) (i1 i2 : Nat) : Nat → Nat → Option Bool
  | 0, _ => some true
  | k + 1, bitPosition => do
    let d ← bytesDifferOn w i1 i2 bitPosition
    if d then some false
    else do
      let bp ← subU bitPosition 1
      straightBits w i1 i2 k bp

/-- `InputWindow::compare_for_equal_prefix_straight` (`window.rs:222-242`) -/
def compareStraight (w : Win) (i1 i2 bitIndex n : Nat) : Option Bool := do
  let equal ← straightBytes w i1 i2 n 0
  if equal then do
    if 7 > bitIndex then do
      let a ← usize (i1 + n)
      let b ← usize (i2 + n)
      straightBits w a b (7 - bitIndex) 7
    else some true
  else some false

/-- the byte loop of the wrapped branch of `compare_for_equal_prefix` (`window.rs:209-214`): result and
the two positions reached -/
def wrappedBytes (w : Win) : Nat → Nat → Nat → Option (Bool × Nat × Nat)
  | 0, i1, i2 => some (true, i1, i2)
  | k + 1, i1, i2 => do
    let a ← w.buffer[i1]?
    let b ← w.buffer[i2]?
    if a = b then do
      let i1 ← indexIncrement w i1
      let i2 ← indexIncrement w i2
      wrappedBytes w k i1 i2
    else some (false, i1, i2)

/-- `InputWindow::compare_for_equal_prefix` (`window.rs:195-220`) -/
def comparePrefix (w : Win) (i1 i2 bitIndex n : Nat) : Option Bool := do
  let m ← usize (max i1 i2 + n)
  if m < w.max then compareStraight w i1 i2 bitIndex n
  else do
    let (equal, j1, j2) ← wrappedBytes w n i1 i2
    let r ← compareStraight w j1 j2 bitIndex 0
    some (equal && r)

end Verif.Window
