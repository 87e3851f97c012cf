import Verif.History.Model
import Verif.Tree.Model

/-!
# Model of `src/bin/print_histories.rs`

The printed text is modelled as data: for each byte its value and the eight lists of numbers of its bits. The index of the
byte is its position in the list, the index of the bit counts down from 7. An empty list stands for a line that is not
printed.
-/

namespace Verif.Bin

open Verif Verif.History

/-- `demixer::MAX_ORDER` (`src/lib.rs:34`) -/
def libMaxOrder : Nat := 63

/-- the number printed for a context state (`print_histories.rs:65-68`) -/
def printedState (s : CtxState) : Option Nat := do
  let r ← s.recentBits
  some (State.recentLast7 r)

/-- the loop over the bits of a byte (`print_histories.rs:61-77`). The check is the assertion of
`CollectedContextStates::push` (`src/history/mod.rs:184-187`). -/
def printBits {σ : Type} (src : Source σ) (x : Nat) : List Nat → σ → Option (List (List Nat) × σ)
  | [], s => some ([], s)
  | bitIndex :: rest, s => do
    let states ← src.gather s
    check (states.length ≤ libMaxOrder + 1)
    let line ← states.mapM printedState
    let s ← src.process s (Window.getBit x bitIndex) ((states.filter CtxState.isNode).map fun _ => costsDefault)
    let (lines, s) ← printBits src x rest s
    some (line :: lines, s)

/-- the loop over the bytes (`print_histories.rs:58-79`) -/
def printBytes {σ : Type} (src : Source σ) : List Nat → σ → Option (List (Nat × List (List Nat)))
  | [], _ => some []
  | x :: xs, s => do
    let s ← src.start s
    let (lines, s) ← printBits src x [7, 6, 5, 4, 3, 2, 1, 0] s
    let out ← printBytes src xs s
    some ((x, lines) :: out)

/-- `print_bit_histories` (`print_histories.rs:54-80`); `new` is the constructor of the source -/
def printHistories {σ : Type} (src : Source σ) (new : Nat → Nat → Option σ) (input : List Nat) :
    Option (List (Nat × List (List Nat))) := do
  let s ← new input.length libMaxOrder
  printBytes src (input.take 1234) s

/-- the three kinds of source that can be named on the command line (`print_histories.rs:42-51`) -/
inductive Kind where
  | bruteForce
  | fatMap
  | tree
  deriving DecidableEq

/-- `main` after reading the file (`print_histories.rs:41-51`). Any other name panics. -/
def printKind (hash : HashFn) (luts : Luts) (input : List Nat) : Kind → Option (List (Nat × List (List Nat)))
  | .bruteForce => printHistories (naiveSource luts) naiveNew input
  | .fatMap => printHistories (fatSource hash luts) fatNew input
  | .tree => printHistories (Tree.treeSource luts) (fun w o => Tree.srcNew w o 0) input

end Verif.Bin
