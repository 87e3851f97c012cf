import Verif.Rust

/-!
# Model of the bit history trackers

`src/history/state/recent_bits.rs`, `src/history/state/bits_runs.rs`. Masks and shifts are written with
`/`, `%` and `*`.
-/

namespace Verif.State

open Verif

/-! ## `RecentBitsHistory`, `src/history/state/recent_bits.rs` -/

/-- `RecentBitsHistory::updated` (`recent_bits.rs:66-70`) -/
def recentUpdated (x : Nat) (b : Bool) : Option Nat := do
  let highestLeadingBit := x / 2 ^ 15 % 2 * 2 ^ 15
  let s ← u16 (x * 2 % 2 ^ 16 + b.toNat)
  let shifted := s % 2 ^ 16
  some (shifted ||| highestLeadingBit)

/-- `RecentBitsHistory::for_bit_run` (`recent_bits.rs:34-41`) -/
def recentForBitRun (b : Bool) (runLength : Nat) : Option Nat := do
  let rl := min runLength 15
  let bit := b.toNat
  let leading := 2 ^ rl
  let h ← subU (bit * 2 ^ rl) bit
  let h ← u16 (h + bit * 2 ^ rl)
  some (leading ||| h)

/-- `RecentBitsHistory::for_new_node` (`recent_bits.rs:43-45`) -/
def recentForNewNode (lastBit : Bool) (oppositeRun : Nat) : Option Nat := do
  let x ← recentForBitRun (!lastBit) oppositeRun
  recentUpdated x lastBit

/-- number of one bits in the binary representation, `u16::count_ones` (as used in `src/history/state/recent_bits.rs:54`) -/
def countOnes : Nat → Nat → Nat
  | 0, _ => 0
  | k + 1, x => x % 2 + countOnes k (x / 2)

/-- `RecentBitsHistory::histogram` (`recent_bits.rs:51-58`) -/
def recentHistogram (x : Nat) : Option Nat := do
  check (x ≠ 0)
  let lz := if x = 0 then 16 else 15 - Nat.log2 x
  let len ← subU 15 lz
  let ones ← subU (countOnes 16 x) 1
  let zeros ← subU len ones
  check (ones ≤ 15 ∧ zeros ≤ 15)
  some (wrapU8 (ones * 2 ^ 4) ||| zeros)

/-- `RecentBitsHistory::last_7_bits` (`recent_bits.rs:60-64`) -/
def recentLast7 (x : Nat) : Nat :=
  let capped := x % 128
  let leading := if x ≥ 128 then 128 else 0
  wrapU8 (leading ||| capped)

/-- feeding bits (repeated calls of `RecentBitsHistory::updated`, `src/history/state/recent_bits.rs:66-70`) -/
def recentRun : Nat → List Bool → Option Nat
  | x, [] => some x
  | x, b :: bs => do
    let x ← recentUpdated x b
    recentRun x bs

/-! ## `BitsRunsTracker`, `src/history/state/bits_runs.rs` -/

/-- `BitsRunsTracker::NEW` (`bits_runs.rs:24`) -/
def runsNew : Nat := 0

/-- `BitsRunsTracker::for_bit_run` (`bits_runs.rs:32-35`) -/
def runsForBitRun (b : Bool) (runLength : Nat) : Option Nat :=
  u32 (b.toNat + min runLength 1000 * 2)

/-- `BitsRunsTracker::is_single_bit_run` (`bits_runs.rs:41-43`) -/
def runsIsSingle (x : Nat) : Bool := x / 2 ≤ 1000

/-- `BitsRunsTracker::last_bit` (`bits_runs.rs:45-47`) -/
def runsLastBit (x : Nat) : Bool := x % 2 = 1

/-- `BitsRunsTracker::last_bit_run_length` (`bits_runs.rs:49-51`) -/
def runsLast (x : Nat) : Nat := wrapU16 (x / 2 % 1024)

/-- `BitsRunsTracker::opposite_bit_run_length` (`bits_runs.rs:53-55`) -/
def runsOpposite (x : Nat) : Nat := wrapU16 (x / 2 ^ 11 % 1024)

/-- `BitsRunsTracker::last_bit_previous_run_length` (`bits_runs.rs:57-59`) -/
def runsPrevious (x : Nat) : Nat := wrapU16 (x / 2 ^ 21 % 1024)

/-- `BitsRunsTracker::updated` (`bits_runs.rs:61-73`) -/
def runsUpdated (x : Nat) (b : Bool) : Option Nat :=
  if b = runsLastBit x then
    if runsLast x < 1000 then u32 (x + 2) else some x
  else
    some (((b.toNat ||| 2) ||| wrapU32 (runsLast x * 2 ^ 11)) ||| wrapU32 (runsOpposite x * 2 ^ 21))

/-- `BitsRunsTracker::for_new_node` (`bits_runs.rs:37-39`) -/
def runsForNewNode (lastBit : Bool) (oppositeRun : Nat) : Option Nat := do
  let x ← runsForBitRun (!lastBit) oppositeRun
  runsUpdated x lastBit

/-- feeding bits (repeated calls of `BitsRunsTracker::updated`, `src/history/state/bits_runs.rs:61-73`) -/
def runsRun : Nat → List Bool → Option Nat
  | x, [] => some x
  | x, b :: bs => do
    let x ← runsUpdated x b
    runsRun x bs

end Verif.State
