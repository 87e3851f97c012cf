import Verif.Est.Model
import Verif.Log2.Model
import Verif.State.Model
import Verif.Window.Model

/-!
# Model of the context states and of the two table based history sources

`src/history/mod.rs`, `src/history/naive.rs`, `src/history/fat_map.rs`.
-/

namespace Verif.History

open Verif Verif.Window

/-- `CostTrackers` (`src/history/tree/node.rs:33-37`): stationary and non stationary cost tracker -/
abbrev Costs := Nat × Nat

/-- `CostTrackers::DEFAULT` (`node.rs:40-43`) -/
def costsDefault : Costs := (Log2.costInitial, Log2.costInitial)

/-- the tables used by the history sources (`src/lut/mod.rs`): estimator rates, estimator cache and cost
trackers for new nodes -/
structure Luts where
  rates : List Nat
  cache : List Nat
  costs : List Nat

/-- `ContextState` (`src/history/mod.rs:31-45`) -/
inductive CtxState
  | edge (dist count : Nat) (bit : Bool)
  | node (dist est recent runs : Nat) (costs : Costs)
  deriving DecidableEq, Repr

namespace CtxState

/-- `ContextState::is_for_node` (`mod.rs:51-56`) -/
def isNode : CtxState → Bool
  | edge .. => false
  | node .. => true

/-- `ContextState::last_occurrence_distance` (`mod.rs:69-76`) -/
def dist : CtxState → Nat
  | edge d _ _ => d
  | node d _ _ _ _ => d

/-- assignment of the distance field (`fat_map.rs:91-98`) -/
def setDist (d : Nat) : CtxState → CtxState
  | edge _ c b => edge d c b
  | node _ e r u c => node d e r u c

/-- `ContextState::neutralize_cost_trackers` (`mod.rs:105-111`) -/
def neutralize : CtxState → CtxState
  | edge d c b => edge d c b
  | node d e r u _ => node d e r u costsDefault

/-- `ContextState::occurrence_count` (`mod.rs:78-85`) -/
def occurrenceCount : CtxState → Nat
  | edge _ c _ => c
  | node _ e _ _ _ => Est.decCount e

/-- `ContextState::recent_bits` (`mod.rs:87-94`) -/
def recentBits : CtxState → Option Nat
  | edge _ c b => State.recentForBitRun b c
  | node _ _ r _ _ => some r

end CtxState

/-- `ContextState::starting_state` (`mod.rs:96-103`) -/
def startingState (d : Nat) (b : Bool) : CtxState := .edge d 1 b

/-- `ContextState::next_state` (`mod.rs:113-166`) -/
def nextState (luts : Luts) (s : CtxState) (d : Nat) (b : Bool) (costs : Option Costs) :
    Option CtxState :=
  match s with
  | .node _ e r u _ => do
    let c ← costs
    let e ← Est.decUpdate luts.rates e b
    let r ← State.recentUpdated r b
    let u ← State.runsUpdated u b
    some (.node d e r u c)
  | .edge _ count rep => do
    check (costs = none)
    if rep = b then do
      let c ← u16 (count + 1)
      some (.edge d (min 1000 c) rep)
    else do
      let e ← Est.cacheForNewNode luts.cache b count
      let r ← State.recentForNewNode b count
      let u ← State.runsForNewNode b count
      let t ← Log2.costForNewNode luts.costs count
      some (.node d e r u (t, t))

/-- conversion `i32 as usize` (`src/history/naive.rs:64`, `src/history/tree/mod.rs:83`) -/
def i32AsUsize (z : Int) : Nat := (z % 2 ^ 64).toNat

/-! ## `NaiveHistorySource`, `src/history/naive.rs` -/

/-- `NaiveHistorySource` (`naive.rs:26-31`) -/
structure Naive where
  input : Win
  bitIndex : Int
  maxOrder : Nat

/-- `NaiveHistorySource::new` (`naive.rs:34-42`) -/
def naiveNew (maxWindow maxOrder : Nat) : Option Naive := do
  let w ← winNew maxWindow 0
  some ⟨w, -1, maxOrder⟩

/-- `NaiveHistorySource::start_new_byte` (`naive.rs:44-50`) -/
def naiveStart (s : Naive) : Option Naive := do
  check (s.bitIndex = -1)
  check (s.input.size ≠ s.input.max)
  let w ← advanceCursor s.input
  some { s with input := w, bitIndex := 7 }

/-- body of the scanning loop (`naive.rs:58-86`) for one scanned position; the state so far is an
`Option` as in the source -/
def naiveScanOne (luts : Luts) (s : Naive) (order : Nat) (last : Option CtxState) (scanned : Nat) :
    Option (Option CtxState) := do
  let current ← indexSubtract s.input s.input.cursor order
  let equal ← comparePrefix s.input scanned current (i32AsUsize s.bitIndex) order
  if equal then do
    let i ← indexAdd s.input scanned order
    let b ← winGetBit s.input i (i32AsUsize s.bitIndex)
    let d ← indexDiff s.input current scanned
    match last with
    | some ctx => do
      let ctx ← nextState luts ctx d b (if ctx.isNode then some costsDefault else none)
      some (some ctx)
    | none => some (some (startingState d b))
  else some last

/-- the scanning loop (`naive.rs:58-86`) over a list of positions -/
def naiveScan (luts : Luts) (s : Naive) (order : Nat) : List Nat → Option CtxState →
    Option (Option CtxState)
  | [], last => some last
  | i :: is, last => do
    let last ← naiveScanOne luts s order last i
    naiveScan luts s order is last

/-- the loop over the orders (`naive.rs:54-92`) -/
def naiveOrders (luts : Luts) (s : Naive) : List Nat → Option (List CtxState)
  | [] => some []
  | order :: orders => do
    let stop ← indexSubtract s.input s.input.cursor order
    let last ← naiveScan luts s order (List.range stop) none
    match last with
    | some ctx => do
      let rest ← naiveOrders luts s orders
      some (ctx :: rest)
    | none => some []

/-- `NaiveHistorySource::gather_history_states` (`naive.rs:52-93`), started on an empty collection -/
def naiveGather (luts : Luts) (s : Naive) : Option (List CtxState) :=
  naiveOrders luts s (List.range (s.maxOrder + 1))

/-- `NaiveHistorySource::process_input_bit` (`naive.rs:95-101`) -/
def naiveProcess (s : Naive) (b : Bool) (costs : List Costs) : Option Naive := do
  check (∀ c ∈ costs, c = costsDefault)
  let w ← setBitAtCursor s.input b (i32AsUsize s.bitIndex)
  some { s with input := w, bitIndex := s.bitIndex - 1 }

/-! ## `FatMapHistorySource`, `src/history/fat_map.rs` -/

/-- the hash function of a map: index of the map, the bytes written, the final 16 bit word written. The
standard library hasher is seeded randomly; the model leaves it completely arbitrary (`FatMapHistorySource::compute_hash`, `src/history/fat_map.rs:41-52`). -/
abbrev HashFn := Nat → List Nat → Nat → Nat

/-- `FatMapHistorySource` (`fat_map.rs:31-38`). A hash map is a function from hashes to buckets; a missing
entry and an empty bucket are the same, as they are for every use in the source. -/
structure Fat where
  input : Win
  bitIndex : Nat
  maxOrder : Nat
  maps : Nat → Nat → List CtxState

/-- `FatMapHistorySource::new` (`fat_map.rs:56-65`) -/
def fatNew (maxWindow maxOrder : Nat) : Option Fat := do
  let w ← winNew maxWindow 0
  some ⟨w, 7, maxOrder, fun _ _ => []⟩

/-- `FatMapHistorySource::start_new_byte` (`fat_map.rs:67-72`) -/
def fatStart (s : Fat) : Option Fat := do
  check (s.bitIndex = 7)
  check (s.input.size ≠ s.input.max)
  let w ← advanceCursor s.input
  some { s with input := w }

/-- indexing `self.maps` (`fat_map.rs:43`, `77`, `110`) -/
def fatMapIndex (s : Fat) (order : Nat) : Option Nat := do
  check (order * 8 + s.bitIndex < (s.maxOrder + 1) * 8)
  some (order * 8 + s.bitIndex)

/-- the bytes hashed, in the order written (`fat_map.rs:45-50`); the argument is the distance, counting
down -/
def fatHashBytes (w : Win) : Nat → Option (List Nat)
  | 0 => some []
  | d + 1 => do
    let i ← indexSubtract w w.cursor (d + 1)
    let x ← w.buffer[i]?
    let rest ← fatHashBytes w d
    some (x :: rest)

/-- `FatMapHistorySource::compute_hash` (`fat_map.rs:41-52`) -/
def fatHash (hash : HashFn) (s : Fat) (order : Nat) : Option Nat := do
  let m ← fatMapIndex s order
  let bytes ← fatHashBytes s.input order
  let x ← s.input.buffer[s.input.cursor]?
  let y ← u16 (256 + x)
  check (s.bitIndex + 1 < 16)
  some (hash m bytes (y / 2 ^ (s.bitIndex + 1)))

/-- the `find` of `fat_map.rs:80-86` and `116-122`: splits the bucket at the first item with an equal
prefix. `swap` gives the argument order of the two call sites, which is the same. -/
def fatFind (w : Win) (current bitIndex order : Nat) : List CtxState →
    Option (Option (List CtxState × CtxState × List CtxState))
  | [] => some none
  | item :: rest => do
    let equal ← comparePrefix w current item.dist bitIndex order
    if equal then some (some ([], item, rest))
    else do
      let r ← fatFind w current bitIndex order rest
      match r with
      | some (pre, x, post) => some (some (item :: pre, x, post))
      | none => some none

/-- the loop of `gather_history_states` (`fat_map.rs:76-103`) -/
def fatOrders (hash : HashFn) (s : Fat) : List Nat → Option (List CtxState)
  | [] => some []
  | order :: orders => do
    let m ← fatMapIndex s order
    let h ← fatHash hash s order
    let current ← indexSubtract s.input s.input.cursor order
    let found ← fatFind s.input current s.bitIndex order (s.maps m h)
    match found with
    | some (_, ctx, _) => do
      let d ← subU s.input.cursor order
      let d ← subU d ctx.dist
      let rest ← fatOrders hash s orders
      some (ctx.setDist d :: rest)
    | none => some []

/-- `FatMapHistorySource::gather_history_states` (`fat_map.rs:74-104`) -/
def fatGather (hash : HashFn) (s : Fat) : Option (List CtxState) :=
  fatOrders hash s (List.range (min s.maxOrder s.input.cursor + 1))

/-- cost trackers passed to an item (`fat_map.rs:124-131`) -/
def fatCosts (ctx : CtxState) (order : Nat) (costs : List Costs) : Option (Option Costs) :=
  if ctx.isNode then do
    let c ← costs[order]?
    some (some c)
  else do
    check (order ≥ costs.length)
    some none

/-- writing one bucket (the entries of `src/history/fat_map.rs:108-141`) -/
def setBucket (maps : Nat → Nat → List CtxState) (m h : Nat) (v : List CtxState) :
    Nat → Nat → List CtxState :=
  fun m' h' => if m' = m ∧ h' = h then v else maps m' h'

/-- one order of `process_input_bit` (`fat_map.rs:108-141`) -/
def fatProcessOne (hash : HashFn) (luts : Luts) (b : Bool) (costs : List Costs) (s : Fat) (order : Nat) :
    Option Fat := do
  let h ← fatHash hash s order
  let m ← fatMapIndex s order
  let byteIndex ← indexSubtract s.input s.input.cursor order
  let found ← fatFind s.input byteIndex s.bitIndex order (s.maps m h)
  match found with
  | some (pre, ctx, post) => do
    let c ← fatCosts ctx order costs
    let ctx ← nextState luts ctx byteIndex b c
    some { s with maps := setBucket s.maps m h (pre ++ ctx :: post) }
  | none => do
    check (order ≥ costs.length)
    some { s with maps := setBucket s.maps m h (s.maps m h ++ [startingState byteIndex b]) }

/-- the loop over the orders (`fat_map.rs:108-141`) -/
def fatProcessOrders (hash : HashFn) (luts : Luts) (b : Bool) (costs : List Costs) :
    List Nat → Fat → Option Fat
  | [], s => some s
  | order :: orders, s => do
    let s ← fatProcessOne hash luts b costs s order
    fatProcessOrders hash luts b costs orders s

/-- `FatMapHistorySource::process_input_bit` (`fat_map.rs:106-148`) -/
def fatProcess (hash : HashFn) (luts : Luts) (s : Fat) (b : Bool) (costs : List Costs) : Option Fat := do
  let s ← fatProcessOrders hash luts b costs (List.range (min s.maxOrder s.input.cursor + 1)) s
  let w ← setBitAtCursor s.input b s.bitIndex
  some { s with input := w, bitIndex := if s.bitIndex > 0 then s.bitIndex - 1 else 7 }

/-! ## The interface, `HistorySource` (`src/history/mod.rs:194-205`) -/

/-- the three methods of a history source (`src/history/mod.rs:194-205`) -/
structure Source (σ : Type) where
  start : σ → Option σ
  gather : σ → Option (List CtxState)
  process : σ → Bool → List Costs → Option σ

/-- the reference implementation as a history source (`src/history/naive.rs:33-102`) -/
def naiveSource (luts : Luts) : Source Naive := ⟨naiveStart, naiveGather luts, naiveProcess⟩

/-- the hash map implementation as a history source (`src/history/fat_map.rs:55-149`) -/
def fatSource (hash : HashFn) (luts : Luts) : Source Fat :=
  ⟨fatStart, fatGather hash, fatProcess hash luts⟩

/-- the call protocol of the predictor (`src/predictor/mod.rs`): a new byte is started before its first
bit -/
def ready {σ : Type} (src : Source σ) (n : Nat) (s : σ) : Option σ :=
  if n % 8 = 0 then src.start s else some s

/-- feeding bits through the trait `HistorySource` (`src/history/mod.rs:194-205`): before each bit the states are gathered, and the new cost trackers, computed by `upd`
from the states and the bit, are passed on. `n` is the number of bits already fed. -/
def feed {σ : Type} (src : Source σ) (upd : List CtxState → Bool → List Costs) :
    Nat → σ → List Bool → Option σ
  | _, s, [] => some s
  | n, s, b :: bits => do
    let s ← ready src n s
    let states ← src.gather s
    let s ← src.process s b (upd states b)
    feed src upd (n + 1) s bits

/-- the states gathered after feeding the bits of `hist` to a new source (the calls of `src/predictor/mod.rs:61-105`) -/
def observe {σ : Type} (src : Source σ) (upd : List CtxState → Bool → List Costs) (new : Option σ)
    (hist : List Bool) : Option (List CtxState) := do
  let s ← new
  let s ← feed src upd 0 s hist
  let s ← ready src hist.length s
  src.gather s

end Verif.History
