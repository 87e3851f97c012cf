import Verif.Mix.Mixer
import Verif.Mix.Apm
import Verif.Util.Model
import Verif.Tree.Model

/-!
# Model of the predictor

`src/lut/mod.rs`, `src/predictor/{kits,single,chain,post_process,stats,mod}.rs`. A probability is the pair of the raw
`FractOnlyU32` (squashed) and the raw `StretchedProbD` (stretched). Printing is left out, except for the table accesses
of `print_costs_and_occurrences_by_context_type`.
-/

namespace Verif.Pred

open Verif Verif.Fixed Verif.Lut Verif.Mix Verif.Util Verif.History Verif.Tree

/-! ## `LookUpTables`, `src/lut/mod.rs` -/

/-- `LookUpTables` (`src/lut/mod.rs:35-45`) -/
structure Tables where
  log2 : List Nat
  rates : List Nat
  cache : List Nat
  direct : List (Nat × Int)
  costs : List Nat
  stretch : List (List Int)
  squash : List Nat
  apm : List ApmLut

/-- `LookUpTables::new` (`src/lut/mod.rs:50-76`) -/
def tablesNew : Option Tables := do
  let log2 ← Log2.log2LutNew
  let rates ← Est.ratesDefault
  let cache ← Est.cacheNew rates
  let costs ← Log2.costLutNew log2 rates
  let stretch ← stretchLutNew
  let squash ← squashLutNew stretch
  let direct ← Est.predictionsNew (Lut.stretch stretch) rates
  let apm0 ← apmLutNew 0 squash
  let apm1 ← apmLutNew 1 squash
  let apm2 ← apmLutNew 2 squash
  some ⟨log2, rates, cache, direct, costs, stretch, squash, [apm0, apm1, apm2]⟩

/-- `LookUpTables::apm_lut` (`src/lut/mod.rs:106-110`) -/
def apmLut (t : Tables) (bits : Nat) : Option ApmLut := do
  check (bits ≤ 2)
  t.apm[bits]?

/-- the tables a history source uses (`src/lut/mod.rs:35-45`) -/
def Tables.luts (t : Tables) : Luts := ⟨t.rates, t.cache, t.costs⟩

/-- squashed and stretched form of a probability (the pairs in `src/predictor/kits.rs`) -/
abbrev Prob := Nat × Int

/-! ## `src/predictor/kits.rs` -/

/-- `EstimatorsWithIndexer` (`kits.rs:27-31`) -/
structure EstKit where
  ests : List Nat
  idx : Idx
  index : Option Nat

/-- `EstimatorsWithIndexer::new` (`kits.rs:34-41`) -/
def estKitNew (idx : Idx) : Option EstKit := do
  let e ← Est.decNew
  let n ← idxSize idx
  some ⟨List.replicate n e, idx, none⟩

/-- `EstimatorsWithIndexer::predict` (`kits.rs:43-54`); the closure is the list of sub-indices it passes -/
def estKitPredict (t : Tables) (k : EstKit) (subs : List Nat) : Option (Prob × EstKit) := do
  check (k.index = none)
  let (i, idx) ← idxQuery k.idx subs
  let e ← k.ests[i]?
  let sq := Est.decPrediction e
  let st ← stretch t.stretch sq
  some ((sq, st), { k with idx := idx, index := some i })

/-- `EstimatorsWithIndexer::update` (`kits.rs:56-60`) -/
def estKitUpdate (t : Tables) (k : EstKit) (bit : Bool) : Option EstKit := do
  let i ← k.index
  let e ← k.ests[i]?
  let e ← Est.decUpdate t.rates e bit
  some { k with ests := k.ests.set i e, index := none }

/-- `MixersWithIndexer` (`kits.rs:63-68`) -/
structure MixKit where
  mixers : List Mixer
  idx : Idx
  index : Option Nat
  result : Option Prob

/-- `MixersWithIndexer::new` (`kits.rs:71-81`). The loop runs to `mixers.capacity()`, which is assumed to be the
requested capacity. All mixers are made by the same pure call. -/
def mixKitNew (mixer : Option Mixer) (idx : Idx) : Option MixKit := do
  let n ← idxSize idx
  let m ← mixer
  some ⟨List.replicate n m, idx, none, none⟩

/-- `MixersWithIndexer::pre_predict` (`kits.rs:83-88`) -/
def mixKitPre (k : MixKit) (subs : List Nat) : Option MixKit := do
  check (k.result = none)
  check (k.index = none)
  let idx ← idxSubs k.idx subs
  some { k with idx := idx }

/-- `MixersWithIndexer::predict` (`kits.rs:90-105`); the closures are the list of sub-indices and the list of inputs
(number, squashed, stretched) they pass -/
def mixKitPredict (t : Tables) (k : MixKit) (subs : List Nat) (inputs : List (Nat × Nat × Int)) :
    Option (Prob × MixKit) := do
  check (k.result = none)
  check (k.index = none)
  let (i, idx) ← idxQuery k.idx subs
  let m ← k.mixers[i]?
  let m ← setInputs m inputs
  let r ← mixAll t.squash m
  some (r, { mixers := k.mixers.set i m, idx := idx, index := some i, result := some r })

/-- `MixersWithIndexer::update` (`kits.rs:107-118`) -/
def mixKitUpdate (t : Tables) (k : MixKit) (bit : Bool) (maxIndex : Nat) : Option MixKit := do
  let i ← k.index
  let r ← k.result
  let m ← k.mixers[i]?
  let m ← updateAndReset t.rates m bit r.1 maxIndex
  some { k with mixers := k.mixers.set i m, index := none, result := none }

/-- `MixersWithIndexer::current_mixer` (`kits.rs:120-123`) -/
def currentMixer (k : MixKit) : Option Mixer := do
  let i ← k.index
  k.mixers[i]?

/-! ## `src/predictor/single.rs` -/

/-- `quantize_distance` (`single.rs:159-169`) -/
def quantizeDistance (d : Nat) : Nat :=
  if d < 100 then 0 else if d < 1000 then 1 else if d < 10000 then 2 else 3

/-- `quantize_cost_trackers` (`single.rs:171-188`); sums of two `u16` values as `u32` cannot overflow -/
def quantizeCosts (c : Costs) : Nat :=
  let s := c.1
  let n := c.2
  if s + s / 2 < n then 0
  else if s + s / 8 < n then 1
  else if s < n then 2
  else if s < n + n / 8 then 3
  else if s < n + n / 2 then 4
  else 5

/-- `SingleContextPredictor` (`single.rs:32-36`) -/
structure Single where
  fixed : Prob
  edge : EstKit
  node : EstKit

/-- `SingleContextPredictor::new` (`single.rs:53-66`) -/
def singleNew (t : Tables) : Option Single := do
  let q ← quantize 1000
  let st ← stretchedProbD.new (2 * 2 ^ 21)
  let sq ← squash t.squash st
  let i1 ← idxNew 2 [q + 1, 256]
  let edge ← estKitNew i1
  let i2 ← idxNew 2 [q + 1, 2]
  let node ← estKitNew i2
  some ⟨(sq, st), edge, node⟩

/-- `SingleContextPredictor::predict` for `ContextState::ForEdge` (`single.rs:75-103`) -/
def edgePredict (t : Tables) (s : Single) (k : MixKit) (dist count : Nat) (bit : Bool) (byte : Nat) (lower : Prob) :
    Option (Prob × Single × MixKit) := do
  let q ← quantize count
  let (o, edge) ← estKitPredict t s.edge [q, byte]
  let d ← Est.for0BitRun t.direct count
  let (r, k) ← mixKitPredict t k [quantizeDistance dist, bit.toNat]
    [(0, lower.1, lower.2), (1, d.1, d.2), (2, s.fixed.1, s.fixed.2), (3, o.1, o.2)]
  some (r, { s with edge := edge }, k)

/-- `SingleContextPredictor::predict` for `ContextState::ForNode` (`single.rs:104-130`) -/
def nodePredict (t : Tables) (s : Single) (k : MixKit) (dist est runs : Nat) (costs : Costs) (lower : Prob) :
    Option (Prob × Single × MixKit) := do
  let sq := Est.decPrediction est
  let st ← stretch t.stretch sq
  let q1 ← quantize (State.runsLast runs)
  let (b, node) ← estKitPredict t s.node [q1, (State.runsLastBit runs).toNat]
  let q2 ← quantize (State.runsOpposite runs)
  let (r, k) ← mixKitPredict t k [quantizeCosts costs, quantizeDistance dist, q2]
    [(0, lower.1, lower.2), (1, sq, st), (2, b.1, b.2)]
  some (r, { s with node := node }, k)

/-- `SingleContextPredictor::update` for `ContextState::ForEdge` (`single.rs:139-143`) -/
def edgeUpdate (t : Tables) (s : Single) (k : MixKit) (bit : Bool) : Option (Single × MixKit) := do
  let edge ← estKitUpdate t s.edge bit
  let k ← mixKitUpdate t k bit 300
  some ({ s with edge := edge }, k)

/-- `CostTrackers::updated` (`src/history/tree/node.rs:53-62`) -/
def costsUpdated (t : Tables) (c : Costs) (p1 p2 : Nat) (bit : Bool) : Option Costs := do
  let a ← Log2.costUpdatedOnBit t.log2 c.1 p1 bit
  let b ← Log2.costUpdatedOnBit t.log2 c.2 p2 bit
  some (a, b)

/-- `SingleContextPredictor::update` for `ContextState::ForNode` (`single.rs:144-155`) -/
def nodeUpdate (t : Tables) (s : Single) (k : MixKit) (costs : Costs) (bit : Bool) :
    Option (Costs × Single × MixKit) := do
  let node ← estKitUpdate t s.node bit
  let m ← currentMixer k
  let p1 ← predictionSq m 1
  let p2 ← predictionSq m 2
  let c ← costsUpdated t costs p1 p2 bit
  let k ← mixKitUpdate t k bit 100
  some (c, { s with node := node }, k)

/-! ## `src/predictor/chain.rs` -/

/-- the predictors of one order: an element of each of the three vectors of `ContextsChainPredictionMixer`
(`chain.rs:28-33`), which all have the same length -/
structure Order where
  single : Single
  edge : MixKit
  node : MixKit

/-- one round of the loop of `ContextsChainPredictionMixer::new` (`chain.rs:47-66`), `make_dimensions` (`39-43`),
`edge_mixer_extra_dimensions` and `node_mixer_extra_dimensions` (`single.rs:39-51`) -/
def orderNew (t : Tables) : Option Order := do
  let single ← singleNew t
  let i4 ← idxNew 4 [2, 3, 4, 2]
  let edge ← mixKitNew (fixedNew 4 10 .dominantFirst) i4
  let q ← quantizeMax
  let i5 ← idxNew 5 [2, 3, 6, 4, q + 1]
  let node ← mixKitNew (fixedNew 3 10 .dominantFirst) i5
  some ⟨single, edge, node⟩

/-- `ContextsChainPredictionMixer::new` (`chain.rs:38-72`); all rounds of the loop do the same -/
def chainNew (t : Tables) (maxOrder : Nat) : Option (List Order) := do
  let o ← orderNew t
  some (List.replicate (maxOrder + 1) o)

/-- `ContextState::probability_estimator` (`src/history/mod.rs:58-67`) -/
def ctxEstimator (t : Tables) : CtxState → Option Nat
  | .edge _ count _ => do
    let d ← Est.for0BitRun t.direct count
    Est.decMake d.1 count
  | .node _ e _ _ _ => some e

/-- `ContextsChainPredictionMixer::compare_context_states` (`chain.rs:127-136`) -/
def compareStates (t : Tables) (previous current : CtxState) : Option Nat :=
  if previous.isNode = current.isNode then do
    let a ← ctxEstimator t previous
    let b ← ctxEstimator t current
    some (decide (a = b)).toNat
  else if previous.isNode then some 2
  else none

/-- the comparison with the previous order (`chain.rs:80-83`) -/
def comparePrevious (t : Tables) (previous : Option CtxState) (current : CtxState) : Option Nat :=
  match previous with
  | none => some 0
  | some p => compareStates t p current

/-- the prediction of one order (`chain.rs:84-100`) -/
def orderPredict (t : Tables) (o : Order) (isMax cmp byte : Nat) (s : CtxState) (lower : Prob) :
    Option (Prob × Order) :=
  match s with
  | .node dist est _ runs costs => do
    let k ← mixKitPre o.node [isMax, cmp]
    let (r, single, k) ← nodePredict t o.single k dist est runs costs lower
    some (r, { o with single := single, node := k })
  | .edge dist count bit => do
    let k ← mixKitPre o.edge [isMax, cmp]
    let (r, single, k) ← edgePredict t o.single k dist count bit byte lower
    some (r, { o with single := single, edge := k })

/-- the loop of `ContextsChainPredictionMixer::predict` (`chain.rs:77-102`): the orders not visited yet, the state of
the previous order, the states not visited yet -/
def chainLoop (t : Tables) (byte : Nat) : List Order → Option CtxState → List CtxState → Prob →
    Option (Prob × List Order)
  | os, _, [], last => some (last, os)
  | [], _, _ :: _, _ => none
  | o :: os, previous, s :: ss, last => do
    let cmp ← comparePrevious t previous s
    let (r, o) ← orderPredict t o (decide (ss = [])).toNat cmp byte s last
    let (r, os) ← chainLoop t byte os (some s) ss r
    some (r, o :: os)

/-- `ContextsChainPredictionMixer::predict` (`chain.rs:74-105`) -/
def chainPredict (t : Tables) (os : List Order) (states : List CtxState) (byte : Nat) : Option (Prob × List Order) :=
  chainLoop t byte os none states (2 ^ 30, 0)

/-- the update of one order (`chain.rs:111-120`); returns the new cost trackers of a node -/
def orderUpdate (t : Tables) (o : Order) (s : CtxState) (bit : Bool) : Option (Option Costs × Order) :=
  match s with
  | .node _ _ _ _ costs => do
    let (c, single, k) ← nodeUpdate t o.single o.node costs bit
    some (some c, { o with single := single, node := k })
  | .edge _ _ _ => do
    let (single, k) ← edgeUpdate t o.single o.edge bit
    some (none, { o with single := single, edge := k })

/-- `ContextsChainPredictionMixer::update` (`chain.rs:107-125`) -/
def chainUpdate (t : Tables) (bit : Bool) : List Order → List CtxState → Option (List Costs × List Order)
  | os, [] => some ([], os)
  | [], _ :: _ => none
  | o :: os, s :: ss => do
    let (c, o) ← orderUpdate t o s bit
    check (decide (c = none) ≠ s.isNode)
    let (cs, os) ← chainUpdate t bit os ss
    some (c.toList ++ cs, o :: os)

/-! ## `src/predictor/post_process.rs` -/

/-- `Mode` (`post_process.rs:28`); the program uses `Light` (`post_process.rs:30`). The model covers all three by a
parameter. -/
inductive Mode
  | none | light | adaptive
  deriving DecidableEq, Repr

/-- `PredictionFinalizer` (`post_process.rs:32-40`) -/
structure Finalizer where
  order0 : Apm
  order1 : Apm
  order2 : Apm
  order3 : Apm
  mixers : List Mixer
  result : Option Prob

/-- `PredictionFinalizer::new` (`post_process.rs:43-84`) -/
def finalizerNew (t : Tables) (mode : Mode) : Option Finalizer := do
  let m2 ← mixerNNew 2 100 .equalSummingToOne
  let m3 ← mixerNNew 3 100 .equalSummingToOne
  let m4 ← mixerNNew 4 100 .equalSummingToOne
  let m5 ← mixerNNew 5 100 .equalSummingToOne
  let a0 ← apmNew (if mode = .none then 0 else 256) 0 t.squash
  let a1 ← apmNew (if mode = .none then 0 else 256 * 256) 0 t.squash
  some ⟨a0, a1, a1, a1, [m2, m3, m4, m5], none⟩

/-- `quantize_contexts_count` (`post_process.rs:196-203`) -/
def quantizeContexts (n : Nat) : Nat := if n ≤ 1 then 0 else if n = 2 then 1 else if n = 3 then 2 else 3

/-- a `FractOnlyU32` made of a weighted sum of four (`post_process.rs:98-100, 111-114, 122-124`): the sum as `u64`,
`fix_u64::scaled_down` by 2, `as u32` -/
def quarter (sum : Nat) : Option Nat := do
  let s ← u64 sum
  let r ← scaledDownU 64 s 2
  fractOnlyU32.new (wrapU32 r)

/-- the first phase, the same in both modes (`post_process.rs:95-101, 119-125`): refined probability and mix -/
def phase0 (t : Tables) (f : Finalizer) (sq : Nat) (st : Int) (lb : LB) : Option (Nat × Prob × Finalizer) := do
  let u ← lbUnfinished lb
  let lut ← apmLut t 0
  let (p0, a0) ← refine f.order0 u sq st lut
  let mix ← quarter (sq * 3 + p0)
  let mixSt ← stretch t.stretch mix
  some (p0, (mix, mixSt), { f with order0 := a0 })

/-- `PredictionFinalizer::refine` in mode `Light` (`post_process.rs:94-116`) -/
def refineLight (t : Tables) (f : Finalizer) (sq : Nat) (st : Int) (lb : LB) : Option (Nat × Finalizer) := do
  let (_, mix, f) ← phase0 t f sq st lb
  let lut ← apmLut t 0
  let h1 ← lbHash01 lb
  let (p1, a1) ← refine f.order1 h1 mix.1 mix.2 lut
  let h2 ← lbHash02 lb
  let (p2, a2) ← refine f.order2 h2 mix.1 mix.2 lut
  let h3 ← lbHash03 lb
  let (p3, a3) ← refine f.order3 h3 mix.1 mix.2 lut
  let out ← quarter (p1 + p2 * 2 + p3)
  let p ← toFixU 32 fractOnlyU32 finalProbability out
  some (p, { f with order1 := a1, order2 := a2, order3 := a3 })

/-- refine with one map of the second phase and pass the result to the mixer, if enabled
(`post_process.rs:128-133, 134-139, 140-145`) -/
def refineInput (t : Tables) (on : Bool) (a : Apm) (hash : Option Nat) (mix : Prob) (m : Mixer) (input : Nat) :
    Option (Apm × Mixer) :=
  if on then do
    let h ← hash
    let lut ← apmLut t 0
    let (p, a) ← refine a h mix.1 mix.2 lut
    let st ← stretch t.stretch p
    let m ← setInput m input p st
    some (a, m)
  else some (a, m)

/-- `PredictionFinalizer::refine` in mode `Adaptive` (`post_process.rs:117-149`) -/
def refineAdaptive (t : Tables) (f : Finalizer) (sq : Nat) (st : Int) (count : Nat) (lb : LB) :
    Option (Nat × Finalizer) := do
  let i := quantizeContexts count
  let m ← f.mixers[i]?
  let (p0, mix, f) ← phase0 t f sq st lb
  let m ← setInput m 0 sq st
  let st0 ← stretch t.stretch p0
  let m ← setInput m 1 p0 st0
  let (a1, m) ← refineInput t (decide (i ≥ 1)) f.order1 (lbHash01 lb) mix m 2
  let (a2, m) ← refineInput t (decide (i ≥ 2)) f.order2 (lbHash02 lb) mix m 3
  let (a3, m) ← refineInput t (decide (i ≥ 3)) f.order3 (lbHash03 lb) mix m 4
  let r ← mixAll t.squash m
  let p ← toFixU 32 fractOnlyU32 finalProbability r.1
  some (p, { f with order1 := a1, order2 := a2, order3 := a3, mixers := f.mixers.set i m, result := some r })

/-- `PredictionFinalizer::refine` (`post_process.rs:86-152`) -/
def finalizerRefine (t : Tables) (mode : Mode) (f : Finalizer) (sq : Nat) (st : Int) (count : Nat) (lb : LB) :
    Option (Nat × Finalizer) := do
  check (f.result = none)
  match mode with
  | .none => do
    let p ← toFixU 32 fractOnlyU32 finalProbability sq
    some (p, f)
  | .light => refineLight t f sq st lb
  | .adaptive => refineAdaptive t f sq st count lb

/-- `PredictionFinalizer::update` in mode `Light` (`post_process.rs:158-168`) -/
def updateLight (f : Finalizer) (bit : Bool) (lb : LB) : Option Finalizer := do
  let u ← lbUnfinished lb
  let a0 ← updatePredictions f.order0 u bit 5 true
  let h1 ← lbHash01 lb
  let a1 ← updatePredictions f.order1 h1 bit 5 true
  let h2 ← lbHash02 lb
  let a2 ← updatePredictions f.order2 h2 bit 5 true
  let h3 ← lbHash03 lb
  let a3 ← updatePredictions f.order3 h3 bit 5 true
  some { f with order0 := a0, order1 := a1, order2 := a2, order3 := a3 }

/-- update one map of the second phase, if enabled (`post_process.rs:175-178, 179-182, 183-186`) -/
def updateIf (on : Bool) (a : Apm) (hash : Option Nat) (bit : Bool) : Option Apm :=
  if on then do
    let h ← hash
    updatePredictions a h bit 5 false
  else some a

/-- `PredictionFinalizer::update` in mode `Adaptive` (`post_process.rs:169-191`) -/
def updateAdaptive (t : Tables) (f : Finalizer) (bit : Bool) (count : Nat) (lb : LB) : Option Finalizer := do
  let r ← f.result
  let i := quantizeContexts count
  let u ← lbUnfinished lb
  let a0 ← updatePredictions f.order0 u bit 5 false
  let a1 ← updateIf (decide (i ≥ 1)) f.order1 (lbHash01 lb) bit
  let a2 ← updateIf (decide (i ≥ 2)) f.order2 (lbHash02 lb) bit
  let a3 ← updateIf (decide (i ≥ 3)) f.order3 (lbHash03 lb) bit
  let m ← f.mixers[i]?
  let m ← updateAndReset t.rates m bit r.1 1000
  some ⟨a0, a1, a2, a3, f.mixers.set i m, none⟩

/-- `PredictionFinalizer::update` (`post_process.rs:154-193`) -/
def finalizerUpdate (t : Tables) (mode : Mode) (f : Finalizer) (bit : Bool) (count : Nat) (lb : LB) :
    Option Finalizer :=
  match mode with
  | .none => some f
  | .light => updateLight f bit lb
  | .adaptive => updateAdaptive t f bit count lb

/-! ## `src/predictor/stats.rs` -/

/-- `PredictionStatistics` (`stats.rs:33-44`) -/
structure Stats where
  totalBytes : Nat
  totalContexts : Nat
  orderCounts : List Nat
  orderCosts : List Int
  symbolCounts : List Nat
  symbolCosts : List Int
  byteCost : Int
  totalCost : Int
  occurrences : List Nat
  deriving DecidableEq, Repr

/-- `Log2Q` (`src/fixed_point/types.rs:226-236`): 11 fractional bits, no check -/
def log2Q : FixI := ⟨11, some⟩

/-- `PredictionStatistics::new` (`stats.rs:47-60`) -/
def statsNew (maxOrder : Nat) : Stats where
  totalBytes := 0
  totalContexts := 0
  orderCounts := List.replicate 25 0
  orderCosts := List.replicate 25 0
  symbolCounts := List.replicate 256 0
  symbolCosts := List.replicate 256 0
  byteCost := 2 ^ 63 - 1
  totalCost := 0
  occurrences := List.replicate (5 * (maxOrder + 1)) 0

/-- the cost of the previous byte is booked (`stats.rs:64-69`) -/
def statsBook (s : Stats) (lb : LB) : Option Stats :=
  if s.totalBytes > 0 then do
    let b ← lbPrev1 lb
    let n ← s.symbolCounts[b]?
    let n ← usize (n + 1)
    let c ← s.symbolCosts[b]?
    let c ← addI64 log2Q c s.byteCost
    some { s with symbolCounts := s.symbolCounts.set b n, symbolCosts := s.symbolCosts.set b c }
  else some s

/-- `PredictionStatistics::start_new_byte` (`stats.rs:62-72`) -/
def statsStart (s : Stats) (lb : LB) : Option Stats := do
  let u ← lbUnfinished lb
  check (u = 1)
  let s ← statsBook s lb
  let n ← u64 (s.totalBytes + 1)
  some { s with byteCost := 0, totalBytes := n }

/-- the slot of a chain (`stats.rs:81-86`) -/
def statsIndex (states : List CtxState) : Nat :=
  min 4 (states.length - 1) * 5 + min 4 (states.filter fun s => !s.isNode).length

/-- the part of `on_next_bit` for a chain that is not empty (`stats.rs:79-97`) -/
def statsRecord (t : Tables) (s : Stats) (bit : Bool) (states : List CtxState) (p : Nat) : Option Stats := do
  let i := statsIndex states
  let n ← s.orderCounts[i]?
  let n ← usize (n + 1)
  let cost ← Log2.estimateCost t.log2 p bit
  let byte ← addI64 log2Q s.byteCost cost
  let total ← addI64 log2Q s.totalCost cost
  let c ← s.orderCosts[i]?
  let c ← addI64 log2Q c cost
  let o ← s.occurrences[i]?
  let last ← states[states.length - 1]?
  let o ← u64 (o + last.occurrenceCount)
  some { s with
    orderCounts := s.orderCounts.set i n, byteCost := byte, totalCost := total, orderCosts := s.orderCosts.set i c,
    occurrences := s.occurrences.set i o }

/-- `PredictionStatistics::on_next_bit` (`stats.rs:74-98`); `to_fix_i64` from `Log2D` to `Log2Q` (both 11 fractional
bits) leaves the raw value unchanged -/
def statsNext (t : Tables) (s : Stats) (bit : Bool) (states : List CtxState) (p : Nat) : Option Stats := do
  let n ← u64 (s.totalContexts + states.length)
  let s := { s with totalContexts := n }
  if states.length > 0 then statsRecord t s bit states p else some s

/-- the table accesses of `print_costs_and_occurrences_by_context_type` (`stats.rs:119-135`): occurrences, counts and
costs of all 25 slots -/
def statsByContext (s : Stats) : Option (List (Nat × Nat × Int)) :=
  (List.range 25).mapM fun i => do
    let o ← s.occurrences[i]?
    let n ← s.orderCounts[i]?
    let c ← s.orderCosts[i]?
    some (o, n, c)

/-! ## `src/predictor/mod.rs` -/

/-- `Predictor` (`mod.rs:34-42`) -/
structure Predictor where
  lastBytes : LB
  tree : Src
  states : List CtxState
  chain : List Order
  finalizer : Finalizer
  final : Option Nat
  stats : Stats
  maxOrder : Nat

/-- `Predictor::new` (`mod.rs:47-59`) with the window size and the highest order as parameters; the program uses
10 000 000 and 20 -/
def predNew (t : Tables) (mode : Mode) (window maxOrder : Nat) : Option Predictor := do
  let tree ← srcNew window maxOrder 0
  let chain ← chainNew t maxOrder
  let fin ← finalizerNew t mode
  some ⟨lbNew, tree, [], chain, fin, none, statsNew maxOrder, maxOrder⟩

/-- `Predictor::start_new_byte` (`mod.rs:61-66`) -/
def predStart (p : Predictor) : Option Predictor := do
  check (p.final = none)
  let lb ← lbStart p.lastBytes
  let tree ← srcStart p.tree
  let stats ← statsStart p.stats lb
  some { p with lastBytes := lb, tree := tree, stats := stats }

/-- `Predictor::predict` (`mod.rs:68-85`). `CollectedContextStates::push` (`src/history/mod.rs:184-187`) asserts that
the vector is not full; its capacity is the requested `max_order + 1`. -/
def predPredict (t : Tables) (mode : Mode) (p : Predictor) : Option (Nat × Predictor) := do
  check (p.final = none)
  let states ← srcGather p.tree
  check (states.length ≤ p.maxOrder + 1)
  let u ← lbUnfinished p.lastBytes
  let (mixed, chain) ← chainPredict t p.chain states u
  let (final, fin) ← finalizerRefine t mode p.finalizer mixed.1 mixed.2 states.length p.lastBytes
  some (final, { p with states := states, chain := chain, finalizer := fin, final := some final })

/-- `Predictor::update` (`mod.rs:87-106`) -/
def predUpdate (t : Tables) (mode : Mode) (p : Predictor) (bit : Bool) : Option Predictor := do
  let final ← p.final
  let (costs, chain) ← chainUpdate t bit p.chain p.states
  let tree ← srcProcess t.luts p.tree bit costs
  let fin ← finalizerUpdate t mode p.finalizer bit p.states.length p.lastBytes
  let stats ← statsNext t p.stats bit p.states final
  let lb ← lbNext p.lastBytes bit
  some { p with lastBytes := lb, tree := tree, chain := chain, finalizer := fin, final := none, stats := stats }

/-- a call of the public interface of the predictor (`src/predictor/mod.rs:61-105`) -/
inductive Call
  | start
  | predict
  | update (bit : Bool)
  deriving DecidableEq, Repr

/-- one call; `predict` returns a final probability (`src/predictor/mod.rs:61-105`) -/
def call (t : Tables) (mode : Mode) (p : Predictor) : Call → Option (Option Nat × Predictor)
  | .start => do
    let p ← predStart p
    some (none, p)
  | .predict => do
    let (f, p) ← predPredict t mode p
    some (some f, p)
  | .update b => do
    let p ← predUpdate t mode p b
    some (none, p)

/-- a history of calls; returns the predictions in order (`src/predictor/mod.rs:61-105`) -/
def calls (t : Tables) (mode : Mode) : Predictor → List Call → Option (List Nat × Predictor)
  | p, [] => some ([], p)
  | p, c :: cs => do
    let (f, p) ← call t mode p c
    let (fs, p) ← calls t mode p cs
    some (f.toList ++ fs, p)

/-- the calls of `estimate_compression` (`src/main.rs:58-62`) for the bits of one byte, most significant first -/
def byteCalls (bits : List Bool) : List Call := .start :: (bits.map fun b => [.predict, .update b]).flatten

end Verif.Pred
