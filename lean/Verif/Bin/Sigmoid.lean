import Verif.Pred.Model
import Verif.Random.Model

/-!
# Model of `src/bin/bench_sigmoid.rs`

The results are the printed checksums. The printed durations and the text are in `Bin/SigmoidText.lean`.
-/

namespace Verif.Bin

open Verif Verif.Fixed Verif.Lut Verif.Random

/-- `generate_stretched_prob` (`bench_sigmoid.rs:78-87`); the first argument bounds the depth of the recursion, and
`none` stands for a deeper one, too -/
def generateProb : Nat → Twister → Option (Int × Twister)
  | 0, _ => none
  | depth + 1, t => do
    let (x, t) ← nextInt64 t
    let unscaled := wrapI32 x
    if unscaled < -12 * 2 ^ 27 ∨ unscaled > 12 * 2 ^ 27 then generateProb depth t
    else do
      let p ← stretchedProbD.new (unscaled / 2 ^ (32 - 5 - 21))
      some (p, t)

/-- the vector of test values (`bench_sigmoid.rs:32-33`) -/
def generateProbs (depth : Nat) : Nat → Twister → Option (List Int × Twister)
  | 0, t => some ([], t)
  | n + 1, t => do
    let (p, t) ← generateProb depth t
    let (ps, t) ← generateProbs depth n t
    some (p :: ps, t)

/-- one round of the loop over squash (`bench_sigmoid.rs:38-40`, `45-47`) -/
def sumSquash (table : List Nat) (probs : List Int) (sum : Nat) : Option Nat :=
  probs.foldlM (fun sum p => do
    let r ← squash table p
    u64 (sum + r)) sum

/-- one round of the loop over stretch (`bench_sigmoid.rs:53-56`) -/
def sumStretch (lut : List (List Int)) (probs : List Nat) (sum : Int) : Option Int :=
  probs.foldlM (fun sum p => do
    let r ← stretch lut p
    i64 (sum + r)) sum

/-- the part of `main` behind the test values (`bench_sigmoid.rs:34-57`): checksums of the warm-up, of squash and of
stretch -/
def benchSums (tables : Pred.Tables) (stretched : List Int) (warmUpLoops loops : Nat) : Option (Nat × Nat × Int) := do
  let squashed ← stretched.mapM (squash tables.squash)
  let sumWarmup ← repeatM (sumSquash tables.squash stretched) warmUpLoops 0
  let sumSq ← repeatM (sumSquash tables.squash stretched) loops 0
  let sumSt ← repeatM (sumStretch tables.stretch squashed) loops 0
  some (sumWarmup, sumSq, sumSt)

/-- `main` (`bench_sigmoid.rs:26-57`) -/
def bench (depth : Nat) : Option (Nat × Nat × Int) := do
  let tables ← Pred.tablesNew
  let prng ← Random.default
  let (stretched, _) ← generateProbs depth 1000 prng
  benchSums tables stretched 10000 10000

end Verif.Bin
