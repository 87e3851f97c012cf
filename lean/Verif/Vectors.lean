import Verif.Log2.Lemmas
import Verif.Util.HashProps
import Verif.State.Model
import Verif.Log2.Model
import Verif.Coding.Model
import Verif.Est.Model

/-!
# The model against the values in the tests of the project

The code cannot be run here. These are the concrete inputs and expected values written in `/repo/tests`, evaluated by the
kernel on the model. They are tests of the model, not proofs of properties; no claim rests on them.
-/

namespace Verif.Vectors

open Verif

/-! ## `tests/array_indexing.rs` -/

/-- a new indexer and one query -/
def ask (n : Nat) (dims vs : List Nat) : Option Nat := do
  let x ← Util.idxNew n dims
  let r ← Util.idxQuery x vs
  some r.1

/-- size of a new indexer -/
def sizeOf (n : Nat) (dims : List Nat) : Option Nat := do
  let x ← Util.idxNew n dims
  Util.idxSize x

/-- `indexer_computes_correct_array_size` (`array_indexing.rs:70-77`) -/
example : sizeOf 1 [5] = some 5 ∧ sizeOf 2 [4, 5] = some 20 ∧ sizeOf 3 [2, 6, 3] = some 36 ∧
    sizeOf 4 [2, 4, 6, 3] = some 144 ∧ sizeOf 5 [5, 8, 9, 1, 3] = some 1080 ∧
    sizeOf 6 [5, 3, 8, 1, 3, 9] = some 3240 := by decide +kernel

/-- `indexer_computes_correct_array_index` (`array_indexing.rs:80-125`) -/
example : ask 1 [5] [3] = some 3 ∧ ask 2 [4, 5] [2, 3] = some 13 ∧ ask 3 [2, 6, 3] [0, 4, 1] = some 13 ∧
    ask 4 [2, 4, 6, 3] [1, 3, 3, 1] = some 136 ∧ ask 5 [5, 8, 9, 1, 3] [2, 3, 4, 0, 2] = some 527 ∧
    ask 6 [5, 3, 8, 1, 3, 9] [1, 2, 3, 0, 1, 8] = some 1178 := by decide +kernel

/-- `maximum_sub_indices_lead_to_maximum_final_index` (`array_indexing.rs:51-67`) -/
example : ask 2 [5, 8] [4, 7] = some 39 ∧ sizeOf 2 [5, 8] = some 40 ∧ ask 5 [6, 2, 3, 1, 6] [5, 1, 2, 0, 5] = some 215 ∧
    sizeOf 5 [6, 2, 3, 1, 6] = some 216 := by decide +kernel

/-! ## `tests/hashing.rs` -/

/-- hash of bytes before it is folded -/
def hashed (bytes : List Nat) : Nat := bytes.foldl Util.fnvMix Util.fnvNew

/-- `initial_state` and the test vectors (`hashing.rs:22-75`) -/
example : Util.fnvNew = 0xcbf29ce484222325 ∧
    ([([0], 0xaf63bd4c8601b7df, 0x29620a93, 0x23f1),
     ([1], 0xaf63bc4c8601b62c, 0x29620a60, 0x2302),
     ([181], 0xaf64284c86026db0, 0x296645fc, 0x6c9a),
     ([255], 0xaf64724c8602eb6e, 0x29669922, 0xb044),
     ([0, 0], 0x8328807b4eb6fed, 0xbcd9e7ea, 0x5b33),
     ([0, 1], 0x8328707b4eb6e3a, 0xbcd9e93d, 0x55e4),
     ([1, 0], 0x82f2207b4e88cc4, 0xbcc7aec3, 0x1204),
     ([1, 1], 0x82f2307b4e88e77, 0xbcc7ad70, 0x11b7),
     ([0, 181, 255], 0xd7c037186abea953, 0xbd7e9e4b, 0x2335),
     ([181, 255, 0], 0x76d9d51a77ee8ea7, 0x1375bbd, 0x5a8a),
     ([255, 0, 181], 0xf9207e1be415526d, 0x1d352c76, 0x3143)] :
      List (List Nat × Nat × Nat × Nat)).all
      (fun x => hashed x.1 == x.2.1 && Util.fnvU32 (hashed x.1) == x.2.2.1 && Util.fnvU16 (hashed x.1) == x.2.2.2) =
        true := by decide +kernel

/-! ## `tests/last_bytes_cache.rs` -/

/-- `test_vector` (`last_bytes_cache.rs:32-49`): the bytes of "bang" -/
example : ((Util.lbRun Util.lbNew (Util.partCalls (("bang".toList.map Char.toNat).map Util.byteBits) [])).bind fun s => do
    let u ← Util.lbUnfinished s
    let a ← Util.lbPrev1 s
    let b ← Util.lbPrev2 s
    let c ← Util.lbPrev3 s
    some (u, a, b, c)) = some (1, 'g'.toNat, 'n'.toNat, 'a'.toNat) := by decide +kernel

/-- `starting_new_byte_required_on_start` and `starting_new_byte_required_every_8_bits` (`last_bytes_cache.rs:51-66`) -/
example : Util.lbUnfinished Util.lbNew = none ∧
    (Util.lbRun Util.lbNew (Util.fullCalls [List.replicate 8 false])).bind Util.lbUnfinished = none ∧
    (Util.lbRun Util.lbNew (Util.fullCalls [List.replicate 8 false])).isSome = true := by decide +kernel

/-! ## `tests/bits_history_recent.rs` -/

/-- `recent_bits_state_returns_proper_substates` (`bits_history_recent.rs:30-51`) -/
example : ([(0x0001, 0x00, 0x01), (0x0002, 0x01, 0x02), (0x0003, 0x10, 0x03), (0x0004, 0x02, 0x04), (0x0005, 0x11, 0x05),
    (0x0006, 0x11, 0x06), (0x0007, 0x20, 0x07), (0x4888, 0x3b, 0x88), (0x7777, 0xb3, 0xf7), (0x1eee, 0x93, 0xee),
    (0x1111, 0x39, 0x91), (0x8000, 0x0f, 0x80), (0xffff, 0xf0, 0xff)] : List (Nat × Nat × Nat)).all
      (fun x => State.recentHistogram x.1 == some x.2.1 && State.recentLast7 x.1 == x.2.2) = true := by decide +kernel

/-- `recent_bits_state_factory_return_proper_states` (`bits_history_recent.rs:54-79`) -/
example : ([(0, 0x0001, 0x0001), (1, 0x0002, 0x0003), (2, 0x0004, 0x0007), (3, 0x0008, 0x000f), (13, 0x2000, 0x3fff),
    (14, 0x4000, 0x7fff), (15, 0x8000, 0xffff), (16, 0x8000, 0xffff), (17, 0x8000, 0xffff), (30, 0x8000, 0xffff),
    (50, 0x8000, 0xffff), (99, 0x8000, 0xffff)] : List (Nat × Nat × Nat)).all
      (fun x => State.recentForBitRun false x.1 == some x.2.1 && State.recentForBitRun true x.1 == some x.2.2) = true := by
  decide +kernel

/-! ## `tests/bits_history_runs.rs` -/

/-- a run pushed bit by bit -/
def push (x : Nat) (b : Bool) (n : Nat) : Option Nat := State.runsRun x (List.replicate n b)

/-- what is read off a tracker -/
def readRuns (x : Nat) : Bool × Bool × Nat × Nat × Nat :=
  (State.runsLastBit x, State.runsIsSingle x, State.runsLast x, State.runsOpposite x, State.runsPrevious x)

/-- `sanity_checks` (`bits_history_runs.rs:25-44`) -/
example : (readRuns State.runsNew).2 = (true, 0, 0, 0) ∧
    (State.runsForBitRun false 123).map readRuns = some (false, true, 123, 0, 0) ∧
    (State.runsForBitRun false 4352).map readRuns = some (false, true, 1000, 0, 0) := by decide +kernel

/-- `bit_runs_do_not_overflow` (`bits_history_runs.rs:47-81`) -/
example : [[true], [true, false], [true, false, true], [true, false, true, false]].map (fun bs =>
    (bs.foldlM (fun x b => push x b 1010) State.runsNew).map readRuns) =
      [some (true, true, 1000, 0, 0), some (false, false, 1000, 1000, 0), some (true, false, 1000, 1000, 1000),
        some (false, false, 1000, 1000, 1000)] := by decide +kernel

/-! ## `tests/cost_tracking.rs` -/

/-- `initial_cost_corresponds_to_one_bit_costs_series` and `cost_decays_by_decay_rate` (`cost_tracking.rs:29-43`) -/
example : Log2.costUpdated Log2.costInitial 2048 = some Log2.costInitial ∧
    Log2.costUpdated Log2.costInitial 1 = some (Log2.costInitial - Log2.costInitial / 2 ^ 4 + 1) := by decide +kernel

/-- two updates -/
def twoCosts (a b : Int) : Nat := (((Log2.costUpdated Log2.costInitial a).bind (Log2.costUpdated · b))).getD 0

/-- `older_cost_has_less_weight_than_newer` (`cost_tracking.rs:46-63`) -/
example : twoCosts 1 2048 > twoCosts 2048 1 ∧ twoCosts 2048 4096 > twoCosts 4096 2048 ∧ twoCosts 2048 1 > 0 := by
  decide +kernel

/-! ## `tests/fixed_point_numbers.rs` -/

/-- `log2_is_correct` (`fixed_point_numbers.rs:46-91`): inputs with 17 fractional bits in 32 and with 33 in 64 bits, with the
logarithm rounded to 11 bits -/
example (lut : List Nat) (hl : Log2.log2LutNew = some lut) :
    (∀ x ∈ ([(4, -30720), (45250, -3142), (188280, 1070), (323385, 2668), (453986222, 24081), (3932160000, 30459)] : List (Nat × Int)),
      ∃ l, Log2.log2 lut 32 17 x.1 = some l ∧ |l - x.2| ≤ 1) ∧
    (∀ x ∈ ([(257698, -30771), (2965503119, -3142), (12339097444, 1070), (21193344323, 2668), (29752441050235, 24081), (257698037760000, 30459)] :
      List (Nat × Int)), ∃ l, Log2.log2 lut 64 33 x.1 = some l ∧ |l - x.2| ≤ 1) := by
  have key : ∀ (w frac : Nat) (L : List (Nat × Int)), 12 ≤ w → w ≤ 64 → frac ≤ w → (∀ x ∈ L, x.1 ≠ 0 ∧ x.1 < 2 ^ w ∧
      |(Log2.tval (Log2.mant x.1) : Int) + ((Nat.log2 x.1 : Int) - frac) * 2048 - x.2| ≤ 1) →
      ∀ x ∈ L, ∃ l, Log2.log2 lut w frac x.1 = some l ∧ |l - x.2| ≤ 1 := by
    intro w frac L h1 h2 h3 h x hx
    obtain ⟨h4, h5, h6⟩ := h x hx
    exact ⟨_, Log2.log2_eq (Log2.isLut_of hl) h1 h2 h3 (by omega) h5, h6⟩
  exact ⟨key 32 17 _ (by decide) (by decide) (by decide) (by decide +kernel),
    key 64 33 _ (by decide) (by decide) (by decide) (by decide +kernel)⟩

/-! ## `tests/coding_symbols.rs` -/

/-- `coding_is_reversible_for_empty_input` and `coding_is_reversible_for_single_event` (`coding_symbols.rs:35-46`) -/
example : ([[], [.bit 0x734396 true], [.bit 0x734396 false], [.rare true], [.rare false]] : List (List Coding.Event)).all
    (fun es => match Coding.encode es with
      | none => false
      | some bytes => bytes.length == 4 &&
        ((Coding.decode bytes (es.map Coding.Event.query)).map fun r => (r.1, r.2.input)) ==
          some (es.map Coding.Event.value, [])) = true := by decide +kernel

end Verif.Vectors
