import Verif.Rust

/-!
# Model of `src/random/mod.rs`

64 bit words are natural numbers. The floating point results `next_real1`, `next_real2` and `next_real3`
(`src/random/mod.rs:118-131`) are modelled in `Verif/Float/Model.lean`.
-/

namespace Verif.Random

open Verif

/-- `MersenneTwister` (`src/random/mod.rs:18-21`) -/
structure Twister where
  state : List Nat
  index : Nat
deriving DecidableEq, Repr

/-- number of words (`src/random/mod.rs:24`) -/
def NN : Nat := 312

/-- middle word (`src/random/mod.rs:25`) -/
def MM : Nat := 156

/-- `MATRIX_A` (`src/random/mod.rs:26`) -/
def matrixA : Nat := 0xB5026F5AA96619E9

/-- upper 33 bits (`src/random/mod.rs:27`) -/
def UM : Nat := 0xFFFFFFFF80000000

/-- lower 31 bits (`src/random/mod.rs:28`) -/
def LM : Nat := 0x7FFFFFFF

/-- assignment to an array element, which panics out of bounds (the assignments in `src/random/mod.rs:31-111`) -/
def setAt (l : List Nat) (i v : Nat) : Option (List Nat) := if i < l.length then some (l.set i v) else none

/-- one step of the loop of `new_by_scalar_seed` (`src/random/mod.rs:35-37`) -/
def scalarStep (state : List Nat) (i : Nat) : Option (List Nat) := do
  let p ← state[i - 1]?
  setAt state i (wrapU64 (wrapU64 (6364136223846793005 * (p ^^^ (p >>> 62))) + i))

/-- `new_by_scalar_seed` (`src/random/mod.rs:31-43`) -/
def newByScalarSeed (seed : Nat) : Option Twister := do
  let state ← setAt (List.replicate NN 0) 0 seed
  let state ← (List.range' 1 (NN - 1)).foldlM scalarStep state
  some { state := state, index := NN }

/-- advance of `i` with the wrap of the first word (`src/random/mod.rs:55-60`, `70-74`) -/
def nextI (state : List Nat) (i : Nat) : Option (List Nat × Nat) :=
  if i + 1 ≥ NN then do
    let last ← state[NN - 1]?
    let state ← setAt state 0 last
    some (state, 1)
  else some (state, i + 1)

/-- one step of the first loop of `new_by_vector_seed` (`src/random/mod.rs:49-64`) -/
def vectorStep1 (key : List Nat) (s : List Nat × Nat × Nat) : Option (List Nat × Nat × Nat) := do
  let (state, i, j) := s
  let c ← state[i]?
  let p ← state[i - 1]?
  let k ← key[j]?
  let state ← setAt state i
    (wrapU64 (wrapU64 ((c ^^^ wrapU64 ((p ^^^ (p >>> 62)) * 3935559000370003845)) + k) + j))
  let (state, i) ← nextI state i
  some (state, i, if j + 1 ≥ key.length then 0 else j + 1)

/-- one step of the second loop of `new_by_vector_seed` (`src/random/mod.rs:65-75`) -/
def vectorStep2 (s : List Nat × Nat) : Option (List Nat × Nat) := do
  let (state, i) := s
  let c ← state[i]?
  let p ← state[i - 1]?
  let state ← setAt state i
    (wrapU64 ((c ^^^ wrapU64 ((p ^^^ (p >>> 62)) * 2862933555777941757)) + (2 ^ 64 - i)))
  nextI state i

/-- repetition of a step (the loops of `src/random/mod.rs:45-79`) -/
def repeatM {α : Type} (f : α → Option α) : Nat → α → Option α
  | 0, s => some s
  | n + 1, s => do
    let s ← f s
    repeatM f n s

/-- `new_by_vector_seed` (`src/random/mod.rs:45-78`) -/
def newByVectorSeed (key : List Nat) : Option Twister := do
  let mt ← newByScalarSeed 19650218
  let (state, i, _) ← repeatM (vectorStep1 key) (max NN key.length) (mt.state, 1, 0)
  let (state, _) ← repeatM vectorStep2 (NN - 1) (state, i)
  let state ← setAt state 0 (2 ^ 63)
  some { mt with state := state }

/-- new word from the upper part of one, the lower part of the next and a middle one
(`src/random/mod.rs:87-89`) -/
def mixWords (u l m : Nat) : Nat :=
  let x := (u &&& UM) ||| (l &&& LM)
  m ^^^ (x >>> 1) ^^^ (if x % 2 = 1 then matrixA else 0)

/-- one assignment of the generating loops: word `i` from the words `i`, `a` and `b` (`src/random/mod.rs:86-100`) -/
def genStep (state : List Nat) (i a b : Nat) : Option (List Nat) := do
  let u ← state[i]?
  let l ← state[a]?
  let m ← state[b]?
  setAt state i (mixWords u l m)

/-- generation of all words (`src/random/mod.rs:86-100`) -/
def generate (state : List Nat) : Option (List Nat) := do
  let state ← (List.range' 0 (NN - MM)).foldlM (fun s i => genStep s i (i + 1) (i + MM)) state
  let state ← (List.range' (NN - MM) (MM - 1)).foldlM (fun s i => genStep s i (i + 1) (i + MM - NN)) state
  genStep state (NN - 1) 0 (MM - 1)

/-- tempering (`src/random/mod.rs:105-109`) -/
def temper (x : Nat) : Nat :=
  let x := x ^^^ ((x >>> 29) &&& 0x5555555555555555)
  let x := x ^^^ (wrapU64 (x <<< 17) &&& 0x71D67FFFEDA60000)
  let x := x ^^^ (wrapU64 (x <<< 37) &&& 0xFFF7EEE000000000)
  x ^^^ (x >>> 43)

/-- `next_int64` up to the choice of the word (`src/random/mod.rs:81-103`) -/
def advance (t : Twister) : Option Twister := do
  check (t.index ≤ NN)
  if t.index = NN then do
    let state ← generate t.state
    some { state := state, index := 0 }
  else some t

/-- `next_int64` (`src/random/mod.rs:81-110`) -/
def nextInt64 (t : Twister) : Option (Nat × Twister) := do
  let t ← advance t
  let x ← t.state[t.index]?
  some (temper x, { t with index := t.index + 1 })

/-- `next_int63` (`src/random/mod.rs:113-115`) -/
def nextInt63 (t : Twister) : Option (Int × Twister) := do
  let (x, t) ← nextInt64 t
  some (((x >>> 1 : Nat) : Int), t)

/-- the default generator (`src/random/mod.rs:133-137`) -/
def default : Option Twister := newByScalarSeed 5489

/-- the first `n` numbers (repeated calls of `next_int64`, `src/random/mod.rs:81-111`) -/
def stream : Nat → Twister → Option (List Nat)
  | 0, _ => some []
  | n + 1, t => do
    let (x, t) ← nextInt64 t
    let xs ← stream n t
    some (x :: xs)

end Verif.Random
