import Verif.Rust

/-!
# Model of `src/util`

Quantizer, indexer, FNV hash, last bytes cache. Shifts and masks are written with `/`, `%`, `*`.
-/

namespace Verif.Util

open Verif

/-! ## `src/util/quantizers.rs` -/

/-- `OccurrenceCountQuantizer::quantize` (`quantizers.rs:28-37`); the argument is a `u16` -/
def quantize (input : Nat) : Option Nat :=
  if input < 2 then some input
  else do
    let leadingZeros := 15 - Nat.log2 input
    let bitLength ← subU 16 leadingZeros
    let cut ← subU bitLength 1
    let bitsCut ← subU cut 1
    let input := input / 2 ^ bitsCut
    usize (bitsCut * 2 + input)

/-- `OccurrenceCountQuantizer::max_output` (`quantizers.rs:24-26`) -/
def quantizeMax : Option Nat := quantize 65535

/-! ## `src/util/indexer.rs` -/

/-- an indexer (`indexer.rs:66-85`); `limits` and `values` are the two fields of the dimensions array, the
arity of the concrete type is the length of the array -/
structure Idx where
  limits : List Nat
  values : List Nat
  current : Nat
  deriving DecidableEq, Repr

/-- `Indexer::new` (`indexer.rs:19-26`) of the type with `n` dimensions (`indexer.rs:87-199`) -/
def idxNew (n : Nat) (dimensions : List Nat) : Option Idx := do
  check (dimensions.length = n)
  some ⟨dimensions, List.replicate n 0, 0⟩

/-- `Indexer::get_array_size` (`indexer.rs:29-36`) -/
def idxSize (x : Idx) : Option Nat := do
  check (x.current = 0)
  x.limits.foldlM (fun r l => usize (r * l)) 1

/-- `Indexer::with_sub_index` (`indexer.rs:38-47`) -/
def idxSub (x : Idx) (value : Nat) : Option Idx := do
  check (x.current < x.limits.length)
  let limit ← x.limits[x.current]?
  check (value < limit)
  some { x with values := x.values.set x.current value, current := x.current + 1 }

/-- `Indexer::get_array_index_and_reset` (`indexer.rs:49-59`) -/
def idxGet (x : Idx) : Option (Nat × Idx) := do
  check (x.current = x.limits.length)
  let r ← (x.limits.zip x.values).foldlM (fun r d => do
    let r ← usize (r * d.1)
    usize (r + d.2)) 0
  some (r, { x with current := 0 })

/-- a sequence of `with_sub_index` calls (`src/util/indexer.rs:38-47`) -/
def idxSubs : Idx → List Nat → Option Idx
  | x, [] => some x
  | x, v :: vs => do
    let x ← idxSub x v
    idxSubs x vs

/-- sub-indices one after the other, then the array index (`src/util/indexer.rs:38-59`) -/
def idxQuery (x : Idx) (vs : List Nat) : Option (Nat × Idx) := do
  let x ← idxSubs x vs
  idxGet x

/-! ## `src/util/hash.rs` -/

/-- `Fnv1A::new` (`hash.rs:21-23`) -/
def fnvNew : Nat := 0xcbf29ce484222325

/-- `Fnv1A::mix_byte` (`hash.rs:25-28`) -/
def fnvMix (h byte : Nat) : Nat := wrapU64 ((h ^^^ byte) * 0x100000001b3)

/-- `Fnv1A::into_u32` (`hash.rs:34-37`) -/
def fnvU32 (h : Nat) : Nat := wrapU32 (h ^^^ (h / 2 ^ 32))

/-- `Fnv1A::into_u16` (`hash.rs:39-42`) -/
def fnvU16 (h : Nat) : Nat := wrapU16 (fnvU32 h ^^^ (fnvU32 h / 2 ^ 16))

/-! ## `src/util/last_bytes.rs` -/

/-- `LastBytesCache` (`last_bytes.rs:31-35`) -/
structure LB where
  bitIndex : Int
  cache : Nat
  deriving DecidableEq, Repr

/-- `LastBytesCache::new` (`last_bytes.rs:38-43`) -/
def lbNew : LB := ⟨-1, 0⟩

/-- `LastBytesCache::start_new_byte` (`last_bytes.rs:45-49`) -/
def lbStart (s : LB) : Option LB := do
  check (s.bitIndex = -1)
  some ⟨7, wrapU32 (s.cache * 2 ^ 8)⟩

/-- `LastBytesCache::checked_bit_index` (`last_bytes.rs:104-107`) -/
def lbBitIndex (s : LB) : Option Nat := do
  check (s.bitIndex ≥ 0)
  some s.bitIndex.toNat

/-- `LastBytesCache::on_next_bit` (`last_bytes.rs:51-55`) -/
def lbNext (s : LB) (b : Bool) : Option LB := do
  let bi ← lbBitIndex s
  some ⟨s.bitIndex - 1, s.cache ||| wrapU32 (b.toNat * 2 ^ bi)⟩

/-- `LastBytesCache::unfinished_byte` (`last_bytes.rs:57-62`) -/
def lbUnfinished (s : LB) : Option Nat := do
  let bi ← lbBitIndex s
  let k ← subU 7 bi
  u8 (wrapU8 (2 ^ k) + wrapU8 (s.cache % 256 / 2 ^ (bi + 1)))

/-- `LastBytesCache::previous_byte_1` (`last_bytes.rs:64-67`) -/
def lbPrev1 (s : LB) : Option Nat := do
  check (s.bitIndex ≥ 0)
  some (wrapU8 (s.cache / 2 ^ 8))

/-- `LastBytesCache::previous_byte_2` (`last_bytes.rs:69-72`) -/
def lbPrev2 (s : LB) : Option Nat := do
  check (s.bitIndex ≥ 0)
  some (wrapU8 (s.cache / 2 ^ 16))

/-- `LastBytesCache::previous_byte_3` (`last_bytes.rs:74-77`) -/
def lbPrev3 (s : LB) : Option Nat := do
  check (s.bitIndex ≥ 0)
  some (wrapU8 (s.cache / 2 ^ 24))

/-- `LastBytesCache::hash01_16` (`last_bytes.rs:79-83`) -/
def lbHash01 (s : LB) : Option Nat := do
  let bi ← lbBitIndex s
  let k ← subU 15 bi
  u16 (wrapU16 (2 ^ k) + wrapU16 (s.cache % 65536 / 2 ^ (bi + 1)))

/-- `LastBytesCache::hash02_16` (`last_bytes.rs:85-92`) -/
def lbHash02 (s : LB) : Option Nat := do
  check (s.bitIndex ≥ 0)
  let p2 ← lbPrev2 s
  let p1 ← lbPrev1 s
  let u ← lbUnfinished s
  some (fnvU16 (fnvMix (fnvMix (fnvMix fnvNew p2) p1) u))

/-- `LastBytesCache::hash03_16` (`last_bytes.rs:94-102`) -/
def lbHash03 (s : LB) : Option Nat := do
  check (s.bitIndex ≥ 0)
  let p3 ← lbPrev3 s
  let p2 ← lbPrev2 s
  let p1 ← lbPrev1 s
  let u ← lbUnfinished s
  some (fnvU16 (fnvMix (fnvMix (fnvMix (fnvMix fnvNew p3) p2) p1) u))

/-- the two state changing calls (`src/util/last_bytes.rs:45-55`) -/
inductive LBEvent
  | start
  | bit (b : Bool)
  deriving DecidableEq, Repr

/-- one call (`src/util/last_bytes.rs:45-55`) -/
def lbStep (s : LB) : LBEvent → Option LB
  | .start => lbStart s
  | .bit b => lbNext s b

/-- a sequence of calls (`src/util/last_bytes.rs:45-55`) -/
def lbRun : LB → List LBEvent → Option LB
  | s, [] => some s
  | s, e :: es => do
    let s ← lbStep s e
    lbRun s es

end Verif.Util
