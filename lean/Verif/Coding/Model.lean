import Verif.Rust

/-!
# Model of the range coder

`src/coding/mod.rs`, `src/coding/encoder.rs`, `src/coding/decoder.rs`.
A bit is a `Bool` (`Bit::One = true`, `src/bit/mod.rs:23-24`).
-/

namespace Verif.Coding

open Verif

/-- `FinalProbability::new_unchecked`, `src/coding/mod.rs:45-49`; the result is `raw()` of the
constructed value (probability of bit 0, 23 fractional bits). -/
def FinalProbability.newUnchecked (raw : Nat) : Option Nat := do
  check (raw ≤ 2 ^ 23)
  some (max (min raw (2 ^ 23 - 1)) 1)

/-- `Encoder`, `src/coding/encoder.rs:25-33`. The writer is the list of bytes written so far
(writing never fails). -/
structure Encoder where
  out : List Nat
  buffer : Int
  range : Int
  run : Int
  last : Nat
  delay : Bool
  carry : Bool
  deriving Repr, DecidableEq

/-- `Encoder::new`, `src/coding/encoder.rs:36-46`. -/
def Encoder.new : Encoder :=
  { out := [], buffer := 0, range := 0x7fffffff, run := 0, last := 0, delay := false, carry := true }

/-- `Encoder::output_byte`, `src/coding/encoder.rs:81-101`. The `while` loop of lines 90-94 writes
`run` copies of one byte and leaves the counter at zero; it is written as one `replicate`. -/
def Encoder.outputByte (e : Encoder) (octet : Int) : Option Encoder := do
  check (0 ≤ octet ∧ octet ≤ 255)
  let octet := octet.toNat
  if octet ≠ 0xff ∨ e.carry = true then
    let out ← if e.delay then do
        let toWrite ← u8 (e.last + if e.carry then 1 else 0)
        some (e.out ++ [toWrite])
      else some e.out
    let out := out ++ List.replicate e.run.toNat (if e.carry then 0x00 else 0xff)
    some { e with out := out, run := min e.run 0, last := octet, delay := true, carry := false }
  else
    let run ← i32 (e.run + 1)
    some { e with run := run }

/-- The `while` loop of `Encoder::normalize`, `src/coding/encoder.rs:73-78`. The loop is given fuel;
running out of fuel (an endless loop in Rust) is reported as a panic. -/
def Encoder.normalizeLoop : Nat → Encoder → Option Encoder
  | 0, _ => none
  | fuel + 1, e =>
    if e.range < 0x800000 then do
      let e ← e.outputByte (e.buffer / 2 ^ 23)
      normalizeLoop fuel
        { e with buffer := wrapI32 (e.buffer * 2 ^ 8) % 2 ^ 31, range := wrapI32 (e.range * 2 ^ 8) }
    else some e

/-- `Encoder::normalize`, `src/coding/encoder.rs:71-79`. A positive range needs at most three
rounds, so fuel 4 suffices. -/
def Encoder.normalize (e : Encoder) : Option Encoder := do
  check (e.range ≠ 0)
  Encoder.normalizeLoop 4 e

/-- `Encoder::add_with_carry`, `src/coding/encoder.rs:103-110`. -/
def Encoder.addWithCarry (e : Encoder) (fraction : Int) : Encoder :=
  let buffer := wrapI32 (e.buffer + fraction)
  if buffer < 0 then { e with carry := true, buffer := buffer % 2 ^ 31 }
  else { e with buffer := buffer }

/-- `Encoder::encode_bit`, `src/coding/encoder.rs:48-58`. -/
def Encoder.encodeBit (e : Encoder) (p : Nat) (value : Bool) : Option Encoder := do
  let e ← e.normalize
  let product ← i64 (e.range * p)
  let helper := wrapI32 (product / 2 ^ 23)
  if value then
    let e := e.addWithCarry helper
    let range ← i32 (e.range - helper)
    some { e with range := range }
  else
    some { e with range := helper }

/-- `Encoder::encode_rare_event`, `src/coding/encoder.rs:60-69`. -/
def Encoder.encodeRareEvent (e : Encoder) (isRare : Bool) : Option Encoder := do
  let e ← e.normalize
  if isRare then
    let freq ← i32 (e.range - 1)
    let e := e.addWithCarry freq
    some { e with range := 1 }
  else
    let range ← i32 (e.range - 1)
    some { e with range := range }

/-- One round of the loop in `Drop for Encoder`, `src/coding/encoder.rs:116-118`. -/
def Encoder.flushRound (e : Encoder) : Option Encoder := do
  let e ← e.outputByte (e.buffer / 2 ^ 23 % 2 ^ 8)
  some { e with buffer := wrapI32 (e.buffer * 2 ^ 8) }

/-- `Drop for Encoder`, `src/coding/encoder.rs:113-121`: five rounds. The result is the full list
of bytes written. -/
def Encoder.finish (e : Encoder) : Option (List Nat) := do
  let e ← e.flushRound
  let e ← e.flushRound
  let e ← e.flushRound
  let e ← e.flushRound
  let e ← e.flushRound
  some e.out

/-- `Decoder`, `src/coding/decoder.rs:25-30`. The reader is the list of bytes not yet read. -/
structure Decoder where
  input : List Nat
  buffer : Int
  range : Int
  nextHighBit : Int
  deriving Repr, DecidableEq

/-- `Decoder::input_byte`, `src/coding/decoder.rs:74-81`: returns the assembled byte. -/
def Decoder.inputByte (d : Decoder) : Option (Int × Decoder) :=
  match d.input with
  | [] => none
  | b :: rest =>
    let inputByte : Int := b
    some (inputByte / 2 + d.nextHighBit * 2 ^ 7, { d with input := rest, nextHighBit := inputByte % 2 })

/-- `rc_buffer <<= 8; rc_buffer += input_byte()`, `src/coding/decoder.rs:42-43` and `85-86`. -/
def Decoder.shiftIn (d : Decoder) : Option Decoder := do
  let shifted := wrapI32 (d.buffer * 2 ^ 8)
  let (byte, d) ← d.inputByte
  let buffer ← i32 (shifted + byte)
  some { d with buffer := buffer }

/-- `Decoder::new`, `src/coding/decoder.rs:33-46`. -/
def Decoder.new (input : List Nat) : Option Decoder := do
  let d : Decoder := { input := input, buffer := 0, range := 0x7fffffff, nextHighBit := 0 }
  let d ← d.shiftIn
  let d ← d.shiftIn
  let d ← d.shiftIn
  d.shiftIn

/-- The `while` loop of `Decoder::normalize`, `src/coding/decoder.rs:83-89`, with fuel (an endless
loop in Rust is reported as a panic). -/
def Decoder.normalizeLoop : Nat → Decoder → Option Decoder
  | 0, _ => none
  | fuel + 1, d =>
    if d.range < 0x800000 then do
      let d ← d.shiftIn
      normalizeLoop fuel { d with range := wrapI32 (d.range * 2 ^ 8) }
    else some d

/-- `Decoder::normalize`, `src/coding/decoder.rs:83-89`. -/
def Decoder.normalize (d : Decoder) : Option Decoder := Decoder.normalizeLoop 4 d

/-- `Decoder::decode_bit`, `src/coding/decoder.rs:48-60`. -/
def Decoder.decodeBit (d : Decoder) (p : Nat) : Option (Bool × Decoder) := do
  let d ← d.normalize
  let product ← i64 (d.range * p)
  let helper := wrapI32 (product / 2 ^ 23)
  if d.buffer < helper then
    some (false, { d with range := helper })
  else
    let range ← i32 (d.range - helper)
    let buffer ← i32 (d.buffer - helper)
    some (true, { d with range := range, buffer := buffer })

/-- `Decoder::decode_rare_event`, `src/coding/decoder.rs:62-72`. -/
def Decoder.decodeRareEvent (d : Decoder) : Option (Bool × Decoder) := do
  let d ← d.normalize
  let limit ← i32 (d.range - 1)
  if d.buffer < limit then
    some (false, { d with range := limit })
  else
    some (true, { d with buffer := 0, range := 1 })

/-- What a client can ask the coder to code: a bit with its probability, or a rare event flag (the calls `encode_bit` and `encode_rare_event`, `src/coding/encoder.rs:48-69`). -/
inductive Event where
  | bit (p : Nat) (value : Bool)
  | rare (value : Bool)
  deriving Repr, DecidableEq

/-- What the decoder is told about an event: all but its value (the calls `decode_bit` and `decode_rare_event`, `src/coding/decoder.rs:48-72`). -/
inductive Query where
  | bit (p : Nat)
  | rare
  deriving Repr, DecidableEq

/-- The part of an event known to the decoder beforehand (the arguments of `src/coding/decoder.rs:48-72`). -/
def Event.query : Event → Query
  | .bit p _ => .bit p
  | .rare _ => .rare

/-- The transmitted value (the argument `value` of `src/coding/encoder.rs:48` and `is_rare` of line 60). -/
def Event.value : Event → Bool
  | .bit _ v => v
  | .rare v => v

/-- The probability satisfies the invariant established by `FinalProbability` (`src/coding/mod.rs:45-49`). -/
def Event.Valid : Event → Prop
  | .bit p _ => 1 ≤ p ∧ p < 2 ^ 23
  | .rare _ => True

/-- The probability satisfies the invariant established by `FinalProbability` (`src/coding/mod.rs:45-49`). -/
def Query.Valid : Query → Prop
  | .bit p => 1 ≤ p ∧ p < 2 ^ 23
  | .rare => True

/-- Client: one call of the encoder (`src/coding/encoder.rs:48`, `60`). -/
def Encoder.event (e : Encoder) : Event → Option Encoder
  | .bit p v => e.encodeBit p v
  | .rare v => e.encodeRareEvent v

/-- Client: a sequence of encoder calls (`src/coding/encoder.rs:48`, `60`). -/
def Encoder.events (e : Encoder) : List Event → Option Encoder
  | [] => some e
  | ev :: evs => do
    let e ← e.event ev
    e.events evs

/-- Client: encode a sequence of events into a fresh writer and drop the encoder (`src/coding/encoder.rs:36`, `114`). -/
def encode (evs : List Event) : Option (List Nat) := do
  let e ← Encoder.new.events evs
  e.finish

/-- Client: one call of the decoder (`src/coding/decoder.rs:48`, `62`). -/
def Decoder.query (d : Decoder) : Query → Option (Bool × Decoder)
  | .bit p => d.decodeBit p
  | .rare => d.decodeRareEvent

/-- Client: a sequence of decoder calls (`src/coding/decoder.rs:48`, `62`); returns the values and the final decoder. -/
def Decoder.queries (d : Decoder) : List Query → Option (List Bool × Decoder)
  | [] => some ([], d)
  | q :: qs => do
    let (v, d) ← d.query q
    let (vs, d) ← d.queries qs
    some (v :: vs, d)

/-- Client: decode a sequence of values from a byte stream (`src/coding/decoder.rs:33`). -/
def decode (input : List Nat) (qs : List Query) : Option (List Bool × Decoder) := do
  let d ← Decoder.new input
  d.queries qs

end Verif.Coding
