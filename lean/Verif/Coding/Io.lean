import Verif.Coding.Model

/-!
# Model of the range coder with its reader and writer

`Verif.Coding.Model` takes a list of bytes for the reader and for the writer. Here both are what the code has, `std::io::Read` and
`std::io::Write`: a state and a step that moves one byte or fails. Every call moves one byte (`write_all(&[byte])`,
`read_exact(&mut [byte])`) and its result is unwrapped.
-/

namespace Verif.Coding

open Verif

variable {σ : Type}

/-- `Encoder`, `src/coding/encoder.rs:25-33`. -/
structure EncoderIo (σ : Type) where
  writer : σ
  buffer : Int
  range : Int
  run : Int
  last : Nat
  delay : Bool
  carry : Bool

/-- `Encoder::new`, `src/coding/encoder.rs:36-46`. -/
def EncoderIo.new (w : σ) : EncoderIo σ :=
  { writer := w, buffer := 0, range := 0x7fffffff, run := 0, last := 0, delay := false, carry := true }

/-- The `while` loop of `Encoder::output_byte`, `src/coding/encoder.rs:90-94`, for a counter of `n`. -/
def writeRun (write : σ → Nat → Option σ) (toWrite : Nat) : Nat → σ → Option σ
  | 0, w => some w
  | n + 1, w => do
    let w ← write w toWrite
    writeRun write toWrite n w

/-- The delayed byte, `src/coding/encoder.rs:85-89`. -/
def EncoderIo.writeDelayed (write : σ → Nat → Option σ) (e : EncoderIo σ) : Option σ :=
  if e.delay then do
    let toWrite ← u8 (e.last + if e.carry then 1 else 0)
    write e.writer toWrite
  else some e.writer

/-- `Encoder::output_byte`, `src/coding/encoder.rs:81-101`. -/
def EncoderIo.outputByte (write : σ → Nat → Option σ) (e : EncoderIo σ) (octet : Int) : Option (EncoderIo σ) := do
  check (0 ≤ octet ∧ octet ≤ 255)
  let octet := octet.toNat
  if octet ≠ 0xff ∨ e.carry = true then
    let w ← e.writeDelayed write
    let w ← writeRun write (if e.carry then 0x00 else 0xff) e.run.toNat w
    some { e with writer := w, run := min e.run 0, last := octet, delay := true, carry := false }
  else
    let run ← i32 (e.run + 1)
    some { e with run := run }

/-- The `while` loop of `Encoder::normalize`, `src/coding/encoder.rs:73-78`, with fuel as in `Encoder.normalizeLoop`. -/
def EncoderIo.normalizeLoop (write : σ → Nat → Option σ) : Nat → EncoderIo σ → Option (EncoderIo σ)
  | 0, _ => none
  | fuel + 1, e =>
    if e.range < 0x800000 then do
      let e ← e.outputByte write (e.buffer / 2 ^ 23)
      normalizeLoop write fuel
        { e with buffer := wrapI32 (e.buffer * 2 ^ 8) % 2 ^ 31, range := wrapI32 (e.range * 2 ^ 8) }
    else some e

/-- `Encoder::normalize`, `src/coding/encoder.rs:71-79`. -/
def EncoderIo.normalize (write : σ → Nat → Option σ) (e : EncoderIo σ) : Option (EncoderIo σ) := do
  check (e.range ≠ 0)
  EncoderIo.normalizeLoop write 4 e

/-- `Encoder::add_with_carry`, `src/coding/encoder.rs:103-110`. -/
def EncoderIo.addWithCarry (e : EncoderIo σ) (fraction : Int) : EncoderIo σ :=
  let buffer := wrapI32 (e.buffer + fraction)
  if buffer < 0 then { e with carry := true, buffer := buffer % 2 ^ 31 }
  else { e with buffer := buffer }

/-- `Encoder::encode_bit`, `src/coding/encoder.rs:48-58`. -/
def EncoderIo.encodeBit (write : σ → Nat → Option σ) (e : EncoderIo σ) (p : Nat) (value : Bool) : Option (EncoderIo σ) := do
  let e ← e.normalize write
  let product ← i64 (e.range * p)
  let helper := wrapI32 (product / 2 ^ 23)
  if value then
    let e := e.addWithCarry helper
    let range ← i32 (e.range - helper)
    some { e with range := range }
  else
    some { e with range := helper }

/-- `Encoder::encode_rare_event`, `src/coding/encoder.rs:60-69`. -/
def EncoderIo.encodeRareEvent (write : σ → Nat → Option σ) (e : EncoderIo σ) (isRare : Bool) : Option (EncoderIo σ) := do
  let e ← e.normalize write
  if isRare then
    let freq ← i32 (e.range - 1)
    let e := e.addWithCarry freq
    some { e with range := 1 }
  else
    let range ← i32 (e.range - 1)
    some { e with range := range }

/-- `Drop for Encoder`, `src/coding/encoder.rs:113-121`: the given number of rounds, then the writer is handed back. -/
def EncoderIo.flush (write : σ → Nat → Option σ) : Nat → EncoderIo σ → Option σ
  | 0, e => some e.writer
  | n + 1, e => do
    let e ← e.outputByte write (e.buffer / 2 ^ 23 % 2 ^ 8)
    flush write n { e with buffer := wrapI32 (e.buffer * 2 ^ 8) }

/-- Client: a sequence of encoder calls (`src/coding/encoder.rs:48`, `60`). -/
def EncoderIo.events (write : σ → Nat → Option σ) (e : EncoderIo σ) : List Event → Option (EncoderIo σ)
  | [] => some e
  | .bit p v :: evs => do
    let e ← e.encodeBit write p v
    e.events write evs
  | .rare v :: evs => do
    let e ← e.encodeRareEvent write v
    e.events write evs

/-- Client: encode a sequence of events into a writer and drop the encoder (five rounds, `src/coding/encoder.rs:115`). -/
def encodeIo (write : σ → Nat → Option σ) (w : σ) (evs : List Event) : Option σ := do
  let e ← (EncoderIo.new w).events write evs
  e.flush write 5

/-- `Decoder`, `src/coding/decoder.rs:25-30`. -/
structure DecoderIo (σ : Type) where
  reader : σ
  buffer : Int
  range : Int
  nextHighBit : Int

/-- `Decoder::input_byte`, `src/coding/decoder.rs:74-81`. -/
def DecoderIo.inputByte (read : σ → Option (Nat × σ)) (d : DecoderIo σ) : Option (Int × DecoderIo σ) := do
  let (b, r) ← read d.reader
  let inputByte : Int := b
  some (inputByte / 2 + d.nextHighBit * 2 ^ 7, { d with reader := r, nextHighBit := inputByte % 2 })

/-- `rc_buffer <<= 8; rc_buffer += input_byte()`, `src/coding/decoder.rs:42-43` and `85-86`. -/
def DecoderIo.shiftIn (read : σ → Option (Nat × σ)) (d : DecoderIo σ) : Option (DecoderIo σ) := do
  let shifted := wrapI32 (d.buffer * 2 ^ 8)
  let (byte, d) ← d.inputByte read
  let buffer ← i32 (shifted + byte)
  some { d with buffer := buffer }

/-- `Decoder::new`, `src/coding/decoder.rs:33-46`. -/
def DecoderIo.new (read : σ → Option (Nat × σ)) (r : σ) : Option (DecoderIo σ) := do
  let d : DecoderIo σ := { reader := r, buffer := 0, range := 0x7fffffff, nextHighBit := 0 }
  let d ← d.shiftIn read
  let d ← d.shiftIn read
  let d ← d.shiftIn read
  d.shiftIn read

/-- `Decoder::normalize`, `src/coding/decoder.rs:83-89`, with fuel as in `Decoder.normalizeLoop`. -/
def DecoderIo.normalizeLoop (read : σ → Option (Nat × σ)) : Nat → DecoderIo σ → Option (DecoderIo σ)
  | 0, _ => none
  | fuel + 1, d =>
    if d.range < 0x800000 then do
      let d ← d.shiftIn read
      normalizeLoop read fuel { d with range := wrapI32 (d.range * 2 ^ 8) }
    else some d

/-- `Decoder::decode_bit`, `src/coding/decoder.rs:48-60`. -/
def DecoderIo.decodeBit (read : σ → Option (Nat × σ)) (d : DecoderIo σ) (p : Nat) : Option (Bool × DecoderIo σ) := do
  let d ← DecoderIo.normalizeLoop read 4 d
  let product ← i64 (d.range * p)
  let helper := wrapI32 (product / 2 ^ 23)
  if d.buffer < helper then
    some (false, { d with range := helper })
  else
    let range ← i32 (d.range - helper)
    let buffer ← i32 (d.buffer - helper)
    some (true, { d with range := range, buffer := buffer })

/-- `Decoder::decode_rare_event`, `src/coding/decoder.rs:62-72`. -/
def DecoderIo.decodeRareEvent (read : σ → Option (Nat × σ)) (d : DecoderIo σ) : Option (Bool × DecoderIo σ) := do
  let d ← DecoderIo.normalizeLoop read 4 d
  let limit ← i32 (d.range - 1)
  if d.buffer < limit then
    some (false, { d with range := limit })
  else
    some (true, { d with buffer := 0, range := 1 })

/-- Client: a sequence of decoder calls (`src/coding/decoder.rs:48`, `62`); returns the values and the reader. -/
def DecoderIo.queries (read : σ → Option (Nat × σ)) (d : DecoderIo σ) : List Query → Option (List Bool × σ)
  | [] => some ([], d.reader)
  | .bit p :: qs => do
    let (v, d) ← d.decodeBit read p
    let (vs, r) ← d.queries read qs
    some (v :: vs, r)
  | .rare :: qs => do
    let (v, d) ← d.decodeRareEvent read
    let (vs, r) ← d.queries read qs
    some (v :: vs, r)

/-- Client: decode a sequence of values from a reader (`src/coding/decoder.rs:33`). -/
def decodeIo (read : σ → Option (Nat × σ)) (r : σ) (qs : List Query) : Option (List Bool × σ) := do
  let d ← DecoderIo.new read r
  d.queries read qs

end Verif.Coding
