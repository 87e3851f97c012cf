import Verif.Coding.Io

/-!
# Model of the encoder when a write fails

`write_all(..).unwrap()` panics when the writer fails. The panic unwinds the stack, which drops the encoder, and its `Drop` writes again.
Here a panic keeps the state of the encoder, with what has been changed up to the failing call, and `Drop` runs on that state. A panic
within `Drop` while unwinding ends the process at once. The writer is a step that returns whether it has taken the byte and its next
state in either case.
-/

namespace Verif.Coding

open Verif

variable {σ : Type}

/-- What a method of the encoder (`src/coding/encoder.rs:35-111`) leaves behind: it returned, or it panicked. -/
inductive Kept (σ : Type) where
  | ok (e : EncoderIo σ)
  | panic (e : EncoderIo σ)

/-- The next statement runs if the one before returned (as in `src/coding/encoder.rs:75-77`). -/
def Kept.next (r : Kept σ) (f : EncoderIo σ → Kept σ) : Kept σ :=
  match r with
  | .ok e => f e
  | .panic e => .panic e

/-- `self.writer.write_all(&[to_write]).unwrap()`, `src/coding/encoder.rs:88` and `93`. -/
def EncoderIo.keptWrite (write : σ → Nat → σ × Bool) (e : EncoderIo σ) (toWrite : Nat) : Kept σ :=
  if (write e.writer toWrite).2 then .ok { e with writer := (write e.writer toWrite).1 }
  else .panic { e with writer := (write e.writer toWrite).1 }

/-- The delayed byte, `src/coding/encoder.rs:85-89`. -/
def EncoderIo.keptDelayed (write : σ → Nat → σ × Bool) (e : EncoderIo σ) : Kept σ :=
  if e.delay then
    match u8 (e.last + if e.carry then 1 else 0) with
    | none => .panic e
    | some toWrite => e.keptWrite write toWrite
  else .ok e

/-- The `while` loop of `Encoder::output_byte`, `src/coding/encoder.rs:90-94`, for a counter of `n`. The counter goes down before the
byte is written. -/
def EncoderIo.keptRun (write : σ → Nat → σ × Bool) (toWrite : Nat) : Nat → EncoderIo σ → Kept σ
  | 0, e => .ok e
  | n + 1, e => (EncoderIo.keptWrite write { e with run := e.run - 1 } toWrite).next (keptRun write toWrite n)

/-- `Encoder::output_byte`, `src/coding/encoder.rs:81-101`. -/
def EncoderIo.keptOutput (write : σ → Nat → σ × Bool) (octet : Int) (e : EncoderIo σ) : Kept σ :=
  if 0 ≤ octet ∧ octet ≤ 255 then
    if octet.toNat ≠ 0xff ∨ e.carry = true then
      (e.keptDelayed write).next fun e =>
        (EncoderIo.keptRun write (if e.carry then 0x00 else 0xff) e.run.toNat e).next fun e =>
          .ok { e with last := octet.toNat, delay := true, carry := false }
    else
      match i32 (e.run + 1) with
      | none => .panic e
      | some run => .ok { e with run := run }
  else .panic e

/-- The `while` loop of `Encoder::normalize`, `src/coding/encoder.rs:73-78`, with fuel as in `Encoder.normalizeLoop`. -/
def EncoderIo.keptLoop (write : σ → Nat → σ × Bool) : Nat → EncoderIo σ → Kept σ
  | 0, e => .panic e
  | fuel + 1, e =>
    if e.range < 0x800000 then
      (e.keptOutput write (e.buffer / 2 ^ 23)).next fun e =>
        keptLoop write fuel { e with buffer := wrapI32 (e.buffer * 2 ^ 8) % 2 ^ 31, range := wrapI32 (e.range * 2 ^ 8) }
    else .ok e

/-- `Encoder::normalize`, `src/coding/encoder.rs:71-79`. -/
def EncoderIo.keptNormalize (write : σ → Nat → σ × Bool) (e : EncoderIo σ) : Kept σ :=
  if e.range ≠ 0 then EncoderIo.keptLoop write 4 e else .panic e

/-- `Encoder::encode_bit`, `src/coding/encoder.rs:50-57`, after the normalization. -/
def EncoderIo.keptBit (p : Nat) (value : Bool) (e : EncoderIo σ) : Kept σ :=
  match i64 (e.range * p) with
  | none => .panic e
  | some product =>
    let helper := wrapI32 (product / 2 ^ 23)
    if value then
      let e := e.addWithCarry helper
      match i32 (e.range - helper) with
      | none => .panic e
      | some range => .ok { e with range := range }
    else .ok { e with range := helper }

/-- `Encoder::encode_rare_event`, `src/coding/encoder.rs:62-68`, after the normalization. -/
def EncoderIo.keptRare (isRare : Bool) (e : EncoderIo σ) : Kept σ :=
  match i32 (e.range - 1) with
  | none => .panic e
  | some r => if isRare then .ok { e.addWithCarry r with range := 1 } else .ok { e with range := r }

/-- `Encoder::encode_bit` and `Encoder::encode_rare_event`, `src/coding/encoder.rs:48-69`. -/
def EncoderIo.keptEvent (write : σ → Nat → σ × Bool) (ev : Event) (e : EncoderIo σ) : Kept σ :=
  (e.keptNormalize write).next fun e =>
    match ev with
    | .bit p v => e.keptBit p v
    | .rare v => e.keptRare v

/-- Client: a sequence of encoder calls (`src/coding/encoder.rs:48`, `60`), up to the first panic. -/
def EncoderIo.keptEvents (write : σ → Nat → σ × Bool) : List Event → EncoderIo σ → Kept σ
  | [], e => .ok e
  | ev :: evs, e => (e.keptEvent write ev).next (keptEvents write evs)

/-- `Drop for Encoder`, `src/coding/encoder.rs:113-121`: the given number of rounds. -/
def EncoderIo.keptDrop (write : σ → Nat → σ × Bool) : Nat → EncoderIo σ → Kept σ
  | 0, e => .ok e
  | n + 1, e => (e.keptOutput write (e.buffer / 2 ^ 23 % 2 ^ 8)).next fun e =>
    keptDrop write n { e with buffer := wrapI32 (e.buffer * 2 ^ 8) }

/-- How the use of an encoder ends (`src/coding/encoder.rs:113-121`), and the writer it leaves behind: regularly, with a panic, or with a panic
while unwinding, which aborts the process. -/
inductive Ending (σ : Type) where
  | finished (writer : σ)
  | panicked (writer : σ)
  | aborted (writer : σ)
  deriving DecidableEq

/-- Client: encode a sequence of events; the encoder is dropped at the end or while unwinding (five rounds,
`src/coding/encoder.rs:115`). -/
def encodeKept (write : σ → Nat → σ × Bool) (w : σ) (evs : List Event) : Ending σ :=
  match (EncoderIo.new w).keptEvents write evs with
  | .ok e =>
    match e.keptDrop write 5 with
    | .ok e => .finished e.writer
    | .panic e => .panicked e.writer
  | .panic e =>
    match e.keptDrop write 5 with
    | .ok e => .panicked e.writer
    | .panic e => .aborted e.writer

end Verif.Coding
