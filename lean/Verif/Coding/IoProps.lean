import Verif.Coding.Io
import Verif.Coding.LongProps

/-!
# C90: coding to a writer and from a reader, as the events come

The coder with any reader and writer behaves as the coder with lists of C01 and C88; what has been written is never taken
back; the decoder is always exactly four bytes ahead of the exact coder.
-/

namespace Verif.Coding

open Verif

variable {σ : Type}

/-! ## Specification -/

/-- the writer takes the bytes one after the other -/
def takesAll (write : σ → Nat → Option σ) (w : σ) : List Nat → Option σ
  | [] => some w
  | b :: bs => (write w b).bind fun w => takesAll write w bs

/-- the reader gives the bytes one after the other and is then in the state `r'` -/
def Gives (read : σ → Option (Nat × σ)) : σ → List Nat → σ → Prop
  | r, [], r' => r = r'
  | r, b :: bs, r' => ∃ m, read r = some (b, m) ∧ Gives read m bs r'

/-- a device with room for `n` more bytes, which holds what it was given -/
def limited (s : List Nat × Nat) (b : Nat) : Option (List Nat × Nat) :=
  if s.2 = 0 then none else some (s.1 ++ [b], s.2 - 1)

/-! ## The encoder -/

theorem takesAll_append (write : σ → Nat → Option σ) (w : σ) (a b : List Nat) :
    takesAll write w (a ++ b) = (takesAll write w a).bind fun w => takesAll write w b := by
  induction a generalizing w with
  | nil => rfl
  | cons x a ih =>
    simp only [List.cons_append, takesAll]
    cases write w x with
    | none => rfl
    | some w' => simpa using ih w'

theorem writeRun_eq (write : σ → Nat → Option σ) (b n : Nat) (w : σ) :
    writeRun write b n w = takesAll write w (List.replicate n b) := by
  induction n generalizing w with
  | zero => rfl
  | succ n ih =>
    simp only [writeRun, List.replicate_succ, takesAll]
    cases write w b with
    | none => rfl
    | some w' => exact ih w'

/-- the encoder with the writer `w` -/
def Encoder.io (e : Encoder) (w : σ) : EncoderIo σ :=
  { writer := w, buffer := e.buffer, range := e.range, run := e.run, last := e.last, delay := e.delay, carry := e.carry }

/-- one step of both encoders -/
structure Sim (write : σ → Nat → Option σ) (f : Encoder → Option Encoder) (g : EncoderIo σ → Option (EncoderIo σ)) : Prop where
  ok : ∀ {e e'}, f e = some e' → ∃ t, e'.out = e.out ++ t ∧ ∀ w, g (e.io w) = (takesAll write w t).map e'.io
  no : ∀ {e}, f e = none → ∀ w, g (e.io w) = none

variable {write : σ → Nat → Option σ}

theorem Sim.comp {f f' : Encoder → Option Encoder} {g g' : EncoderIo σ → Option (EncoderIo σ)} (h : Sim write f g)
    (h' : Sim write f' g') : Sim write (fun e => (f e).bind f') (fun e => (g e).bind g') := by
  constructor
  · intro e e'' he
    obtain ⟨e', h1, h2⟩ := Option.bind_eq_some_iff.mp he
    obtain ⟨t, t1, t2⟩ := h.ok h1
    obtain ⟨t', t1', t2'⟩ := h'.ok h2
    refine ⟨t ++ t', by rw [t1', t1, List.append_assoc], fun w => ?_⟩
    simp only [t2, takesAll_append]
    cases takesAll write w t with
    | none => rfl
    | some w' => exact t2' w'
  · intro e he w
    cases h1 : f e with
    | none => simp only [h.no h1 w]; rfl
    | some e' =>
      rw [h1, Option.bind_some] at he
      obtain ⟨t, -, t2⟩ := h.ok h1
      simp only [t2]
      cases takesAll write w t with
      | none => rfl
      | some w' => exact h'.no he w'

/-- what `output_byte` leaves behind when it writes -/
def Encoder.wrote (e : Encoder) (o : Int) (t : List Nat) : Encoder :=
  { e with out := e.out ++ t, run := min e.run 0, last := o.toNat, delay := true, carry := false }

/-- what `output_byte` writes after the delayed byte -/
def Encoder.rest (e : Encoder) : List Nat := List.replicate e.run.toNat (if e.carry then 0x00 else 0xff)

theorem outputByte_cases (e : Encoder) (o : Int) : e.outputByte o =
    if 0 ≤ o ∧ o ≤ 255 then
      if o.toNat ≠ 0xff ∨ e.carry = true then
        if e.delay = true then (u8 (e.last + if e.carry then 1 else 0)).map fun b => e.wrote o (b :: e.rest)
        else some (e.wrote o e.rest)
      else (i32 (e.run + 1)).map fun r => { e with run := r }
    else none := by
  unfold Encoder.outputByte
  by_cases h0 : 0 ≤ o ∧ o ≤ 255
  · rw [check_pos h0, if_pos h0, ob_some]
    dsimp only
    by_cases h1 : o.toNat ≠ 0xff ∨ e.carry = true
    · rw [if_pos h1, if_pos h1]
      by_cases h2 : e.delay = true
      · rw [if_pos h2, if_pos h2]
        cases u8 (e.last + if e.carry then 1 else 0) with
        | none => rfl
        | some b => simp [Encoder.wrote, Encoder.rest]
      · rw [if_neg h2, if_neg h2]
        rfl
    · rw [if_neg h1, if_neg h1]
      cases i32 (e.run + 1) <;> rfl
  · rw [check_neg h0, if_neg h0]
    rfl

theorem outputByteIo_cases (e : Encoder) (w : σ) (o : Int) : (e.io w).outputByte write o =
    if 0 ≤ o ∧ o ≤ 255 then
      if o.toNat ≠ 0xff ∨ e.carry = true then
        if e.delay = true then (u8 (e.last + if e.carry then 1 else 0)).bind fun b =>
          (takesAll write w (b :: e.rest)).map (e.wrote o (b :: e.rest)).io
        else (takesAll write w e.rest).map (e.wrote o e.rest).io
      else (i32 (e.run + 1)).map fun r => ({ e with run := r } : Encoder).io w
    else none := by
  unfold EncoderIo.outputByte
  by_cases h0 : 0 ≤ o ∧ o ≤ 255
  · rw [check_pos h0, if_pos h0, ob_some]
    dsimp only
    by_cases h1 : o.toNat ≠ 0xff ∨ e.carry = true
    · rw [if_pos (show o.toNat ≠ 0xff ∨ (e.io w).carry = true from h1), if_pos h1]
      unfold EncoderIo.writeDelayed
      by_cases h2 : e.delay = true
      · rw [if_pos (show (e.io w).delay = true from h2), if_pos h2]
        change ((u8 (e.last + if e.carry then 1 else 0) >>= fun b => write w b) >>= fun w =>
          writeRun write (if e.carry then 0x00 else 0xff) e.run.toNat w >>= fun w => some ((e.wrote o []).io w)) = _
        cases u8 (e.last + if e.carry then 1 else 0) with
        | none => rfl
        | some b =>
          rw [ob_some, Option.bind_some]
          simp only [writeRun_eq, takesAll]
          cases write w b with
          | none => rfl
          | some w' =>
            rw [ob_some, Option.bind_some]
            change takesAll write w' e.rest >>= _ = _
            cases takesAll write w' e.rest <;> rfl
      · rw [if_neg (show ¬ (e.io w).delay = true from h2), if_neg h2]
        change (writeRun write (if e.carry then 0x00 else 0xff) e.run.toNat w >>= fun w => some ((e.wrote o []).io w)) = _
        rw [writeRun_eq]
        change takesAll write w e.rest >>= _ = _
        cases takesAll write w e.rest <;> rfl
    · rw [if_neg (show ¬ (o.toNat ≠ 0xff ∨ (e.io w).carry = true) from h1), if_neg h1]
      change (i32 (e.run + 1) >>= _) = _
      cases i32 (e.run + 1) <;> rfl
  · rw [check_neg h0, if_neg h0]
    rfl

theorem sim_outputByte (o : Int) : Sim write (fun e => e.outputByte o) (fun e => e.outputByte write o) := by
  constructor
  · intro e e' he
    rw [outputByte_cases] at he
    simp only [outputByteIo_cases]
    by_cases h0 : 0 ≤ o ∧ o ≤ 255
    · simp only [if_pos h0] at he ⊢
      by_cases h1 : o.toNat ≠ 0xff ∨ e.carry = true
      · simp only [if_pos h1] at he ⊢
        by_cases h2 : e.delay = true
        · simp only [if_pos h2] at he ⊢
          obtain ⟨b, hb, rfl⟩ := Option.map_eq_some_iff.mp he
          exact ⟨b :: e.rest, rfl, fun w => by rw [hb, Option.bind_some]⟩
        · simp only [if_neg h2] at he ⊢
          cases he
          exact ⟨e.rest, rfl, fun w => rfl⟩
      · simp only [if_neg h1] at he ⊢
        obtain ⟨b, hb, rfl⟩ := Option.map_eq_some_iff.mp he
        exact ⟨[], (List.append_nil _).symm, fun w => by rw [hb]; rfl⟩
    · rw [if_neg h0] at he
      cases he
  · intro e he w
    rw [outputByte_cases] at he
    rw [outputByteIo_cases]
    by_cases h0 : 0 ≤ o ∧ o ≤ 255
    · simp only [if_pos h0] at he ⊢
      by_cases h1 : o.toNat ≠ 0xff ∨ e.carry = true
      · simp only [if_pos h1] at he ⊢
        by_cases h2 : e.delay = true
        · simp only [if_pos h2] at he ⊢
          rw [Option.map_eq_none_iff.mp he]
          rfl
        · simp only [if_neg h2] at he
          cases he
      · simp only [if_neg h1] at he ⊢
        rw [Option.map_eq_none_iff.mp he]
        rfl
    · rw [if_neg h0]

/-- a step that writes nothing -/
theorem Sim.silent {f : Encoder → Option Encoder} {g : EncoderIo σ → Option (EncoderIo σ)}
    (h : ∀ e w, g (e.io w) = (f e).map fun e' => e'.io w) (ho : ∀ e e', f e = some e' → e'.out = e.out) : Sim write f g := by
  constructor
  · intro e e' he
    exact ⟨[], by rw [ho e e' he, List.append_nil], fun w => by rw [h, he]; rfl⟩
  · intro e he w
    rw [h, he]; rfl

theorem sim_loop : ∀ fuel, Sim write (Encoder.normalizeLoop fuel) (EncoderIo.normalizeLoop write fuel)
  | 0 => ⟨fun h => (by cases h), fun _ _ => rfl⟩
  | fuel + 1 => by
    have hs : Sim write (fun e => some { e with buffer := wrapI32 (e.buffer * 2 ^ 8) % 2 ^ 31, range := wrapI32 (e.range * 2 ^ 8) })
        (fun e => some { e with buffer := wrapI32 (e.buffer * 2 ^ 8) % 2 ^ 31, range := wrapI32 (e.range * 2 ^ 8) }) :=
      Sim.silent (fun _ _ => rfl) (by rintro e e' h; cases h; rfl)
    have hc := fun o => ((sim_outputByte (write := write) o).comp hs).comp (sim_loop fuel)
    constructor
    · intro e e' he
      unfold Encoder.normalizeLoop at he
      by_cases hlt : e.range < 0x800000
      · rw [if_pos hlt] at he
        obtain ⟨t, t1, t2⟩ := (hc (e.buffer / 2 ^ 23)).ok (e := e) (e' := e') (by
          obtain ⟨e1, h1, h2⟩ := Option.bind_eq_some_iff.mp he
          simp only [h1, Option.bind_some]
          exact h2)
        refine ⟨t, t1, fun w => ?_⟩
        rw [← t2 w]
        rw [EncoderIo.normalizeLoop]
        rw [if_pos (show (e.io w).range < 0x800000 from hlt)]
        change ((e.io w).outputByte write (e.buffer / 2 ^ 23) >>= _) = _
        cases (e.io w).outputByte write (e.buffer / 2 ^ 23) <;> rfl
      · rw [if_neg hlt] at he
        cases he
        refine ⟨[], by simp, fun w => ?_⟩
        rw [EncoderIo.normalizeLoop]
        rw [if_neg (show ¬ (e.io w).range < 0x800000 from hlt)]
        rfl
    · intro e he w
      unfold Encoder.normalizeLoop at he
      by_cases hlt : e.range < 0x800000
      · rw [if_pos hlt] at he
        have := (hc (e.buffer / 2 ^ 23)).no (e := e) (by
          cases h1 : e.outputByte (e.buffer / 2 ^ 23) with
          | none => rfl
          | some e1 => rw [h1] at he; exact he) w
        rw [← this]
        rw [EncoderIo.normalizeLoop]
        rw [if_pos (show (e.io w).range < 0x800000 from hlt)]
        change ((e.io w).outputByte write (e.buffer / 2 ^ 23) >>= _) = _
        cases (e.io w).outputByte write (e.buffer / 2 ^ 23) <;> rfl
      · rw [if_neg hlt] at he
        cases he

/-- equal steps -/
theorem Sim.congr {f f' : Encoder → Option Encoder} {g g' : EncoderIo σ → Option (EncoderIo σ)} (h : Sim write f g)
    (hf : ∀ e, f' e = f e) (hg : ∀ e, g' e = g e) : Sim write f' g' := by
  rw [show f' = f from funext hf, show g' = g from funext hg]
  exact h

theorem sim_normalize : Sim write Encoder.normalize (EncoderIo.normalize write) := by
  refine Sim.congr ((Sim.silent (f := fun e => (check (e.range ≠ 0)).bind fun _ => some e)
    (g := fun e => (check (e.range ≠ 0)).bind fun _ => some e) ?_ ?_).comp (sim_loop 4)) ?_ ?_
  · intro e w
    change (check (e.range ≠ 0)).bind _ = _
    cases check (e.range ≠ 0) <;> rfl
  · intro e e' h
    obtain ⟨_, -, h⟩ := Option.bind_eq_some_iff.mp h
    cases h
    rfl
  · intro e
    unfold Encoder.normalize
    cases check (e.range ≠ 0) <;> rfl
  · intro e
    unfold EncoderIo.normalize
    cases check (e.range ≠ 0) <;> rfl

theorem io_add (e : Encoder) (w : σ) (m : Int) : (e.io w).addWithCarry m = (e.addWithCarry m).io w := by
  unfold Encoder.addWithCarry EncoderIo.addWithCarry
  dsimp only
  change (if wrapI32 (e.buffer + m) < 0 then _ else _) = _
  by_cases h : wrapI32 (e.buffer + m) < 0
  · rw [if_pos h, if_pos h]; rfl
  · rw [if_neg h, if_neg h]; rfl

theorem add_out (e : Encoder) (m : Int) : (e.addWithCarry m).out = e.out := by
  unfold Encoder.addWithCarry
  dsimp only
  split_ifs <;> rfl

theorem sim_bit (p : Nat) (v : Bool) : Sim write (fun e => e.encodeBit p v) (fun e => e.encodeBit write p v) := by
  refine Sim.congr (sim_normalize.comp (Sim.silent
    (f := fun e => (i64 (e.range * p)).bind fun product =>
      if v then (i32 ((e.addWithCarry (wrapI32 (product / 2 ^ 23))).range - wrapI32 (product / 2 ^ 23))).bind fun range =>
        some { e.addWithCarry (wrapI32 (product / 2 ^ 23)) with range := range }
      else some { e with range := wrapI32 (product / 2 ^ 23) })
    (g := fun e => (i64 (e.range * p)).bind fun product =>
      if v then (i32 ((e.addWithCarry (wrapI32 (product / 2 ^ 23))).range - wrapI32 (product / 2 ^ 23))).bind fun range =>
        some { e.addWithCarry (wrapI32 (product / 2 ^ 23)) with range := range }
      else some { e with range := wrapI32 (product / 2 ^ 23) }) ?_ ?_)) (fun _ => rfl) (fun _ => rfl)
  · intro e w
    change (i64 (e.range * p)).bind _ = _
    cases i64 (e.range * p) with
    | none => rfl
    | some product =>
      simp only [Option.bind_some, io_add]
      cases v
      · rfl
      · simp only [if_true]
        change (i32 ((e.addWithCarry (wrapI32 (product / 2 ^ 23))).range - _)).bind _ = _
        cases i32 ((e.addWithCarry (wrapI32 (product / 2 ^ 23))).range - wrapI32 (product / 2 ^ 23)) <;> rfl
  · intro e e' h
    obtain ⟨_, -, h⟩ := Option.bind_eq_some_iff.mp h
    cases v
    · cases h; rfl
    · simp only [if_true] at h
      obtain ⟨_, -, h⟩ := Option.bind_eq_some_iff.mp h
      cases h
      exact add_out _ _

theorem sim_rare (v : Bool) : Sim write (fun e => e.encodeRareEvent v) (fun e => e.encodeRareEvent write v) := by
  refine Sim.congr (sim_normalize.comp (Sim.silent
    (f := fun e => if v then (i32 (e.range - 1)).bind fun freq => some { e.addWithCarry freq with range := 1 }
      else (i32 (e.range - 1)).bind fun range => some { e with range := range })
    (g := fun e => if v then (i32 (e.range - 1)).bind fun freq => some { e.addWithCarry freq with range := 1 }
      else (i32 (e.range - 1)).bind fun range => some { e with range := range }) ?_ ?_)) (fun _ => rfl) (fun _ => rfl)
  · intro e w
    change (if v then (i32 (e.range - 1)).bind _ else (i32 (e.range - 1)).bind _) = _
    cases i32 (e.range - 1) with
    | none => cases v <;> rfl
    | some r =>
      cases v
      · rfl
      · simp only [if_true, Option.bind_some, io_add]
        rfl
  · intro e e' h
    cases v
    · obtain ⟨_, -, h⟩ := Option.bind_eq_some_iff.mp h
      cases h; rfl
    · simp only [if_true] at h
      obtain ⟨_, -, h⟩ := Option.bind_eq_some_iff.mp h
      cases h
      exact add_out _ _

theorem sim_events : ∀ evs : List Event, Sim write (fun e => e.events evs) (fun e => e.events write evs)
  | [] => Sim.silent (fun _ _ => rfl) (by rintro e e' h; cases h; rfl)
  | .bit p v :: evs => Sim.congr ((sim_bit p v).comp (sim_events evs)) (fun _ => rfl) (fun _ => rfl)
  | .rare v :: evs => Sim.congr ((sim_rare v).comp (sim_events evs)) (fun _ => rfl) (fun _ => rfl)

/-- rounds of `Encoder.flushRound` -/
def Encoder.rounds : Nat → Encoder → Option Encoder
  | 0, e => some e
  | n + 1, e => e.flushRound.bind (Encoder.rounds n)

theorem finish_rounds (e : Encoder) : e.finish = (e.rounds 5).map Encoder.out := by
  unfold Encoder.finish
  simp only [Encoder.rounds, Option.bind_eq_bind, Option.map_bind, Function.comp_def, Option.map_some]

/-- rounds of the loop of `Drop` -/
def EncoderIo.rounds (write : σ → Nat → Option σ) : Nat → EncoderIo σ → Option (EncoderIo σ)
  | 0, e => some e
  | n + 1, e => ((e.outputByte write (e.buffer / 2 ^ 23 % 2 ^ 8)).bind fun e =>
      some { e with buffer := wrapI32 (e.buffer * 2 ^ 8) }).bind (EncoderIo.rounds write n)

theorem flush_rounds : ∀ (n : Nat) (e : EncoderIo σ), e.flush write n = (e.rounds write n).map EncoderIo.writer
  | 0, e => rfl
  | n + 1, e => by
    simp only [EncoderIo.flush, EncoderIo.rounds, Option.bind_eq_bind]
    cases e.outputByte write (e.buffer / 2 ^ 23 % 2 ^ 8) with
    | none => rfl
    | some e => exact flush_rounds n _

theorem sim_round : Sim write Encoder.flushRound (fun e => (e.outputByte write (e.buffer / 2 ^ 23 % 2 ^ 8)).bind fun e =>
    some { e with buffer := wrapI32 (e.buffer * 2 ^ 8) }) := by
  have h := fun o => (sim_outputByte (write := write) o).comp (Sim.silent
    (f := fun e => some { e with buffer := wrapI32 (e.buffer * 2 ^ 8) })
    (g := fun e => some { e with buffer := wrapI32 (e.buffer * 2 ^ 8) }) (fun _ _ => rfl) (by rintro e e' h; cases h; rfl))
  exact ⟨fun {e e'} he => (h (e.buffer / 2 ^ 23 % 2 ^ 8)).ok he, fun {e} he w => (h (e.buffer / 2 ^ 23 % 2 ^ 8)).no he w⟩

theorem sim_rounds : ∀ n, Sim write (Encoder.rounds n) (EncoderIo.rounds write n)
  | 0 => Sim.silent (fun _ _ => rfl) (by rintro e e' h; cases h; rfl)
  | n + 1 => sim_round.comp (sim_rounds n)

theorem encodeIo_eq (w : σ) (evs : List Event) : encodeIo write w evs = (encode evs).bind (takesAll write w) := by
  have h := (sim_events (write := write) evs).comp (sim_rounds 5)
  have e1 : encode evs = ((Encoder.new.events evs).bind (Encoder.rounds 5)).map Encoder.out := by
    unfold encode
    cases Encoder.new.events evs with
    | none => rfl
    | some e => exact finish_rounds e
  have e2 : encodeIo write w evs = (((EncoderIo.new w).events write evs).bind (EncoderIo.rounds write 5)).map EncoderIo.writer := by
    unfold encodeIo
    cases (EncoderIo.new w).events write evs with
    | none => rfl
    | some e => exact flush_rounds 5 e
  rw [e1, e2]
  cases he : (Encoder.new.events evs).bind (Encoder.rounds 5) with
  | none =>
    have := h.no he w
    change (((EncoderIo.new w).events write evs).bind _) = none at this
    rw [this]
    rfl
  | some e =>
    obtain ⟨t, t1, t2⟩ := h.ok he
    have := t2 w
    change (((EncoderIo.new w).events write evs).bind _) = _ at this
    rw [this, Option.map_some, Option.bind_some, t1]
    change _ = takesAll write w ([] ++ t)
    rw [List.nil_append]
    cases takesAll write w t <;> rfl

theorem out_grows {e e' : Encoder} {evs : List Event} (h : e.events evs = some e') : e.out <+: e'.out := by
  obtain ⟨t, t1, -⟩ := (sim_events (write := fun (s : Unit) _ => some s) evs).ok h
  exact ⟨t, t1.symm⟩

theorem out_finish {e : Encoder} {out : List Nat} (h : e.finish = some out) : e.out <+: out := by
  rw [finish_rounds] at h
  obtain ⟨e', h1, rfl⟩ := Option.map_eq_some_iff.mp h
  obtain ⟨t, t1, -⟩ := (sim_rounds (write := fun (s : Unit) _ => some s) 5).ok h1
  exact ⟨t, t1.symm⟩

/-! ## The decoder -/

/-- the decoder with the reader `r` -/
def Decoder.io (d : Decoder) (r : σ) : DecoderIo σ :=
  { reader := r, buffer := d.buffer, range := d.range, nextHighBit := d.nextHighBit }

/-- one step of both decoders -/
structure SimD (read : σ → Option (Nat × σ)) {α : Type} (f : Decoder → Option (α × Decoder))
    (g : DecoderIo σ → Option (α × DecoderIo σ)) : Prop where
  ok : ∀ {d v d'}, f d = some (v, d') → ∃ l, d.input = l ++ d'.input ∧ ∀ r r', Gives read r d.input r' →
    ∃ m, g (d.io r) = some (v, d'.io m) ∧ Gives read r l m ∧ Gives read m d'.input r'
  no : ∀ {d}, f d = none → ∀ r r', Gives read r d.input r' → read r' = none → g (d.io r) = none

/-- a step without a value -/
def plain {α : Type} (f : α → Option α) (d : α) : Option (Unit × α) := (f d).map fun d => ((), d)

variable {read : σ → Option (Nat × σ)}

theorem Gives.trans {r m r' : σ} {a b : List Nat} (h : Gives read r a m) (h' : Gives read m b r') : Gives read r (a ++ b) r' := by
  induction a generalizing r with
  | nil => cases h; exact h'
  | cons x a ih =>
    obtain ⟨k, k1, k2⟩ := h
    exact ⟨k, k1, ih k2⟩

theorem SimD.comp {α β : Type} {f : Decoder → Option (α × Decoder)} {g : DecoderIo σ → Option (α × DecoderIo σ)}
    {f' : α → Decoder → Option (β × Decoder)} {g' : α → DecoderIo σ → Option (β × DecoderIo σ)} (h : SimD read f g)
    (h' : ∀ a, SimD read (f' a) (g' a)) :
    SimD read (fun d => (f d).bind fun x => f' x.1 x.2) (fun d => (g d).bind fun x => g' x.1 x.2) := by
  constructor
  · intro d v d'' hd
    obtain ⟨⟨a, d'⟩, h1, h2⟩ := Option.bind_eq_some_iff.mp hd
    obtain ⟨l, l1, l2⟩ := h.ok h1
    obtain ⟨l', l1', l2'⟩ := (h' a).ok h2
    refine ⟨l ++ l', by rw [l1, l1', List.append_assoc], fun r r' hr => ?_⟩
    obtain ⟨m, m1, m2, m3⟩ := l2 r r' hr
    obtain ⟨m', m1', m2', m3'⟩ := l2' m r' m3
    exact ⟨m', by simp only [m1, Option.bind_some, m1'], m2.trans m2', m3'⟩
  · intro d hd r r' hr hn
    cases h1 : f d with
    | none => simp only [h.no h1 r r' hr hn]; rfl
    | some x =>
      obtain ⟨a, d'⟩ := x
      obtain ⟨l, -, l2⟩ := h.ok h1
      obtain ⟨m, m1, -, m3⟩ := l2 r r' hr
      rw [h1, Option.bind_some] at hd
      simp only [m1, Option.bind_some]
      exact (h' a).no hd m r' m3 hn

/-- a step that reads nothing -/
theorem SimD.silent {α : Type} {f : Decoder → Option (α × Decoder)} {g : DecoderIo σ → Option (α × DecoderIo σ)}
    (h : ∀ d r, g (d.io r) = (f d).map fun x => (x.1, x.2.io r)) (hi : ∀ d v d', f d = some (v, d') → d'.input = d.input) :
    SimD read f g := by
  constructor
  · intro d v d' hd
    exact ⟨[], by rw [hi d v d' hd]; rfl, fun r r' hr => ⟨r, by rw [h, hd]; rfl, rfl, by rw [hi d v d' hd]; exact hr⟩⟩
  · intro d hd r r' _ _
    rw [h, hd]; rfl

theorem SimD.congr {α : Type} {f f' : Decoder → Option (α × Decoder)} {g g' : DecoderIo σ → Option (α × DecoderIo σ)}
    (h : SimD read f g) (hf : ∀ d, f' d = f d) (hg : ∀ d, g' d = g d) : SimD read f' g' := by
  rw [show f' = f from funext hf, show g' = g from funext hg]
  exact h

theorem sim_input : SimD read Decoder.inputByte (DecoderIo.inputByte read) := by
  constructor
  · intro d v d' hd
    unfold Decoder.inputByte at hd
    cases hi : d.input with
    | nil => rw [hi] at hd; cases hd
    | cons b rest =>
      rw [hi] at hd
      cases hd
      refine ⟨[b], rfl, fun r r' hr => ?_⟩
      obtain ⟨m, m1, m2⟩ := hr
      refine ⟨m, ?_, ⟨m, m1, rfl⟩, m2⟩
      unfold DecoderIo.inputByte
      change (read r >>= _) = _
      rw [m1]
      rfl
  · intro d hd r r' hr hn
    unfold Decoder.inputByte at hd
    cases hi : d.input with
    | nil =>
      rw [hi] at hr
      cases hr
      unfold DecoderIo.inputByte
      change (read r >>= _) = _
      rw [hn]
      rfl
    | cons b rest => rw [hi] at hd; cases hd

theorem sim_shift : SimD read (plain Decoder.shiftIn) (plain (DecoderIo.shiftIn read)) := by
  refine ((SimD.silent (f := fun d => some (wrapI32 (d.buffer * 2 ^ 8), d))
    (g := fun d => some (wrapI32 (d.buffer * 2 ^ 8), d)) (fun _ _ => rfl) (by rintro d v d' h; cases h; rfl)).comp
    (f' := fun s d => d.inputByte.bind fun x => (i32 (s + x.1)).map fun b => ((), { x.2 with buffer := b }))
    (g' := fun s d => (d.inputByte read).bind fun x => (i32 (s + x.1)).map fun b => ((), { x.2 with buffer := b }))
    fun s => sim_input.comp (f' := fun a d => (i32 (s + a)).map fun b => ((), { d with buffer := b }))
      (g' := fun a d => (i32 (s + a)).map fun b => ((), { d with buffer := b })) fun a => SimD.silent ?_ ?_).congr ?_ ?_
  · intro d r
    cases i32 (s + a) <;> rfl
  · intro d v d' h
    obtain ⟨_, -, h⟩ := Option.map_eq_some_iff.mp h
    cases h; rfl
  · intro d
    simp only [plain, Decoder.shiftIn, Option.bind_some, Option.bind_eq_bind]
    cases d.inputByte with
    | none => rfl
    | some x =>
      simp only [Option.bind_some]
      cases i32 (wrapI32 (d.buffer * 2 ^ 8) + x.1) <;> rfl
  · intro d
    simp only [plain, DecoderIo.shiftIn, Option.bind_some, Option.bind_eq_bind]
    cases d.inputByte read with
    | none => rfl
    | some x =>
      simp only [Option.bind_some]
      cases i32 (wrapI32 (d.buffer * 2 ^ 8) + x.1) <;> rfl

theorem sim_dloop : ∀ fuel, SimD read (plain (Decoder.normalizeLoop fuel)) (plain (DecoderIo.normalizeLoop read fuel))
  | 0 => ⟨fun h => (by cases h), fun _ _ _ _ _ => rfl⟩
  | fuel + 1 => by
    have hs : SimD read (plain fun d => some { d with range := wrapI32 (d.range * 2 ^ 8) })
        (plain fun d => some { d with range := wrapI32 (d.range * 2 ^ 8) }) :=
      SimD.silent (fun _ _ => rfl) (by rintro d v d' h; cases h; rfl)
    have hc := ((sim_shift (read := read)).comp fun _ => hs).comp fun _ => sim_dloop fuel
    have e1 : ∀ d : Decoder, d.range < 0x800000 → plain (Decoder.normalizeLoop (fuel + 1)) d =
        (((plain Decoder.shiftIn d).bind fun x => (plain fun d => some { d with range := wrapI32 (d.range * 2 ^ 8) }) x.2).bind
          fun x => plain (Decoder.normalizeLoop fuel) x.2) := by
      intro d hlt
      rw [plain, Decoder.normalizeLoop, if_pos hlt, plain]
      cases d.shiftIn <;> rfl
    have e2 : ∀ d : DecoderIo σ, d.range < 0x800000 → plain (DecoderIo.normalizeLoop read (fuel + 1)) d =
        (((plain (DecoderIo.shiftIn read) d).bind fun x =>
          (plain fun d => some { d with range := wrapI32 (d.range * 2 ^ 8) }) x.2).bind
          fun x => plain (DecoderIo.normalizeLoop read fuel) x.2) := by
      intro d hlt
      rw [plain, DecoderIo.normalizeLoop, if_pos hlt, plain]
      cases d.shiftIn read <;> rfl
    have e3 : ∀ d : Decoder, ¬ d.range < 0x800000 → plain (Decoder.normalizeLoop (fuel + 1)) d = some ((), d) := by
      intro d hlt
      rw [plain, Decoder.normalizeLoop, if_neg hlt]
      rfl
    have e4 : ∀ d : DecoderIo σ, ¬ d.range < 0x800000 → plain (DecoderIo.normalizeLoop read (fuel + 1)) d = some ((), d) := by
      intro d hlt
      rw [plain, DecoderIo.normalizeLoop, if_neg hlt]
      rfl
    constructor
    · intro d v d' hd
      by_cases hlt : d.range < 0x800000
      · rw [e1 d hlt] at hd
        obtain ⟨l, l1, l2⟩ := hc.ok hd
        refine ⟨l, l1, fun r r' hr => ?_⟩
        obtain ⟨m, m1, m2⟩ := l2 r r' hr
        exact ⟨m, by rw [e2 (d.io r) hlt]; exact m1, m2⟩
      · rw [e3 d hlt] at hd
        cases hd
        exact ⟨[], rfl, fun r r' hr => ⟨r, e4 (d.io r) hlt, rfl, hr⟩⟩
    · intro d hd r r' hr hn
      by_cases hlt : d.range < 0x800000
      · rw [e1 d hlt] at hd
        rw [e2 (d.io r) hlt]
        exact hc.no hd r r' hr hn
      · rw [e3 d hlt] at hd
        cases hd

theorem sim_query (q : Query) : SimD read (fun d => d.query q)
    (fun d => match q with | .bit p => d.decodeBit read p | .rare => d.decodeRareEvent read) := by
  cases q with
  | bit p =>
    refine ((sim_dloop 4).comp
      (f' := fun _ d => (i64 (d.range * p)).bind fun product =>
        if d.buffer < wrapI32 (product / 2 ^ 23) then some (false, { d with range := wrapI32 (product / 2 ^ 23) })
        else (i32 (d.range - wrapI32 (product / 2 ^ 23))).bind fun range =>
          (i32 (d.buffer - wrapI32 (product / 2 ^ 23))).bind fun buffer => some (true, { d with range := range, buffer := buffer }))
      (g' := fun _ d => (i64 (d.range * p)).bind fun product =>
        if d.buffer < wrapI32 (product / 2 ^ 23) then some (false, { d with range := wrapI32 (product / 2 ^ 23) })
        else (i32 (d.range - wrapI32 (product / 2 ^ 23))).bind fun range =>
          (i32 (d.buffer - wrapI32 (product / 2 ^ 23))).bind fun buffer => some (true, { d with range := range, buffer := buffer }))
      fun _ => SimD.silent ?_ ?_).congr ?_ ?_
    · intro d r
      change (i64 (d.range * p)).bind _ = _
      cases i64 (d.range * p) with
      | none => rfl
      | some product =>
        simp only [Option.bind_some]
        change (if d.buffer < _ then _ else (i32 (d.range - _)).bind fun range => (i32 (d.buffer - _)).bind fun buffer => _) = _
        by_cases h : d.buffer < wrapI32 (product / 2 ^ 23)
        · rw [if_pos h, if_pos h]; rfl
        · rw [if_neg h, if_neg h]
          cases i32 (d.range - wrapI32 (product / 2 ^ 23)) with
          | none => rfl
          | some a =>
            simp only [Option.bind_some]
            cases i32 (d.buffer - wrapI32 (product / 2 ^ 23)) <;> rfl
    · intro d v d' h
      obtain ⟨product, -, h⟩ := Option.bind_eq_some_iff.mp h
      by_cases hlt : d.buffer < wrapI32 (product / 2 ^ 23)
      · rw [if_pos hlt] at h
        cases h; rfl
      · rw [if_neg hlt] at h
        obtain ⟨_, -, h⟩ := Option.bind_eq_some_iff.mp h
        obtain ⟨_, -, h⟩ := Option.bind_eq_some_iff.mp h
        cases h; rfl
    · intro d
      simp only [Decoder.query, Decoder.decodeBit, Decoder.normalize, plain, Option.bind_eq_bind]
      cases Decoder.normalizeLoop 4 d <;> rfl
    · intro d
      simp only [DecoderIo.decodeBit, plain, Option.bind_eq_bind]
      cases DecoderIo.normalizeLoop read 4 d <;> rfl
  | rare =>
    refine ((sim_dloop 4).comp
      (f' := fun _ d => (i32 (d.range - 1)).bind fun limit =>
        if d.buffer < limit then some (false, { d with range := limit }) else some (true, { d with buffer := 0, range := 1 }))
      (g' := fun _ d => (i32 (d.range - 1)).bind fun limit =>
        if d.buffer < limit then some (false, { d with range := limit }) else some (true, { d with buffer := 0, range := 1 }))
      fun _ => SimD.silent ?_ ?_).congr ?_ ?_
    · intro d r
      change (i32 (d.range - 1)).bind _ = _
      cases i32 (d.range - 1) with
      | none => rfl
      | some limit =>
        simp only [Option.bind_some]
        change (if d.buffer < limit then _ else _) = _
        by_cases h : d.buffer < limit
        · rw [if_pos h, if_pos h]; rfl
        · rw [if_neg h, if_neg h]; rfl
    · intro d v d' h
      obtain ⟨limit, -, h⟩ := Option.bind_eq_some_iff.mp h
      by_cases hlt : d.buffer < limit
      · rw [if_pos hlt] at h
        cases h; rfl
      · rw [if_neg hlt] at h
        cases h; rfl
    · intro d
      simp only [Decoder.query, Decoder.decodeRareEvent, Decoder.normalize, plain, Option.bind_eq_bind]
      cases Decoder.normalizeLoop 4 d <;> rfl
    · intro d
      simp only [DecoderIo.decodeRareEvent, plain, Option.bind_eq_bind]
      cases DecoderIo.normalizeLoop read 4 d <;> rfl

/-- client: a sequence of decoder calls, with the decoder at the end -/
def DecoderIo.calls (read : σ → Option (Nat × σ)) (d : DecoderIo σ) : List Query → Option (List Bool × DecoderIo σ)
  | [] => some ([], d)
  | q :: qs => (match q with | .bit p => d.decodeBit read p | .rare => d.decodeRareEvent read).bind fun x =>
      (DecoderIo.calls read x.2 qs).bind fun y => some (x.1 :: y.1, y.2)

theorem queries_calls : ∀ (qs : List Query) (d : DecoderIo σ),
    d.queries read qs = (d.calls read qs).map fun x => (x.1, x.2.reader)
  | [], d => rfl
  | .bit p :: qs, d => by
    simp only [DecoderIo.queries, DecoderIo.calls, Option.bind_eq_bind]
    cases d.decodeBit read p with
    | none => rfl
    | some x =>
      simp only [Option.bind_some, queries_calls qs]
      cases x.2.calls read qs <;> rfl
  | .rare :: qs, d => by
    simp only [DecoderIo.queries, DecoderIo.calls, Option.bind_eq_bind]
    cases d.decodeRareEvent read with
    | none => rfl
    | some x =>
      simp only [Option.bind_some, queries_calls qs]
      cases x.2.calls read qs <;> rfl

theorem sim_queries : ∀ qs : List Query, SimD read (fun d => d.queries qs) (fun d => d.calls read qs)
  | [] => SimD.silent (fun _ _ => rfl) (by rintro d v d' h; cases h; rfl)
  | q :: qs => by
    refine ((sim_query q).comp (f' := fun v d => (d.queries qs).bind fun y => some (v :: y.1, y.2))
      (g' := fun v d => (d.calls read qs).bind fun y => some (v :: y.1, y.2)) fun v =>
        (sim_queries qs).comp (f' := fun vs d => some (v :: vs, d)) (g' := fun vs d => some (v :: vs, d)) fun vs =>
          SimD.silent (fun _ _ => rfl) (by rintro d v d' h; cases h; rfl)).congr (fun d => ?_) (fun d => ?_)
    · rfl
    · rfl

theorem sim_new : SimD read (fun d => ((plain Decoder.shiftIn d).bind fun x => (plain Decoder.shiftIn x.2).bind fun x =>
      (plain Decoder.shiftIn x.2).bind fun x => plain Decoder.shiftIn x.2))
    (fun d => ((plain (DecoderIo.shiftIn read) d).bind fun x => (plain (DecoderIo.shiftIn read) x.2).bind fun x =>
      (plain (DecoderIo.shiftIn read) x.2).bind fun x => plain (DecoderIo.shiftIn read) x.2)) :=
  sim_shift.comp fun _ => sim_shift.comp fun _ => sim_shift.comp fun _ => sim_shift

theorem new_plain (input : List Nat) (qs : List Query) : decode input qs =
    (((fun d => ((plain Decoder.shiftIn d).bind fun x => (plain Decoder.shiftIn x.2).bind fun x =>
      (plain Decoder.shiftIn x.2).bind fun x => plain Decoder.shiftIn x.2))
        ({ input := input, buffer := 0, range := 0x7fffffff, nextHighBit := 0 } : Decoder)).bind fun x => x.2.queries qs) := by
  unfold decode Decoder.new
  simp only [plain, Option.bind_eq_bind, Option.bind_map, Option.bind_assoc, Function.comp_def]

theorem newIo_plain (r : σ) (qs : List Query) : decodeIo read r qs =
    (((fun d => ((plain (DecoderIo.shiftIn read) d).bind fun x => (plain (DecoderIo.shiftIn read) x.2).bind fun x =>
      (plain (DecoderIo.shiftIn read) x.2).bind fun x => plain (DecoderIo.shiftIn read) x.2))
        ({ reader := r, buffer := 0, range := 0x7fffffff, nextHighBit := 0 } : DecoderIo σ)).bind fun x =>
          x.2.calls read qs).map fun x => (x.1, x.2.reader) := by
  unfold decodeIo DecoderIo.new
  simp only [plain, Option.bind_eq_bind, Option.bind_map, Option.map_bind, Option.bind_assoc, Function.comp_def, queries_calls]

theorem gives_append {r r' : σ} {a b : List Nat} (h : Gives read r (a ++ b) r') : ∃ m, Gives read r a m ∧ Gives read m b r' := by
  induction a generalizing r with
  | nil => exact ⟨r, rfl, h⟩
  | cons x a ih =>
    obtain ⟨m, m1, m2⟩ := h
    obtain ⟨m', k1, k2⟩ := ih m2
    exact ⟨m', ⟨m, m1, k1⟩, k2⟩

theorem decodeIo_ok {input : List Nat} {qs : List Query} {vs : List Bool} {d : Decoder} (h : decode input qs = some (vs, d))
    {r r' : σ} (hr : Gives read r input r') :
    ∃ used m, input = used ++ d.input ∧ decodeIo read r qs = some (vs, m) ∧ Gives read r used m := by
  rw [new_plain] at h
  obtain ⟨l, l1, l2⟩ := ((sim_new (read := read)).comp fun _ => sim_queries qs).ok h
  obtain ⟨m, m1, m2, -⟩ := l2 r r' hr
  refine ⟨l, m, l1, ?_, m2⟩
  rw [newIo_plain]
  change Option.bind _ _ = _ at m1
  erw [m1]
  rfl

theorem decodeIo_no {input : List Nat} {qs : List Query} (h : decode input qs = none)
    {r r' : σ} (hr : Gives read r input r') (hn : read r' = none) : decodeIo read r qs = none := by
  rw [new_plain] at h
  have := ((sim_new (read := read)).comp fun _ => sim_queries qs).no h r r' hr hn
  rw [newIo_plain]
  exact Option.map_eq_none_iff.mpr this

/-! ## As the events come -/

theorem drep_part : ∀ (evs : List Event) {d : Decoder} {iv f : Iv} {pre code trail : List Nat},
    DRep d iv pre → (∀ ev ∈ evs, ev.Valid) → Inside f (iv.events evs) → 1 ≤ f.range →
    val (pre ++ code) = 2 * f.low → (pre ++ code).length = f.k + 4 → (∀ b ∈ code, b < 256) → d.input = code ++ trail →
    ∃ d' mid code', d.queries (evs.map Event.query) = some (evs.map Event.value, d') ∧ code = mid ++ code' ∧
      d'.input = code' ++ trail ∧ DRep d' (iv.events evs) (pre ++ mid)
  | [], d, iv, f, pre, code, trail, h, _, _, _, _, _, _, hin =>
    ⟨d, [], code, rfl, rfl, hin, by rw [List.append_nil]; exact h⟩
  | ev :: evs, d, iv, f, pre, code, trail, h, hv, hf, hf1, hval, hlen, hb, hin => by
    have her := event_range h.hr1 (hv ev (by simp))
    have hins := Inside.events evs her (fun x hx => hv x (by simp [hx]))
    obtain ⟨d1, mid, code', hq, rfl, hin1, h1⟩ :=
      drep_event h (hv ev (by simp)) (hf.trans hins.1) hf1 hval hlen hb hin
    obtain ⟨d2, mid2, code2, hq2, rfl, hin2, h2⟩ := drep_part evs h1 (fun x hx => hv x (by simp [hx])) (f := f)
      (code := code') (trail := trail) hf hf1 (by rw [List.append_assoc]; exact hval)
      (by rw [List.append_assoc]; exact hlen) (fun b hb' => hb b (by simp [hb'])) hin1
    exact ⟨d2, mid ++ mid2, code2, by simp [Decoder.queries, hq, hq2], by simp, hin2, by rw [← List.append_assoc]; exact h2⟩

theorem iv_events_append : ∀ (a b : List Event) (iv : Iv), iv.events (a ++ b) = (iv.events a).events b
  | [], _, _ => rfl
  | e :: a, b, iv => iv_events_append a b (iv.event e)

/-! ## Theorems -/

/-- **C90 (writer).** Whatever the writer: the encoder hands it the bytes of the output, one after the other, each once, and
nothing else. It panics if and only if the encoder panics or the writer refuses one of the bytes. -/
theorem C90_writer (write : σ → Nat → Option σ) (w : σ) (evs : List Event) :
    encodeIo write w evs = (encode evs).bind (takesAll write w) := encodeIo_eq w evs

/-- **C90 (full device).** On a device with room for `n` bytes coding succeeds if and only if the output is not longer; then
the device holds the output. -/
theorem C90_limited (evs : List Event) (old : List Nat) (n : Nat) : encodeIo limited (old, n) evs =
    (encode evs).bind fun out => if out.length ≤ n then some (old ++ out, n - out.length) else none := by
  rw [encodeIo_eq]
  congr 1
  funext out
  induction out generalizing old n with
  | nil => simp [takesAll]
  | cons b out ih =>
    simp only [takesAll, limited]
    by_cases hn : n = 0
    · rw [if_pos hn, if_neg (by simp [hn])]
      rfl
    · rw [if_neg hn, Option.bind_some, ih, List.length_cons]
      by_cases hl : out.length ≤ n - 1
      · rw [if_pos hl, if_pos (by omega)]
        simp only [List.append_assoc, List.singleton_append, Option.some.injEq, Prod.mk.injEq, true_and]
        omega
      · rw [if_neg hl, if_neg (by omega)]

/-- **C90 (reader).** Whatever the reader: if it gives the bytes `input`, then the decoder returns what it returns for the list
`input` and has read exactly the bytes it takes from the list. If the list does not suffice and the reader fails after it,
then the decoder panics. -/
theorem C90_reader (read : σ → Option (Nat × σ)) (r r' : σ) (input : List Nat) (hr : Gives read r input r') (qs : List Query) :
    (∀ vs d, decode input qs = some (vs, d) → ∃ used m, input = used ++ d.input ∧ decodeIo read r qs = some (vs, m) ∧
      Gives read r used m) ∧
    (decode input qs = none → read r' = none → decodeIo read r qs = none) :=
  ⟨fun _ _ h => decodeIo_ok h hr, fun h hn => decodeIo_no h hr hn⟩

/-- **C90 (pipe).** If encoding into a writer succeeds, the writer was given a list of bytes, and every reader that gives these
bytes makes the decoder return the values; the decoder stops reading right behind them. -/
theorem C90_pipe {τ : Type} (write : σ → Nat → Option σ) (w w' : σ) (evs : List Event) (hv : ∀ ev ∈ evs, ev.Valid)
    (h : encodeIo write w evs = some w') :
    ∃ bytes, takesAll write w bytes = some w' ∧ ∀ (read : τ → Option (Nat × τ)) (r r' : τ), Gives read r bytes r' →
      ∃ m, decodeIo read r (evs.map Event.query) = some (evs.map Event.value, m) ∧ Gives read r bytes m := by
  rw [encodeIo_eq] at h
  obtain ⟨bytes, h1, h2⟩ := Option.bind_eq_some_iff.mp h
  refine ⟨bytes, h2, fun read r r' hr => ?_⟩
  obtain ⟨-, d, hd, hi⟩ := C88_round_trip evs hv h1 []
  rw [List.append_nil] at hd
  obtain ⟨used, m, u1, u2, u3⟩ := decodeIo_ok hd hr
  rw [hi, List.append_nil] at u1
  subst u1
  exact ⟨m, u2, u3⟩

/-- **C90 (nothing is taken back).** What has been written after some events is the beginning of the final output, whatever
events follow. -/
theorem C90_written {evs more : List Event} {e : Encoder} {out : List Nat} (he : Encoder.new.events evs = some e)
    (h : encode (evs ++ more) = some out) : e.out <+: out := by
  have happ : ∀ (a b : List Event) (e : Encoder), e.events (a ++ b) = (e.events a).bind fun e => e.events b := by
    intro a
    induction a with
    | nil => intro b e; rfl
    | cons x a ih =>
      intro b e
      simp only [List.cons_append, Encoder.events, Option.bind_eq_bind]
      cases e.event x with
      | none => rfl
      | some e1 => exact ih b e1
  unfold encode at h
  rw [happ, he, Option.bind_some] at h
  obtain ⟨e', h1, h2⟩ := Option.bind_eq_some_iff.mp h
  exact (out_grows h1).trans (out_finish h2)

/-- **C90 (what is held back).** Of the bytes determined so far all have been written but the last one and those before it which a
carry may still change: of the code of the events so far, written in base 256, at most one digit and a run of digits `0xff`
(or, when the carry has just come, `0x00`) at the end is held back. -/
theorem C90_held {evs : List Event} (hv : ∀ ev ∈ evs, ev.Valid) {e : Encoder} (he : Encoder.new.events evs = some e) :
    ∃ run, e.out.length + min 1 (emitted evs) + run = emitted evs ∧
      (256 ^ run ∣ (Iv.init.events evs).low / 2 ^ 31 + 1 ∨ 256 ^ run ∣ (Iv.init.events evs).low / 2 ^ 31) := by
  rcases events_cases evs rep_new hv with ⟨e', he', h⟩ | ⟨he', -⟩
  swap
  · rw [he] at he'; cases he'
  rw [he, Option.some.injEq] at he'
  subst he'
  have hk : e.pend.length = emitted evs := h.hk
  have hlow := h.hlow
  have hb := h.hb
  have hq : (Iv.init.events evs).low / 2 ^ 31 = val e.pend + e.c := by push_cast at *; omega
  refine ⟨e.run.toNat, ?_, ?_⟩
  · rw [← hk, Encoder.pend]
    cases hd : e.delay
    · obtain ⟨h1, h2, -⟩ := h.hd hd
      simp [h1, h2]
    · simp only [if_true, List.length_append, List.length_replicate, List.length_cons, List.length_nil]
      omega
  · rw [hq, Encoder.pend, val_append, List.length_replicate]
    have hff := val_replicate_ff e.run.toNat
    have hc : e.c = 0 ∨ e.c = 1 := by unfold Encoder.c; split_ifs <;> simp
    rcases hc with hc | hc
    · left
      rw [hc, add_zero, Nat.add_assoc, hff]
      exact ⟨val (e.out ++ if e.delay = true then [e.last] else []) + 1, by ring⟩
    · right
      rw [hc, Nat.add_assoc, hff]
      exact ⟨val (e.out ++ if e.delay = true then [e.last] else []) + 1, by ring⟩

/-- **C90 (read ahead).** While decoding a long output the decoder has, after any number of events, returned their values and
read exactly four bytes more than these events determine, that is as many as the output of these events alone would have. -/
theorem C90_ahead {evs more : List Event} (hv : ∀ ev ∈ evs ++ more, ev.Valid) {out : List Nat}
    (h : encode (evs ++ more) = some out) (trail : List Nat) :
    4 + emitted evs ≤ out.length ∧
      ∃ d, decode (out ++ trail) (evs.map Event.query) = some (evs.map Event.value, d) ∧
        d.input = out.drop (4 + emitted evs) ++ trail := by
  rcases encode_cases (evs ++ more) hv with ⟨out', h1, hval, hbl, hbb⟩ | ⟨h1, -⟩
  swap
  · rw [h] at h1; cases h1
  rw [h, Option.some.injEq] at h1
  subst h1
  obtain ⟨hi0, -⟩ := Inside.events evs (iv := Iv.init) (by simp [Iv.init]) (fun x hx => hv x (by simp [hx]))
  have hr : 1 ≤ (Iv.init.events evs).range ∧ (Iv.init.events evs).range < 2 ^ 31 := by
    have key : ∀ (l : List Event) (iv : Iv), 1 ≤ iv.range ∧ iv.range < 2 ^ 31 → (∀ ev ∈ l, ev.Valid) →
        1 ≤ (iv.events l).range ∧ (iv.events l).range < 2 ^ 31 := by
      intro l
      induction l with
      | nil => intro iv h _; exact h
      | cons x l ih =>
        intro iv h hl
        exact ih _ (event_range h (hl x (by simp))) fun y hy => hl y (by simp [hy])
    exact key evs Iv.init (by simp [Iv.init]) fun x hx => hv x (by simp [hx])
  obtain ⟨hins, hfr⟩ := Inside.events more hr (fun x hx => hv x (by simp [hx]))
  rw [← iv_events_append] at hins hfr
  match out, hval, hbl, hbb with
  | b0 :: b1 :: b2 :: b3 :: rest, hval, hbl, hbb =>
    have hci := code_inside (hins.trans hi0) hfr (pre := [b0, b1, b2, b3]) (post := rest) hval rfl hbl
      (fun b hb => hbb b (by simp [hb]))
    obtain ⟨d, hd, hdi, hdr⟩ := drep_new (rest := rest ++ trail) (hbb b0 (by simp))
      (hbb b1 (by simp)) (hbb b2 (by simp)) (hbb b3 (by simp))
      (by simpa [Iv.init] using hci.2)
    obtain ⟨d', mid, code', hq, hm, hin, hdr'⟩ := drep_part evs hdr (fun x hx => hv x (by simp [hx])) hins hfr hval hbl
      (fun b hb => hbb b (by simp [hb])) hdi
    have hk := hdr'.hk
    have hk' : mid.length = emitted evs := by
      rw [List.length_append] at hk
      simp only [List.length_cons, List.length_nil] at hk
      unfold emitted
      omega
    subst hm
    refine ⟨?_, d', by
      change (Decoder.new (b0 :: b1 :: b2 :: b3 :: (mid ++ code' ++ trail)) >>= _) = _
      rw [hd]
      exact hq, ?_⟩
    · simp only [List.length_cons, List.length_append]
      omega
    · rw [hin, ← hk', Nat.add_comm]
      simp
  | [], _, hbl, _ => simp at hbl
  | [_], _, hbl, _ => simp at hbl
  | [_, _], _, hbl, _ => simp at hbl
  | [_, _, _], _, hbl, _ => simp at hbl

/-- the events of the example of C01 on devices with room for six and for seven bytes -/
example : encodeIo limited ([], 6) [.bit 4194304 true, .bit 1 false, .bit 4194304 true, .rare true] = none ∧
    encodeIo limited ([9], 8) [.bit 4194304 true, .bit 1 false, .bit 4194304 true, .rare true] =
      some ([9, 128, 0, 0, 253, 255, 255, 254], 1) := by decide +kernel

/-- after three events two bytes are determined and held back, because a carry has just come; the fourth event writes them -/
example : (Encoder.new.events [.bit 4194304 true, .bit 1 false, .bit 4194304 true]).map Encoder.out = some [] ∧
    emitted [.bit 4194304 true, .bit 1 false, .bit 4194304 true] = 2 ∧
    (Encoder.new.events [.bit 4194304 true, .bit 1 false, .bit 4194304 true, .rare true]).map Encoder.out = some [128, 0] ∧
    emitted [.bit 4194304 true, .bit 1 false, .bit 4194304 true, .rare true] = 3 := by decide +kernel

/-- a reader that counts the bytes it gave, from a list -/
example : decodeIo (fun (s : List Nat × Nat) => match s.1 with | [] => none | b :: t => some (b, (t, s.2 + 1)))
    ([128, 0, 0, 253, 255, 255, 254, 42], 0) [.bit 4194304, .bit 1, .bit 4194304, .rare] =
      some ([true, false, true, true], ([42], 7)) := by decide +kernel

end Verif.Coding
