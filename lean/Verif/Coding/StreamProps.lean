import Verif.Coding.Props

/-!
# C05 (continued): what the decoder reads

For every stream, long enough or not, the answers depend only on the bytes read, and running out of bytes is the
only way to panic.
-/

namespace Verif.Coding

open Verif

/-- a decoder whose stream goes on with the bytes `t` -/
def Decoder.more (d : Decoder) (t : List Nat) : Decoder := { d with input := d.input ++ t }

/-- the step `f` depends only on what it reads, reads no byte twice, and panics only for lack of bytes: with more bytes
it either panics as well or reads some of them -/
structure Reader {α : Type} (f : Decoder → Option (α × Decoder)) : Prop where
  shrink : ∀ {d v d'}, f d = some (v, d') → d'.input.length ≤ d.input.length
  more : ∀ {d v d'}, f d = some (v, d') → ∀ t, f (d.more t) = some (v, d'.more t)
  short : ∀ {d}, f d = none → ∀ t v d', f (d.more t) = some (v, d') → d'.input.length < t.length

theorem Reader.pure {α : Type} (g : Decoder → Option (α × Decoder)) (v : Decoder → Option α) (b r n : Decoder → Int)
    (hg : ∀ d, g d = (v d).map fun a => (a, ⟨d.input, b d, r d, n d⟩))
    (h : ∀ d t, v (d.more t) = v d ∧ b (d.more t) = b d ∧ r (d.more t) = r d ∧ n (d.more t) = n d) : Reader g where
  shrink {d v' d'} he := by
    rw [hg, Option.map_eq_some_iff] at he
    obtain ⟨_, _, he⟩ := he
    cases he; exact Nat.le_refl _
  more {d v' d'} he t := by
    rw [hg, Option.map_eq_some_iff] at he
    obtain ⟨a, ha, he⟩ := he
    obtain ⟨h1, h2, h3, h4⟩ := h d t
    cases he
    rw [hg, h1, h2, h3, h4, ha]; rfl
  short {d} he t v' d' hs := by
    rw [hg, Option.map_eq_none_iff] at he
    rw [hg, (h d t).1, he] at hs
    cases hs

theorem Reader.bind {α β : Type} {f : Decoder → Option (α × Decoder)} {g : α → Decoder → Option (β × Decoder)}
    (hf : Reader f) (hg : ∀ a, Reader (g a)) : Reader (fun d => (f d).bind fun x => g x.1 x.2) where
  shrink {d v d'} he := by
    obtain ⟨⟨a, d1⟩, h1, h2⟩ := Option.bind_eq_some_iff.1 he
    exact Nat.le_trans ((hg a).shrink h2) (hf.shrink h1)
  more {d v d'} he t := by
    obtain ⟨⟨a, d1⟩, h1, h2⟩ := Option.bind_eq_some_iff.1 he
    simp only [hf.more h1 t, Option.bind_some]
    exact (hg a).more h2 t
  short {d} he t v d' hs := by
    obtain ⟨⟨a, d1⟩, h1, h2⟩ := Option.bind_eq_some_iff.1 hs
    cases hd : f d with
    | none => exact Nat.lt_of_le_of_lt ((hg a).shrink h2) (hf.short hd t a d1 h1)
    | some x =>
      obtain ⟨a', d1'⟩ := x
      have h3 := hf.more hd t
      rw [h1] at h3
      cases h3
      simp only [hd, Option.bind_some] at he
      exact (hg a).short he t v d' h2

theorem Reader.congr {α : Type} {f g : Decoder → Option (α × Decoder)} (h : Reader f) (he : ∀ d, g d = f d) :
    Reader g := by
  have : g = f := funext he
  rw [this]; exact h

/-- a step without a result -/
abbrev unitStep (f : Decoder → Option Decoder) (d : Decoder) : Option (Unit × Decoder) := (f d).map fun d => ((), d)

theorem reader_input : Reader Decoder.inputByte where
  shrink {d v d'} he := by
    obtain ⟨input, b, r, n⟩ := d
    cases input with
    | nil => simp [Decoder.inputByte] at he
    | cons x xs => simp [Decoder.inputByte] at he; rw [← he.2]; simp
  more {d v d'} he t := by
    obtain ⟨input, b, r, n⟩ := d
    cases input with
    | nil => simp [Decoder.inputByte] at he
    | cons x xs =>
      simp [Decoder.inputByte] at he
      rw [← he.1, ← he.2]
      simp [Decoder.more, Decoder.inputByte]
  short {d} he t v d' hs := by
    obtain ⟨input, b, r, n⟩ := d
    cases input with
    | cons x xs => simp [Decoder.inputByte] at he
    | nil =>
      cases t with
      | nil => simp [Decoder.more, Decoder.inputByte] at hs
      | cons x xs =>
        simp [Decoder.more, Decoder.inputByte] at hs
        rw [← hs.2]; simp

theorem reader_shift : Reader (unitStep Decoder.shiftIn) := by
  have h1 : Reader fun d : Decoder => some (wrapI32 (d.buffer * 2 ^ 8), d) :=
    Reader.pure _ (fun d => some (wrapI32 (d.buffer * 2 ^ 8))) (·.buffer) (·.range) (·.nextHighBit) (fun _ => rfl)
      (fun _ _ => ⟨rfl, rfl, rfl, rfl⟩)
  have h3 : ∀ z : Int, Reader fun d : Decoder => (i32 z).map fun b => ((), { d with buffer := b }) := fun z =>
    Reader.pure _ (fun _ => (i32 z).map fun _ => ()) (fun _ => z) (·.range) (·.nextHighBit)
      (fun d => by
        unfold i32
        split <;> rfl)
      (fun _ _ => ⟨rfl, rfl, rfl, rfl⟩)
  refine (h1.bind fun s => reader_input.bind fun x => h3 (s + x)).congr fun d => ?_
  unfold unitStep Decoder.shiftIn
  cases hd : d.inputByte with
  | none => simp [hd]
  | some x =>
    simp only [Option.bind_eq_bind, Option.bind_some, hd]
    cases i32 (wrapI32 (d.buffer * 2 ^ 8) + x.1) <;> rfl

theorem reader_loop : ∀ fuel, Reader (unitStep (Decoder.normalizeLoop fuel))
  | 0 => ⟨fun h => by simp [unitStep, Decoder.normalizeLoop] at h, fun h => by simp [unitStep, Decoder.normalizeLoop] at h,
      fun _ t v d' h => by simp [unitStep, Decoder.normalizeLoop] at h⟩
  | fuel + 1 => by
    have hs : Reader fun d : Decoder => some ((), { d with range := wrapI32 (d.range * 2 ^ 8) }) :=
      Reader.pure _ (fun _ => some ()) (·.buffer) (fun d => wrapI32 (d.range * 2 ^ 8)) (·.nextHighBit) (fun _ => rfl)
        (fun _ _ => ⟨rfl, rfl, rfl, rfl⟩)
    have hy := reader_shift.bind fun _ => hs.bind fun _ => reader_loop fuel
    have hn : Reader fun d : Decoder => some ((), d) :=
      Reader.pure _ (fun _ => some ()) (·.buffer) (·.range) (·.nextHighBit) (fun _ => rfl)
        (fun _ _ => ⟨rfl, rfl, rfl, rfl⟩)
    have heq : ∀ d : Decoder, unitStep (Decoder.normalizeLoop (fuel + 1)) d =
        if d.range < 0x800000 then (unitStep Decoder.shiftIn d).bind fun x =>
          (some ((), { x.2 with range := wrapI32 (x.2.range * 2 ^ 8) })).bind fun x =>
            unitStep (Decoder.normalizeLoop fuel) x.2
        else some ((), d) := by
      intro d
      unfold unitStep
      conv_lhs => unfold Decoder.normalizeLoop
      split
      · cases d.shiftIn <;> rfl
      · rfl
    constructor
    · intro d v d' h
      rw [heq] at h
      split at h
      · exact hy.shrink h
      · exact hn.shrink h
    · intro d v d' h t
      rw [heq] at h ⊢
      have hr : (d.more t).range = d.range := rfl
      rw [hr]
      split at h
      · rw [if_pos (by assumption)]; exact hy.more h t
      · rw [if_neg (by assumption)]; exact hn.more h t
    · intro d h t v d' hs
      rw [heq] at h hs
      have hr : (d.more t).range = d.range := rfl
      rw [hr] at hs
      split at h
      · rw [if_pos (by assumption)] at hs; exact hy.short h t v d' hs
      · cases h

theorem reader_query (q : Query) : Reader fun d => d.query q := by
  cases q with
  | bit p =>
    have h : Reader fun d : Decoder => (i64 (d.range * p)).bind fun product =>
        if d.buffer < wrapI32 (product / 2 ^ 23) then some (false, { d with range := wrapI32 (product / 2 ^ 23) })
        else (i32 (d.range - wrapI32 (product / 2 ^ 23))).bind fun range =>
          (i32 (d.buffer - wrapI32 (product / 2 ^ 23))).bind fun buffer =>
            some (true, { d with range := range, buffer := buffer }) := by
      refine Reader.pure _
        (fun d => (i64 (d.range * p)).bind fun product =>
          if d.buffer < wrapI32 (product / 2 ^ 23) then some false
          else (i32 (d.range - wrapI32 (product / 2 ^ 23))).bind fun _ =>
            (i32 (d.buffer - wrapI32 (product / 2 ^ 23))).bind fun _ => some true)
        (fun d => if d.buffer < wrapI32 (d.range * p / 2 ^ 23) then d.buffer
          else d.buffer - wrapI32 (d.range * p / 2 ^ 23))
        (fun d => if d.buffer < wrapI32 (d.range * p / 2 ^ 23) then wrapI32 (d.range * p / 2 ^ 23)
          else d.range - wrapI32 (d.range * p / 2 ^ 23))
        (·.nextHighBit) ?_ (fun _ _ => ⟨rfl, rfl, rfl, rfl⟩)
      intro d
      unfold i64
      split
      · simp only [Option.bind_some]
        split
        · rfl
        · unfold i32
          split
          · simp only [Option.bind_some]
            split <;> rfl
          · rfl
      · rfl
    refine ((reader_loop 4).bind fun _ => h).congr fun d => ?_
    show d.decodeBit p = _
    unfold Decoder.decodeBit Decoder.normalize unitStep
    cases Decoder.normalizeLoop 4 d <;> rfl
  | rare =>
    have h : Reader fun d : Decoder => (i32 (d.range - 1)).bind fun limit =>
        if d.buffer < limit then some (false, { d with range := limit })
        else some (true, { d with buffer := 0, range := 1 }) := by
      refine Reader.pure _
        (fun d => (i32 (d.range - 1)).map fun limit => if d.buffer < limit then false else true)
        (fun d => if d.buffer < d.range - 1 then d.buffer else 0)
        (fun d => if d.buffer < d.range - 1 then d.range - 1 else 1)
        (·.nextHighBit) ?_ (fun _ _ => ⟨rfl, rfl, rfl, rfl⟩)
      intro d
      unfold i32
      split
      · simp only [Option.bind_some, Option.map_some]
        split <;> rfl
      · rfl
    refine ((reader_loop 4).bind fun _ => h).congr fun d => ?_
    show d.decodeRareEvent = _
    unfold Decoder.decodeRareEvent Decoder.normalize unitStep
    cases Decoder.normalizeLoop 4 d <;> rfl

theorem reader_queries : ∀ qs : List Query, Reader fun d => d.queries qs
  | [] => Reader.pure _ (fun _ => some []) (·.buffer) (·.range) (·.nextHighBit) (fun _ => rfl)
      (fun _ _ => ⟨rfl, rfl, rfl, rfl⟩)
  | q :: qs => by
    have h : ∀ v : Bool, Reader fun d : Decoder => (d.queries qs).bind fun x => some (v :: x.1, x.2) := fun v =>
      (reader_queries qs).bind fun vs => Reader.pure _ (fun _ => some (v :: vs)) (·.buffer) (·.range) (·.nextHighBit)
        (fun _ => rfl) (fun _ _ => ⟨rfl, rfl, rfl, rfl⟩)
    exact ((reader_query q).bind h).congr fun d => rfl

/-- the decoding client as a step of a decoder in the state before the first byte -/
theorem decode_reader (qs : List Query) : Reader fun d : Decoder =>
    (unitStep Decoder.shiftIn d).bind fun x => (unitStep Decoder.shiftIn x.2).bind fun x =>
      (unitStep Decoder.shiftIn x.2).bind fun x => (unitStep Decoder.shiftIn x.2).bind fun x => x.2.queries qs :=
  reader_shift.bind fun _ => reader_shift.bind fun _ => reader_shift.bind fun _ => reader_shift.bind fun _ =>
    reader_queries qs

theorem decode_eq (input : List Nat) (qs : List Query) : decode input qs =
    (fun d : Decoder =>
      (unitStep Decoder.shiftIn d).bind fun x => (unitStep Decoder.shiftIn x.2).bind fun x =>
      (unitStep Decoder.shiftIn x.2).bind fun x => (unitStep Decoder.shiftIn x.2).bind fun x => x.2.queries qs)
      { input := input, buffer := 0, range := 0x7fffffff, nextHighBit := 0 } := by
  unfold decode Decoder.new unitStep
  simp only [Option.bind_eq_bind]
  cases h1 : Decoder.shiftIn { input := input, buffer := 0, range := 0x7fffffff, nextHighBit := 0 } with
  | none => rfl
  | some d1 =>
    simp only [Option.bind_some, Option.map_some]
    cases h2 : d1.shiftIn with
    | none => rfl
    | some d2 =>
      simp only [Option.bind_some, Option.map_some]
      cases h3 : d2.shiftIn with
      | none => rfl
      | some d3 =>
        simp only [Option.bind_some, Option.map_some]
        cases d3.shiftIn <;> rfl

/-- **C05 (prefix).** If decoding succeeds, then on every continuation of the stream it gives the same values, ends in
the same state and leaves the continuation unread. -/
theorem C05_prefix (input : List Nat) (qs : List Query) (vs : List Bool) (d : Decoder)
    (h : decode input qs = some (vs, d)) (trail : List Nat) :
    decode (input ++ trail) qs = some (vs, { d with input := d.input ++ trail }) := by
  rw [decode_eq] at h ⊢
  exact (decode_reader qs).more h trail

/-- **C05 (panic).** If decoding panics then only for lack of bytes: continued by enough bytes, whatever they are, the
stream is decoded without a panic, and the decoder reads beyond the end of the original stream. -/
theorem C05_panic (input : List Nat) (qs : List Query) (hi : ∀ b ∈ input, b < 256) (hv : ∀ q ∈ qs, q.Valid)
    (h : decode input qs = none) (trail : List Nat) (ht : ∀ b ∈ trail, b < 256)
    (hl : 4 + 3 * qs.length ≤ input.length + trail.length) :
    ∃ vs d, decode (input ++ trail) qs = some (vs, d) ∧ d.input.length < trail.length := by
  obtain ⟨vs, d, hd, -, -⟩ := C05_any_stream (input ++ trail) qs
    (fun b hb => (List.mem_append.1 hb).elim (hi b) (ht b)) hv (by rw [List.length_append]; omega)
  refine ⟨vs, d, hd, ?_⟩
  rw [decode_eq] at h hd
  exact (decode_reader qs).short h trail vs d hd

/-- **C05 (truncation).** Removing the last byte, or more, of an encoded stream makes the decoder panic; it never makes
it return wrong values. -/
theorem C05_truncated (evs : List Event) (hv : ∀ ev ∈ evs, ev.Valid) (hlen : emitted evs + 5 < 2 ^ 31)
    (bytes : List Nat) (hb : encode evs = some bytes) (n : Nat) (hn : n < bytes.length) :
    decode (bytes.take n) (evs.map Event.query) = none := by
  obtain ⟨bytes', hb', -, d, hd, hi⟩ := C01_round_trip evs hv hlen []
  rw [hb] at hb'
  cases hb'
  rw [List.append_nil] at hd
  cases h : decode (bytes.take n) (evs.map Event.query) with
  | none => rfl
  | some x =>
    obtain ⟨vs, d'⟩ := x
    have := C05_prefix _ _ _ _ h (bytes.drop n)
    rw [List.take_append_drop, hd] at this
    simp only [Option.some.injEq, Prod.mk.injEq] at this
    have h2 := congrArg Decoder.input this.2
    rw [hi] at h2
    have h3 := congrArg List.length h2
    simp only [List.length_nil, List.length_append, List.length_drop] at h3
    omega

example : decode [128, 0, 0, 253, 255, 255, 254] [.bit 4194304, .bit 1, .bit 4194304, .rare] ≠ none ∧
    decode [128, 0, 0, 253, 255, 255] [.bit 4194304, .bit 1, .bit 4194304, .rare] = none ∧
    decode [128, 0, 0, 253] [.bit 4194304, .bit 1] ≠ none := by decide +kernel

end Verif.Coding
