import Verif.Coding.Props

/-!
# C97: the work of the coder

The rounds of the loops are counted. Everything outside of loops takes a fixed number of steps.
-/

namespace Verif.Coding

open Verif

/-! ## Counting rounds -/

/-- rounds of the loop over the pending bytes in `output_byte` (`src/coding/encoder.rs:90-94`) -/
def Encoder.outputRounds (e : Encoder) (octet : Int) : Nat := if octet ≠ 0xff ∨ e.carry = true then e.run.toNat else 0

/-- rounds of the loop of `normalize` (`src/coding/encoder.rs:73-78`) together with the rounds within `output_byte` -/
def Encoder.loopRounds : Nat → Encoder → Option Nat
  | 0, _ => none
  | fuel + 1, e =>
    if e.range < 0x800000 then do
      let e' ← e.outputByte (e.buffer / 2 ^ 23)
      let r ← loopRounds fuel
        { e' with buffer := wrapI32 (e'.buffer * 2 ^ 8) % 2 ^ 31, range := wrapI32 (e'.range * 2 ^ 8) }
      some (1 + e.outputRounds (e.buffer / 2 ^ 23) + r)
    else some 0

/-- rounds of one call of the encoder (`src/coding/encoder.rs:48-69`); only `normalize` has loops -/
def Encoder.eventsRounds : Encoder → List Event → Option Nat
  | _, [] => some 0
  | e, ev :: evs => do
    let r ← e.loopRounds 4
    let e ← e.event ev
    let r' ← e.eventsRounds evs
    some (r + r')

/-- rounds of the loop of `drop` (`src/coding/encoder.rs:115-119`) together with the rounds within `output_byte` -/
def Encoder.flushRounds : Nat → Encoder → Option Nat
  | 0, _ => some 0
  | n + 1, e => do
    let e' ← e.flushRound
    let r ← flushRounds n e'
    some (1 + e.outputRounds (e.buffer / 2 ^ 23 % 2 ^ 8) + r)

/-- rounds of the encoder for a sequence of events, with `drop` (`src/coding/encoder.rs:48-121`) -/
def encodeRounds (evs : List Event) : Option Nat := do
  let r ← Encoder.new.eventsRounds evs
  let e ← Encoder.new.events evs
  let r' ← e.flushRounds 5
  some (r + r')

/-- rounds of the loop of `normalize` of the decoder (`src/coding/decoder.rs:83-89`) -/
def Decoder.loopRounds : Nat → Decoder → Option Nat
  | 0, _ => none
  | fuel + 1, d =>
    if d.range < 0x800000 then do
      let d ← d.shiftIn
      let r ← loopRounds fuel { d with range := wrapI32 (d.range * 2 ^ 8) }
      some (1 + r)
    else some 0

/-- rounds of the calls of the decoder (`src/coding/decoder.rs:48-72`); only `normalize` has a loop -/
def Decoder.queriesRounds : Decoder → List Query → Option Nat
  | _, [] => some 0
  | d, q :: qs => do
    let r ← d.loopRounds 4
    let (_, d) ← d.query q
    let r' ← d.queriesRounds qs
    some (r + r')

/-! ## Proof -/

/-- bytes handed over: those written and those held back -/
def Encoder.handed (e : Encoder) : Nat := e.out.length + e.run.toNat + e.delay.toNat

theorem output_work {e e' : Encoder} {octet : Int} (h : e.outputByte octet = some e') (h0 : 0 ≤ e.run) :
    0 ≤ e'.run ∧ e'.handed = e.handed + 1 ∧ e.out.length + e.outputRounds octet ≤ e'.out.length ∧
      e'.buffer = e.buffer ∧ (octet ≠ 0xff → e'.run = 0) := by
  unfold Encoder.outputByte at h
  obtain ⟨_, hc, h⟩ := Option.bind_eq_some_iff.mp h
  have hc := check_eq_some.mp hc
  dsimp only at h
  have hoct : octet.toNat ≠ 0xff ↔ octet ≠ 0xff := by omega
  by_cases hi : octet ≠ 0xff ∨ e.carry = true
  · rw [if_pos (by rw [hoct]; exact hi)] at h
    obtain ⟨out, h1, hl⟩ : ∃ out, e' = Encoder.mk (out ++ List.replicate e.run.toNat (if e.carry then 0x00 else 0xff))
        e.buffer e.range (min e.run 0) octet.toNat true false ∧ out.length = e.out.length + e.delay.toNat := by
      by_cases hd : e.delay = true
      · rw [if_pos hd] at h
        obtain ⟨w, -, h⟩ := Option.bind_eq_some_iff.mp h
        exact ⟨e.out ++ [w], (Option.some.inj h).symm, by simp [hd]⟩
      · rw [if_neg hd] at h
        exact ⟨e.out, (Option.some.inj h).symm, by simp [Bool.eq_false_iff.mpr hd]⟩
    subst h1
    refine ⟨by simp only; omega, ?_, ?_, rfl, fun _ => by simp only; omega⟩
    · simp only [Encoder.handed, List.length_append, List.length_replicate, hl, Bool.toNat_true]
      omega
    · rw [Encoder.outputRounds, if_pos hi]
      simp only [List.length_append, List.length_replicate, hl]
      omega
  · rw [if_neg (by rw [hoct]; exact hi)] at h
    obtain ⟨run, h1, h⟩ := Option.bind_eq_some_iff.mp h
    obtain rfl := Option.some.inj h
    obtain ⟨-, rfl⟩ : _ ∧ e.run + 1 = run := by
      unfold i32 at h1
      split at h1
      · exact ⟨trivial, Option.some.inj h1⟩
      · cases h1
    refine ⟨by simp only; omega, ?_, ?_, rfl, fun h => absurd (Or.inl h) hi⟩
    · simp only [Encoder.handed]
      omega
    · rw [Encoder.outputRounds, if_neg hi]
      simp

theorem loop_work : ∀ (fuel : Nat) (e e' : Encoder), Encoder.normalizeLoop fuel e = some e' → 0 ≤ e.run →
    ∃ r, e.loopRounds fuel = some r ∧ 0 ≤ e'.run ∧
      r + e.handed + e.out.length ≤ e'.handed + e'.out.length := by
  intro fuel
  induction fuel with
  | zero => intro e e' h; cases h
  | succ fuel ih =>
    intro e e' h h0
    rw [Encoder.normalizeLoop] at h
    rw [Encoder.loopRounds]
    by_cases hr : e.range < 0x800000
    · rw [if_pos hr] at h
      rw [if_pos hr]
      obtain ⟨e1, h1, h⟩ := Option.bind_eq_some_iff.mp h
      obtain ⟨a1, a2, a3, -, -⟩ := output_work h1 h0
      obtain ⟨r, b1, b2, b3⟩ := ih _ _ h a1
      refine ⟨1 + e.outputRounds (e.buffer / 2 ^ 23) + r, by rw [h1, ob_some, b1, ob_some], b2, ?_⟩
      simp only [Encoder.handed] at b3 a2 ⊢
      omega
    · rw [if_neg hr] at h ⊢
      obtain rfl := Option.some.inj h
      exact ⟨0, rfl, h0, by omega⟩

/-- a call normalizes and leaves the output alone otherwise -/
theorem event_out {e e' : Encoder} {ev : Event} (h : e.event ev = some e') :
    ∃ e1, Encoder.normalizeLoop 4 e = some e1 ∧ e'.out = e1.out ∧ e'.run = e1.run ∧ e'.delay = e1.delay := by
  have hadd : ∀ (a : Encoder) f, (a.addWithCarry f).out = a.out ∧ (a.addWithCarry f).run = a.run ∧
      (a.addWithCarry f).delay = a.delay := by
    intro a f
    unfold Encoder.addWithCarry
    dsimp only
    split <;> exact ⟨rfl, rfl, rfl⟩
  cases ev with
  | bit p v =>
    have h : e.encodeBit p v = some e' := h
    unfold Encoder.encodeBit Encoder.normalize at h
    obtain ⟨e1, h1, h⟩ := Option.bind_eq_some_iff.mp h
    obtain ⟨_, -, h1⟩ := Option.bind_eq_some_iff.mp h1
    obtain ⟨_, -, h⟩ := Option.bind_eq_some_iff.mp h
    refine ⟨e1, h1, ?_⟩
    dsimp only at h
    cases v with
    | true =>
      rw [if_pos rfl] at h
      obtain ⟨_, -, h⟩ := Option.bind_eq_some_iff.mp h
      obtain rfl := Option.some.inj h
      exact hadd _ _
    | false =>
      rw [if_neg (by simp)] at h
      obtain rfl := Option.some.inj h
      exact ⟨rfl, rfl, rfl⟩
  | rare v =>
    have h : e.encodeRareEvent v = some e' := h
    unfold Encoder.encodeRareEvent Encoder.normalize at h
    obtain ⟨e1, h1, h⟩ := Option.bind_eq_some_iff.mp h
    obtain ⟨_, -, h1⟩ := Option.bind_eq_some_iff.mp h1
    refine ⟨e1, h1, ?_⟩
    cases v with
    | true =>
      rw [if_pos rfl] at h
      obtain ⟨_, -, h⟩ := Option.bind_eq_some_iff.mp h
      obtain rfl := Option.some.inj h
      exact hadd _ _
    | false =>
      rw [if_neg (by simp)] at h
      obtain ⟨_, -, h⟩ := Option.bind_eq_some_iff.mp h
      obtain rfl := Option.some.inj h
      exact ⟨rfl, rfl, rfl⟩

theorem events_work : ∀ (evs : List Event) (e e' : Encoder), e.events evs = some e' → 0 ≤ e.run →
    ∃ r, e.eventsRounds evs = some r ∧ 0 ≤ e'.run ∧ r + e.handed + e.out.length ≤ e'.handed + e'.out.length := by
  intro evs
  induction evs with
  | nil =>
    intro e e' h h0
    obtain rfl := Option.some.inj h
    exact ⟨0, rfl, h0, by omega⟩
  | cons ev evs ih =>
    intro e e' h h0
    obtain ⟨e2, h1, h2⟩ := Option.bind_eq_some_iff.mp h
    obtain ⟨e1, a1, a2, a3, a4⟩ := event_out h1
    obtain ⟨r, b1, b2, b3⟩ := loop_work 4 e e1 a1 h0
    obtain ⟨r', c1, c2, c3⟩ := ih e2 e' h2 (by rw [a3]; exact b2)
    refine ⟨r + r', by rw [Encoder.eventsRounds, b1, ob_some, h1, ob_some, c1, ob_some], c2, ?_⟩
    simp only [Encoder.handed, a2, a3, a4] at b3 c3 ⊢
    omega

theorem flush_work {e e' : Encoder} (h : e.flushRound = some e') (h0 : 0 ≤ e.run) :
    0 ≤ e'.run ∧ e'.handed = e.handed + 1 ∧
      e.out.length + e.outputRounds (e.buffer / 2 ^ 23 % 2 ^ 8) ≤ e'.out.length ∧
      e'.buffer = wrapI32 (e.buffer * 2 ^ 8) ∧ (e.buffer = 0 → e'.run = 0) := by
  obtain ⟨e1, h1, h⟩ := Option.bind_eq_some_iff.mp h
  obtain rfl := Option.some.inj h
  obtain ⟨a1, a2, a3, a4, a5⟩ := output_work h1 h0
  exact ⟨a1, a2, a3, by rw [a4], fun hb => a5 (by rw [hb]; decide)⟩

/-- **C97 (encoder).** The loops of the encoder, the one over the bytes held back included, make in total fewer than two
rounds per byte written, whatever is encoded: a long run of bytes held back is paid for by the bytes written. -/
theorem C97_encoder (evs : List Event) {bytes : List Nat} (h : encode evs = some bytes) :
    ∃ r, encodeRounds evs = some r ∧ r ≤ 2 * bytes.length + 1 := by
  obtain ⟨e, h1, h⟩ := Option.bind_eq_some_iff.mp h
  obtain ⟨r, a1, a2, a3⟩ := events_work evs _ _ h1 (by decide)
  obtain ⟨e1, f1, h⟩ := Option.bind_eq_some_iff.mp h
  obtain ⟨e2, f2, h⟩ := Option.bind_eq_some_iff.mp h
  obtain ⟨e3, f3, h⟩ := Option.bind_eq_some_iff.mp h
  obtain ⟨e4, f4, h⟩ := Option.bind_eq_some_iff.mp h
  obtain ⟨e5, f5, h⟩ := Option.bind_eq_some_iff.mp h
  obtain rfl := Option.some.inj h
  obtain ⟨k1, l1, m1, b1, z1⟩ := flush_work f1 a2
  obtain ⟨k2, l2, m2, b2, z2⟩ := flush_work f2 k1
  obtain ⟨k3, l3, m3, b3, z3⟩ := flush_work f3 k2
  obtain ⟨k4, l4, m4, b4, z4⟩ := flush_work f4 k3
  obtain ⟨k5, l5, m5, b5, z5⟩ := flush_work f5 k4
  refine ⟨_, by
    simp only [encodeRounds, a1, h1, Encoder.flushRounds, f1, f2, f3, f4, f5, ob_some]
    rfl, ?_⟩
  have hn : Encoder.new.handed + Encoder.new.out.length = 0 := rfl
  have hz : e4.buffer = 0 := by
    rw [b4, b3, b2, b1]
    unfold wrapI32
    omega
  have hd : e5.handed ≤ e5.out.length + 1 := by
    unfold Encoder.handed
    rw [z5 hz]
    have := Bool.toNat_le e5.delay
    omega
  omega

theorem shift_work {d d' : Decoder} (h : d.shiftIn = some d') : d.input.length = d'.input.length + 1 := by
  obtain ⟨⟨b, d1⟩, h1, h⟩ := Option.bind_eq_some_iff.mp h
  obtain ⟨_, -, h⟩ := Option.bind_eq_some_iff.mp h
  obtain rfl := Option.some.inj h
  unfold Decoder.inputByte at h1
  cases hi : d.input with
  | nil => rw [hi] at h1; cases h1
  | cons a rest =>
    rw [hi] at h1
    obtain ⟨-, rfl⟩ := Prod.mk.inj (Option.some.inj h1)
    rfl

theorem normalize_work : ∀ (fuel : Nat) (d d' : Decoder), Decoder.normalizeLoop fuel d = some d' →
    ∃ r, d.loopRounds fuel = some r ∧ d.input.length = d'.input.length + r := by
  intro fuel
  induction fuel with
  | zero => intro d d' h; cases h
  | succ fuel ih =>
    intro d d' h
    rw [Decoder.normalizeLoop] at h
    rw [Decoder.loopRounds]
    by_cases hr : d.range < 0x800000
    · rw [if_pos hr] at h ⊢
      obtain ⟨d1, h1, h⟩ := Option.bind_eq_some_iff.mp h
      obtain ⟨r, b1, b2⟩ := ih _ _ h
      have := shift_work h1
      refine ⟨1 + r, by rw [h1, ob_some, b1, ob_some], ?_⟩
      simp only at b2
      omega
    · rw [if_neg hr] at h ⊢
      obtain rfl := Option.some.inj h
      exact ⟨0, rfl, rfl⟩

theorem query_input {d d' : Decoder} {q : Query} {v : Bool} (h : d.query q = some (v, d')) :
    ∃ d1, Decoder.normalizeLoop 4 d = some d1 ∧ d'.input = d1.input := by
  cases q with
  | bit p =>
    have h : d.decodeBit p = some (v, d') := h
    unfold Decoder.decodeBit Decoder.normalize at h
    obtain ⟨d1, h1, h⟩ := Option.bind_eq_some_iff.mp h
    obtain ⟨_, -, h⟩ := Option.bind_eq_some_iff.mp h
    refine ⟨d1, h1, ?_⟩
    dsimp only at h
    split at h
    · obtain ⟨-, rfl⟩ := Prod.mk.inj (Option.some.inj h)
      rfl
    · obtain ⟨_, -, h⟩ := Option.bind_eq_some_iff.mp h
      obtain ⟨_, -, h⟩ := Option.bind_eq_some_iff.mp h
      obtain ⟨-, rfl⟩ := Prod.mk.inj (Option.some.inj h)
      rfl
  | rare =>
    have h : d.decodeRareEvent = some (v, d') := h
    unfold Decoder.decodeRareEvent Decoder.normalize at h
    obtain ⟨d1, h1, h⟩ := Option.bind_eq_some_iff.mp h
    obtain ⟨_, -, h⟩ := Option.bind_eq_some_iff.mp h
    refine ⟨d1, h1, ?_⟩
    split at h
    · obtain ⟨-, rfl⟩ := Prod.mk.inj (Option.some.inj h)
      rfl
    · obtain ⟨-, rfl⟩ := Prod.mk.inj (Option.some.inj h)
      rfl

/-- **C97 (decoder).** The loop of the decoder makes exactly one round per byte read after the first four, whatever the
data. -/
theorem C97_decoder : ∀ (qs : List Query) (d d' : Decoder) (vs : List Bool), d.queries qs = some (vs, d') →
    ∃ r, d.queriesRounds qs = some r ∧ d.input.length = d'.input.length + r := by
  intro qs
  induction qs with
  | nil =>
    intro d d' vs h
    obtain ⟨-, rfl⟩ := Prod.mk.inj (Option.some.inj h)
    exact ⟨0, rfl, rfl⟩
  | cons q qs ih =>
    intro d d' vs h
    obtain ⟨⟨v, d2⟩, h1, h⟩ := Option.bind_eq_some_iff.mp h
    obtain ⟨⟨vs', d3⟩, h2, h⟩ := Option.bind_eq_some_iff.mp h
    obtain ⟨-, rfl⟩ := Prod.mk.inj (Option.some.inj h)
    obtain ⟨d1, a1, a2⟩ := query_input h1
    obtain ⟨r, b1, b2⟩ := normalize_work 4 d d1 a1
    obtain ⟨r', c1, c2⟩ := ih d2 _ _ h2
    refine ⟨r + r', ?_, by rw [a2] at c2; omega⟩
    rw [Decoder.queriesRounds, b1, ob_some, h1, ob_some]
    dsimp only
    rw [c1, ob_some]

/-- two bytes are held back, and released at the end -/
example : (Encoder.new.events [.rare true, .rare false, .bit 4194304 true]).map (·.run) = some 2 ∧
    encodeRounds [.rare true, .rare false, .bit 4194304 true] = some 12 ∧
    (encode [.rare true, .rare false, .bit 4194304 true]).map List.length = some 7 := by decide +kernel

/-- the decoder reads those bytes -/
example : (Decoder.new [255, 255, 255, 252, 255, 255, 254]).bind (·.queriesRounds [.rare, .rare, .bit 4194304]) = some 3 := by
  decide +kernel

end Verif.Coding
