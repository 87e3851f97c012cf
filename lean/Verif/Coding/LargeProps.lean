import Verif.Coding.OrderProps
import Verif.Coding.LongProps

/-!
# C91: order and adaptive coding without a limit on the length

The statements of C04 and C83 for all inputs on which the encoder finishes.
-/

namespace Verif.Coding

/-- whenever the encoder finishes, its output is the lower end of the interval -/
theorem encode_val_any {evs : List Event} (hv : ∀ ev ∈ evs, ev.Valid) {out : List Nat} (h : encode evs = some out) :
    val out = 2 * (Iv.init.events evs).low ∧ out.length = (Iv.init.events evs).k + 4 ∧ ∀ b ∈ out, b < 256 := by
  rcases encode_cases evs hv with ⟨out', e, h1⟩ | ⟨e, -⟩
  · rw [h, Option.some.injEq] at e
    subst e
    exact h1
  · rw [h] at e; cases e

theorem events_range : ∀ (evs : List Event) {iv : Iv}, 1 ≤ iv.range ∧ iv.range < 2 ^ 31 → (∀ ev ∈ evs, ev.Valid) →
    1 ≤ (iv.events evs).range ∧ (iv.events evs).range < 2 ^ 31
  | [], _, h, _ => h
  | ev :: evs, _, h, hv => events_range evs (event_range h (hv ev (by simp))) fun x hx => hv x (by simp [hx])

/-- **C91 (order).** If two sequences of events first differ in an answer and both are coded, then the one that answers no
there is written as the smaller list of bytes, however long the sequences are. -/
theorem C91_order_events {evs evs' : List Event} (h : Below evs evs') (hv : ∀ ev ∈ evs, ev.Valid)
    (hv' : ∀ ev ∈ evs', ev.Valid) {out out' : List Nat} (he : encode evs = some out) (he' : encode evs' = some out') :
    out < out' := by
  obtain ⟨v, l, b⟩ := encode_val_any hv he
  obtain ⟨v', l', b'⟩ := encode_val_any hv' he'
  refine lt_of_val out out' b b' ?_
  have := below_iv h (iv := Iv.init) (by simp [Iv.init]) hv hv'
  rw [v, v', l, l', pow_add, pow_add]
  nlinarith

/-- **C91 (order, prefix).** Coding more events never makes the output smaller, nor shorter. -/
theorem C91_order_prefix (evs more : List Event) (hv : ∀ ev ∈ evs ++ more, ev.Valid) {out out' : List Nat}
    (he : encode evs = some out) (he' : encode (evs ++ more) = some out') : ¬ out' < out ∧ out.length ≤ out'.length := by
  have hvs : ∀ ev ∈ evs, ev.Valid := fun x hx => hv x (by simp [hx])
  have hm : (Iv.init.events (evs ++ more)) = (Iv.init.events evs).events more := events_append_iv _ _ _
  have hr := events_range evs (iv := Iv.init) (by simp [Iv.init]) hvs
  obtain ⟨⟨d, i1, i2, -⟩, -⟩ := Inside.events more hr fun x hx => hv x (by simp [hx])
  obtain ⟨v, l, b⟩ := encode_val_any hvs he
  obtain ⟨v', l', b'⟩ := encode_val_any hv he'
  rw [hm] at v' l'
  refine ⟨le_of_val out out' b b' (by omega) ?_, by omega⟩
  rw [v, v', l, l', i1]
  calc 2 * (Iv.init.events evs).low * 256 ^ ((Iv.init.events evs).k + d + 4)
      = 2 * ((Iv.init.events evs).low * 256 ^ d) * 256 ^ ((Iv.init.events evs).k + 4) := by ring
    _ ≤ _ := by gcongr

/-- **C91 (any model, order).** Whatever deterministic model supplies the probabilities: if two sequences of bits of the same
length are coded, the smaller one has the smaller output, and the other way round. -/
theorem C91_order_adaptive {σ : Type} (m : BitModel σ) (s : σ) (bits bits' : List Bool) (hl : bits'.length = bits.length)
    {out out' : List Nat} (he : (encodeWith m s Encoder.new bits).bind Encoder.finish = some out)
    (he' : (encodeWith m s Encoder.new bits').bind Encoder.finish = some out') : out < out' ↔ bits < bits' := by
  rw [encodeWith_eq] at he he'
  have key : ∀ {x y : List Bool} {o o' : List Nat}, y.length = x.length → x < y → encode (trace m s x) = some o →
      encode (trace m s y) = some o' → o < o' := by
    intro x y o o' h2 h3 h4 h5
    refine C91_order_events (trace_below m x y s h3 ?_) (trace_valid m s x) (trace_valid m s y) h4 h5
    intro hp
    rw [hp.eq_of_length h2.symm] at h3
    exact List.lt_irrefl _ h3
  constructor
  · intro h
    by_contra hn
    rcases List.le_iff_lt_or_eq.mp (List.not_lt.mp hn) with h1 | rfl
    · exact List.lt_asymm h (key hl.symm h1 he' he)
    · rw [he] at he'
      obtain rfl := Option.some.inj he'
      exact List.lt_irrefl _ h
  · exact fun h => key hl h he he'

/-- **C91 (any model).** Whatever deterministic model supplies the probabilities: whenever a sequence of bits has been coded, of
any length, a decoder running the same model recovers the bits and leaves what follows unread. -/
theorem C91_adaptive {σ : Type} (m : BitModel σ) (s : σ) (bits : List Bool) {out : List Nat}
    (he : (encodeWith m s Encoder.new bits).bind Encoder.finish = some out) (trail : List Nat) :
    ∃ d d', Decoder.new (out ++ trail) = some d ∧ decodeWith m s d bits.length = some (bits, d') ∧ d'.input = trail := by
  rw [encodeWith_eq] at he
  obtain ⟨-, d, h2, h3⟩ := C88_round_trip (trace m s bits) (trace_valid m s bits) he trail
  simp only [decode, Option.bind_eq_bind, Option.bind_eq_some_iff] at h2
  obtain ⟨d0, hd0, hq⟩ := h2
  rw [trace_value] at hq
  exact ⟨d0, d, hd0, decodeWith_eq m s d0 d bits hq, h3⟩

/-- the hypotheses: two sequences of bits that are coded with the counting model -/
example : ((encodeWith countingModel (0, 0) Encoder.new [true, false, true]).bind Encoder.finish).isSome = true ∧
    ((encodeWith countingModel (0, 0) Encoder.new [true, true, false]).bind Encoder.finish).isSome = true ∧
    [true, false, true] < [true, true, false] := by decide +kernel

end Verif.Coding
