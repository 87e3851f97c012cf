import Verif.Coding.DecLemmas

/-!
# Properties of the range coder (C01 - C06)
-/

namespace Verif.Coding

open Verif

/-! ## Specifications used by the statements -/

/-- Number of bytes an exact interval coder emits for the events, on top of the four final ones:
one per rescaling by 256. -/
def emitted (evs : List Event) : Nat := (Iv.init.events evs).k

/-- Share of the code space an event is guaranteed to receive, as a fraction. A one gets at least its
nominal probability, a zero with probability `p / 2^23` at least `p / (p + 1)` of it (its share is rounded down,
but never to nothing), "not rare" gets all but one part in `2^23`, "rare" at least one part in `2^31`. -/
def share : Event → Nat × Nat
  | .bit p false => (p * p, (p + 1) * 2 ^ 23)
  | .bit p true => (2 ^ 23 - p, 2 ^ 23)
  | .rare false => (2 ^ 23 - 1, 2 ^ 23)
  | .rare true => (1, 2 ^ 31)

/-- Share of the code space an event receives at most. A zero gets at most its nominal probability, a one at most
`2^-23` more, "rare" at most one part in `2^23`. -/
def shareMost : Event → Nat × Nat
  | .bit p false => (p, 2 ^ 23)
  | .bit p true => (2 ^ 23 - p + 1, 2 ^ 23)
  | .rare false => (1, 1)
  | .rare true => (1, 2 ^ 23)

/-- A deterministic bit model: what both sides compute from the bits coded so far. -/
structure BitModel (σ : Type) where
  predict : σ → Nat
  update : σ → Bool → σ
  valid : ∀ s, 1 ≤ predict s ∧ predict s < 2 ^ 23

/-- A client that codes bits with probabilities supplied by a model. -/
def encodeWith {σ : Type} (m : BitModel σ) : σ → Encoder → List Bool → Option Encoder
  | _, e, [] => some e
  | s, e, b :: bs => do
    let e ← e.encodeBit (m.predict s) b
    encodeWith m (m.update s b) e bs

/-- The client's decoding loop for a known number of bits: it updates the model with the bits it
decodes. -/
def decodeWith {σ : Type} (m : BitModel σ) : σ → Decoder → Nat → Option (List Bool × Decoder)
  | _, d, 0 => some ([], d)
  | s, d, n + 1 => do
    let (b, d) ← d.decodeBit (m.predict s)
    let (bs, d) ← decodeWith m (m.update s b) d n
    some (b :: bs, d)

/-! ## C01, C02: round trip -/

theorem emitted_le (evs : List Event) : emitted evs ≤ 3 * evs.length := by
  have key : ∀ (evs : List Event) (iv : Iv), (iv.events evs).k ≤ iv.k + 3 * evs.length := by
    intro evs
    induction evs with
    | nil => intro iv; simp [Iv.events]
    | cons ev evs ih =>
      intro iv
      have h1 := ih (iv.event ev)
      have h2 := Iv.event_k iv ev
      have h3 : iv.norm.k = iv.k + shifts iv.range := rfl
      have h4 := shifts_le iv.range
      simp only [Iv.events, List.length_cons] at *
      omega
  have := key evs Iv.init
  simpa [emitted, Iv.init] using this

/-- Decoding the bytes of the low end of the final interval. -/
theorem decode_code (evs : List Event) (hv : ∀ ev ∈ evs, ev.Valid) {bytes : List Nat}
    (hval : val bytes = 2 * (Iv.init.events evs).low) (hbl : bytes.length = (Iv.init.events evs).k + 4)
    (hbb : ∀ b ∈ bytes, b < 256) (trail : List Nat) :
    ∃ d, decode (bytes ++ trail) (evs.map Event.query) = some (evs.map Event.value, d) ∧ d.input = trail := by
  obtain ⟨hins, hfr⟩ := Inside.events evs (iv := Iv.init) (by simp [Iv.init]) hv
  match bytes, hval, hbl, hbb with
  | b0 :: b1 :: b2 :: b3 :: rest, hval, hbl, hbb =>
    have hci := code_inside hins hfr (pre := [b0, b1, b2, b3]) (post := rest) hval rfl hbl
      (fun b hb => hbb b (by simp [hb]))
    obtain ⟨d, hd, hdi, hdr⟩ := drep_new (rest := rest ++ trail) (hbb b0 (by simp))
      (hbb b1 (by simp)) (hbb b2 (by simp)) (hbb b3 (by simp))
      (by simpa [Iv.init] using hci.2)
    obtain ⟨d', hq, hin⟩ := drep_events evs hdr hv hval hbl (fun b hb => hbb b (by simp [hb])) hdi
    exact ⟨d', by simp [decode, hd, hq], hin⟩
  | [], _, hbl, _ => simp at hbl
  | [_], _, hbl, _ => simp at hbl
  | [_, _], _, hbl, _ => simp at hbl
  | [_, _, _], _, hbl, _ => simp at hbl

/-- C01 + C02. Encoding any sequence of valid events succeeds (no assertion, overflow or unwrap
fires), the output consists of bytes, and decoding it - with arbitrary data following - returns the
encoded values and leaves exactly the following data unread.
The hypothesis keeps the `i32` counter of pending `0xff` bytes from overflowing. -/
theorem C01_round_trip (evs : List Event) (hv : ∀ ev ∈ evs, ev.Valid)
    (hlen : emitted evs + 5 < 2 ^ 31) (trail : List Nat) :
    ∃ bytes, encode evs = some bytes ∧ (∀ b ∈ bytes, b < 256) ∧
      ∃ d, decode (bytes ++ trail) (evs.map Event.query) = some (evs.map Event.value, d) ∧
        d.input = trail := by
  obtain ⟨e, he, hrep⟩ := rep_events evs rep_new hv (by unfold emitted at hlen; omega)
  obtain ⟨bytes, hf, hval, hbl, hbb⟩ := finish_spec hrep hlen
  exact ⟨bytes, by simp [encode, he, hf], hbb, decode_code evs hv hval hbl hbb trail⟩

/-- C02, in terms of the number of events only: 700 million events never overflow the encoder. -/
theorem C02_no_panic (evs : List Event) (hv : ∀ ev ∈ evs, ev.Valid)
    (hlen : evs.length ≤ 700000000) :
    ∃ bytes, encode evs = some bytes ∧
      ∃ d, decode bytes (evs.map Event.query) = some (evs.map Event.value, d) ∧ d.input = [] := by
  obtain ⟨bytes, h1, -, d, h2, h3⟩ := C01_round_trip evs hv
    (by have := emitted_le evs; omega) []
  exact ⟨bytes, h1, d, by simpa using h2, h3⟩

/-- Two different event sequences with the same queries have different encodings. -/
theorem C01_injective (evs evs' : List Event) (hv : ∀ ev ∈ evs, ev.Valid)
    (hv' : ∀ ev ∈ evs', ev.Valid) (hlen : emitted evs + 5 < 2 ^ 31) (hlen' : emitted evs' + 5 < 2 ^ 31)
    (hq : evs.map Event.query = evs'.map Event.query) (he : encode evs = encode evs') :
    evs = evs' := by
  obtain ⟨b, h1, -, d, h2, -⟩ := C01_round_trip evs hv hlen []
  obtain ⟨b', h1', -, d', h2', -⟩ := C01_round_trip evs' hv' hlen' []
  rw [h1, h1', Option.some_inj] at he
  subst he
  rw [hq, h2', Option.some_inj, Prod.mk.injEq] at h2
  have hval := h2.1
  clear h1 h1' h2 h2' hv hv' hlen hlen'
  induction evs generalizing evs' with
  | nil => cases evs' <;> simp_all
  | cons ev evs ih =>
    cases evs' with
    | nil => simp at hq
    | cons ev' evs' =>
      simp only [List.map_cons, List.cons.injEq] at hq hval
      rw [ih evs' hq.2 hval.2]
      congr 1
      cases ev <;> cases ev' <;> simp_all [Event.query, Event.value]

/-- A carry that ripples through a pending `0xff` byte: the first two events leave `127, 255` pending,
the third one turns them into `128, 0`. -/
example : encode [.bit 4194304 true, .bit 1 false, .bit 4194304 true, .rare true] =
    some [128, 0, 0, 253, 255, 255, 254] := by decide +kernel

example : (decode ([128, 0, 0, 253, 255, 255, 254] ++ [42]) [.bit 4194304, .bit 1, .bit 4194304, .rare]).map
    (fun r => (r.1, r.2.input)) = some ([true, false, true, true], [42]) := by decide +kernel

example : emitted [.bit 4194304 true, .bit 1 false, .bit 4194304 true, .rare true] + 5 < 2 ^ 31 := by
  decide +kernel

/-! ## C03: size -/

/-- C03. The encoder writes four bytes plus one per rescaling of the exact interval, at most three
per event. -/
theorem C03_length (evs : List Event) (hv : ∀ ev ∈ evs, ev.Valid)
    (hlen : emitted evs + 5 < 2 ^ 31) :
    ∃ bytes, encode evs = some bytes ∧ bytes.length = 4 + emitted evs ∧
      bytes.length ≤ 4 + 3 * evs.length := by
  obtain ⟨e, he, hrep⟩ := rep_events evs rep_new hv (by unfold emitted at hlen; omega)
  obtain ⟨bytes, hf, -, hbl, -⟩ := finish_spec hrep hlen
  refine ⟨bytes, by simp [encode, he, hf], by rw [hbl, emitted]; omega, ?_⟩
  have := emitted_le evs
  unfold emitted at this
  omega

theorem select_share {iv : Iv} (h : 1 ≤ iv.range ∧ iv.range < 2 ^ 31) {ev : Event} (hv : ev.Valid) :
    iv.norm.range * (share ev).1 ≤ (iv.event ev).range * (share ev).2 := by
  have hn := norm_range h
  cases ev with
  | bit p v =>
    have hs := split_pos hn.1 hv
    cases v with
    | false =>
      simp only [share, Iv.event, Iv.select, Bool.false_eq_true, if_false, split] at *
      have h1 := Nat.div_add_mod (iv.norm.range * p) (2 ^ 23)
      have h2 := Nat.mod_lt (iv.norm.range * p) (y := 2 ^ 23) (by norm_num)
      have h3 : p ≤ iv.norm.range * p / 2 ^ 23 := by
        rw [Nat.le_div_iff_mul_le (by norm_num), Nat.mul_comm]
        exact Nat.mul_le_mul_right _ hn.1
      generalize iv.norm.range * p / 2 ^ 23 = q at *
      have h4 : iv.norm.range * p ≤ (q + 1) * 2 ^ 23 := by omega
      calc iv.norm.range * (p * p) = iv.norm.range * p * p := by ring
        _ ≤ (q + 1) * 2 ^ 23 * p := Nat.mul_le_mul_right _ h4
        _ = (q * p + p) * 2 ^ 23 := by ring
        _ ≤ (q * p + q) * 2 ^ 23 := Nat.mul_le_mul_right _ (by omega)
        _ = q * ((p + 1) * 2 ^ 23) := by ring
    | true =>
      simp only [share, Iv.event, Iv.select, if_true, split] at *
      have h1 := Nat.div_mul_le_self (iv.norm.range * p) (2 ^ 23)
      have h2 : iv.norm.range * (2 ^ 23 - p) = iv.norm.range * 2 ^ 23 - iv.norm.range * p :=
        Nat.mul_sub _ _ _
      rw [h2, Nat.sub_mul]
      omega
  | rare v =>
    cases v with
    | false => simp only [share, Iv.event, Iv.select, Bool.false_eq_true, if_false]; omega
    | true => simp only [share, Iv.event, Iv.select, if_true]; omega

theorem events_share : ∀ (evs : List Event) {iv : Iv}, 1 ≤ iv.range ∧ iv.range < 2 ^ 31 →
    (∀ ev ∈ evs, ev.Valid) →
    iv.range * 256 ^ ((iv.events evs).k - iv.k) * (evs.map fun ev => (share ev).1).prod ≤
      (iv.events evs).range * (evs.map fun ev => (share ev).2).prod
  | [], iv, _, _ => by simp [Iv.events]
  | ev :: evs, iv, h, hv => by
    have h1 := select_share h (hv ev (by simp))
    have h2 := events_share evs (event_range h (hv ev (by simp))) (fun x hx => hv x (by simp [hx]))
    have h3 : iv.norm.range = iv.range * 256 ^ shifts iv.range := rfl
    have h4 : (iv.event ev).k = iv.k + shifts iv.range := Iv.event_k iv ev
    have h5 := Iv.k_le_events (iv.event ev) evs
    have h6 : ((iv.event ev).events evs).k - iv.k =
        shifts iv.range + (((iv.event ev).events evs).k - (iv.event ev).k) := by omega
    simp only [Iv.events, List.map_cons, List.prod_cons, h6, pow_add]
    rw [h3] at h1
    generalize (evs.map fun ev => (share ev).1).prod = N at *
    generalize (evs.map fun ev => (share ev).2).prod = D at *
    generalize 256 ^ (((iv.event ev).events evs).k - (iv.event ev).k) = Q at *
    calc iv.range * (256 ^ shifts iv.range * Q) * ((share ev).1 * N)
        = iv.range * 256 ^ shifts iv.range * (share ev).1 * (Q * N) := by ring
      _ ≤ (iv.event ev).range * (share ev).2 * (Q * N) := Nat.mul_le_mul_right _ h1
      _ = (iv.event ev).range * Q * N * (share ev).2 := by ring
      _ ≤ ((iv.event ev).events evs).range * D * (share ev).2 := Nat.mul_le_mul_right _ h2
      _ = _ := by ring

theorem size_emitted (evs : List Event) (hv : ∀ ev ∈ evs, ev.Valid) :
    256 ^ emitted evs * (evs.map fun ev => (share ev).1).prod ≤ (evs.map fun ev => (share ev).2).prod := by
  have h3 := events_share evs (iv := Iv.init) (by simp [Iv.init]) hv
  have h4 : emitted evs = (Iv.init.events evs).k - Iv.init.k := rfl
  rw [h4]
  have h5 : (Iv.init.events evs).range ≤ 2 ^ 31 - 1 := by
    clear h3 h4
    have key : ∀ (evs : List Event) (iv : Iv), 1 ≤ iv.range ∧ iv.range < 2 ^ 31 →
        (∀ ev ∈ evs, ev.Valid) → (iv.events evs).range < 2 ^ 31 := by
      intro evs
      induction evs with
      | nil => intro iv h _; exact h.2
      | cons ev evs ih =>
        intro iv h hv
        exact ih _ (event_range h (hv ev (by simp))) (fun x hx => hv x (by simp [hx]))
    have := key evs Iv.init (by simp [Iv.init]) hv
    omega
  have h6 : Iv.init.range = 2 ^ 31 - 1 := rfl
  rw [h6] at h3
  generalize (evs.map fun ev => (share ev).1).prod = N at *
  generalize (evs.map fun ev => (share ev).2).prod = D at *
  generalize 256 ^ ((Iv.init.events evs).k - Iv.init.k) = Q at *
  have h7 : (2 ^ 31 - 1) * (Q * N) ≤ (2 ^ 31 - 1) * D := by
    calc (2 ^ 31 - 1) * (Q * N) = (2 ^ 31 - 1) * Q * N := by ring
      _ ≤ _ := h3
      _ ≤ _ := Nat.mul_le_mul_right _ h5
  exact Nat.le_of_mul_le_mul_left h7 (by norm_num)

/-- C03. The size is bounded by the information content: `256^(size - 4)` times the product of the
shares of the events is at most one. -/
theorem C03_size (evs : List Event) (hv : ∀ ev ∈ evs, ev.Valid)
    (hlen : emitted evs + 5 < 2 ^ 31) :
    ∃ bytes, encode evs = some bytes ∧
      256 ^ (bytes.length - 4) * (evs.map fun ev => (share ev).1).prod ≤
        (evs.map fun ev => (share ev).2).prod := by
  obtain ⟨bytes, h1, h2, -⟩ := C03_length evs hv hlen
  exact ⟨bytes, h1, by rw [h2, Nat.add_sub_cancel_left]; exact size_emitted evs hv⟩

theorem select_most {iv : Iv} (h : 1 ≤ iv.range ∧ iv.range < 2 ^ 31) {ev : Event} (hv : ev.Valid) :
    (iv.event ev).range * (shareMost ev).2 ≤ iv.norm.range * (shareMost ev).1 := by
  have hn := norm_range h
  cases ev with
  | bit p v =>
    have hs := split_pos hn.1 hv
    cases v with
    | false =>
      simp only [shareMost, Iv.event, Iv.select, Bool.false_eq_true, if_false, split] at *
      exact Nat.div_mul_le_self _ _
    | true =>
      simp only [shareMost, Iv.event, Iv.select, if_true, split] at *
      have h1 := Nat.div_add_mod (iv.norm.range * p) (2 ^ 23)
      have h2 := Nat.mod_lt (iv.norm.range * p) (y := 2 ^ 23) (by norm_num)
      have h3 : iv.norm.range * (2 ^ 23 - p) = iv.norm.range * 2 ^ 23 - iv.norm.range * p :=
        Nat.mul_sub _ _ _
      have h4 : iv.norm.range * p ≤ iv.norm.range * 2 ^ 23 := Nat.mul_le_mul_left _ (Nat.le_of_lt hv.2)
      rw [Nat.mul_add, h3, Nat.sub_mul]
      omega
  | rare v =>
    cases v with
    | false => simp only [shareMost, Iv.event, Iv.select, Bool.false_eq_true, if_false]; omega
    | true => simp only [shareMost, Iv.event, Iv.select, if_true]; omega

theorem events_most : ∀ (evs : List Event) {iv : Iv}, 1 ≤ iv.range ∧ iv.range < 2 ^ 31 →
    (∀ ev ∈ evs, ev.Valid) →
    1 ≤ (iv.events evs).range ∧ (iv.events evs).range * (evs.map fun ev => (shareMost ev).2).prod ≤
      iv.range * 256 ^ ((iv.events evs).k - iv.k) * (evs.map fun ev => (shareMost ev).1).prod
  | [], iv, h, _ => by simpa [Iv.events] using h.1
  | ev :: evs, iv, h, hv => by
    have h1 := select_most h (hv ev (by simp))
    obtain ⟨h0, h2⟩ := events_most evs (event_range h (hv ev (by simp))) (fun x hx => hv x (by simp [hx]))
    have h3 : iv.norm.range = iv.range * 256 ^ shifts iv.range := rfl
    have h4 : (iv.event ev).k = iv.k + shifts iv.range := Iv.event_k iv ev
    have h5 := Iv.k_le_events (iv.event ev) evs
    have h6 : ((iv.event ev).events evs).k - iv.k =
        shifts iv.range + (((iv.event ev).events evs).k - (iv.event ev).k) := by omega
    refine ⟨h0, ?_⟩
    simp only [Iv.events, List.map_cons, List.prod_cons, h6, pow_add]
    rw [h3] at h1
    generalize (evs.map fun ev => (shareMost ev).1).prod = N at *
    generalize (evs.map fun ev => (shareMost ev).2).prod = D at *
    generalize 256 ^ (((iv.event ev).events evs).k - (iv.event ev).k) = Q at *
    calc ((iv.event ev).events evs).range * ((shareMost ev).2 * D)
        = ((iv.event ev).events evs).range * D * (shareMost ev).2 := by ring
      _ ≤ (iv.event ev).range * Q * N * (shareMost ev).2 := Nat.mul_le_mul_right _ h2
      _ = (iv.event ev).range * (shareMost ev).2 * (Q * N) := by ring
      _ ≤ iv.range * 256 ^ shifts iv.range * (shareMost ev).1 * (Q * N) := Nat.mul_le_mul_right _ h1
      _ = _ := by ring

theorem size_lower_emitted (evs : List Event) (hv : ∀ ev ∈ evs, ev.Valid) :
    (evs.map fun ev => (shareMost ev).2).prod ≤ (2 ^ 31 - 1) * 256 ^ emitted evs * (evs.map fun ev => (shareMost ev).1).prod := by
  obtain ⟨h0, h3⟩ := events_most evs (iv := Iv.init) (by simp [Iv.init]) hv
  have h4 : emitted evs = (Iv.init.events evs).k - Iv.init.k := rfl
  rw [h4]
  have h6 : Iv.init.range = 2 ^ 31 - 1 := rfl
  rw [h6] at h3
  refine le_trans ?_ h3
  exact Nat.le_mul_of_pos_left _ h0

/-- C03. The size is at least the information content: no event is coded with more than its largest share, so
`2^31 * 256^(size - 4)` times the product of these shares is more than one. -/
theorem C03_size_lower (evs : List Event) (hv : ∀ ev ∈ evs, ev.Valid)
    (hlen : emitted evs + 5 < 2 ^ 31) :
    ∃ bytes, encode evs = some bytes ∧
      (evs.map fun ev => (shareMost ev).2).prod ≤
        (2 ^ 31 - 1) * 256 ^ (bytes.length - 4) * (evs.map fun ev => (shareMost ev).1).prod := by
  obtain ⟨bytes, h1, h2, -⟩ := C03_length evs hv hlen
  exact ⟨bytes, h1, by rw [h2, Nat.add_sub_cancel_left]; exact size_lower_emitted evs hv⟩

/-- C03. No events: four bytes. -/
theorem C03_empty : encode [] = some [0, 0, 0, 0] := by decide +kernel

example : (encode (List.replicate 8 (.bit 8388607 false))).map List.length = some 4 := by
  decide +kernel

/-! ## C04: any adaptive model -/

/-- The events an adaptive client produces. -/
def trace {σ : Type} (m : BitModel σ) : σ → List Bool → List Event
  | _, [] => []
  | s, b :: bs => .bit (m.predict s) b :: trace m (m.update s b) bs

theorem encodeWith_eq {σ : Type} (m : BitModel σ) (s : σ) (e : Encoder) (bs : List Bool) :
    encodeWith m s e bs = e.events (trace m s bs) := by
  induction bs generalizing s e with
  | nil => rfl
  | cons b bs ih => simp only [encodeWith, trace, Encoder.events, Encoder.event, ih]

theorem trace_valid {σ : Type} (m : BitModel σ) (s : σ) (bs : List Bool) :
    ∀ ev ∈ trace m s bs, ev.Valid := by
  induction bs generalizing s with
  | nil => simp [trace]
  | cons b bs ih =>
    simp only [trace, List.mem_cons, forall_eq_or_imp]
    exact ⟨m.valid s, ih _⟩

theorem trace_length {σ : Type} (m : BitModel σ) (s : σ) (bs : List Bool) :
    (trace m s bs).length = bs.length := by
  induction bs generalizing s with
  | nil => rfl
  | cons b bs ih => simp [trace, ih]

theorem trace_value {σ : Type} (m : BitModel σ) (s : σ) (bs : List Bool) :
    (trace m s bs).map Event.value = bs := by
  induction bs generalizing s with
  | nil => rfl
  | cons b bs ih => simp [trace, ih, Event.value]

theorem decodeWith_eq {σ : Type} (m : BitModel σ) (s : σ) (d d' : Decoder) (bs : List Bool)
    (h : d.queries ((trace m s bs).map Event.query) = some (bs, d')) :
    decodeWith m s d bs.length = some (bs, d') := by
  induction bs generalizing s d with
  | nil => simpa [trace, Decoder.queries, decodeWith] using h
  | cons b bs ih =>
    simp only [trace, List.map_cons, Event.query, Decoder.queries, Decoder.query,
      Option.bind_eq_bind, Option.bind_eq_some_iff] at h
    obtain ⟨⟨v, d1⟩, h1, ⟨vs, d2⟩, h2, h3⟩ := h
    simp only [Option.some_inj, Prod.mk.injEq, List.cons.injEq] at h3
    obtain ⟨⟨rfl, rfl⟩, rfl⟩ := h3
    simp only [List.length_cons, decodeWith, h1, Option.bind_eq_bind, Option.bind_some, ih _ _ h2]

/-- C04. Whatever deterministic model supplies the probabilities, a decoder running the same model
recovers the bits. -/
theorem C04_adaptive {σ : Type} (m : BitModel σ) (s : σ) (bits : List Bool)
    (hlen : bits.length ≤ 700000000) (trail : List Nat) :
    ∃ e bytes, encodeWith m s Encoder.new bits = some e ∧ e.finish = some bytes ∧
      ∃ d d', Decoder.new (bytes ++ trail) = some d ∧
        decodeWith m s d bits.length = some (bits, d') ∧ d'.input = trail := by
  obtain ⟨bytes, h1, -, d, h2, h3⟩ := C01_round_trip (trace m s bits) (trace_valid m s bits)
    (by have := emitted_le (trace m s bits); rw [trace_length] at this; omega) trail
  simp only [encode, Option.bind_eq_bind, Option.bind_eq_some_iff] at h1
  obtain ⟨e, he, hf⟩ := h1
  simp only [decode, Option.bind_eq_bind, Option.bind_eq_some_iff] at h2
  obtain ⟨d0, hd0, hq⟩ := h2
  rw [trace_value] at hq
  exact ⟨e, bytes, by rw [encodeWith_eq]; exact he, hf, d0, d, hd0, decodeWith_eq m s d0 d bits hq, h3⟩

/-- A model that counts: its probability depends on all previous bits. -/
def countingModel : BitModel (Nat × Nat) where
  predict s := min (2 ^ 23 - 1) (2 ^ 23 * (s.1 + 1) / (s.1 + s.2 + 2) + 1)
  update s b := if b then (s.1, s.2 + 1) else (s.1 + 1, s.2)
  valid s := by
    generalize 2 ^ 23 * (s.1 + 1) / (s.1 + s.2 + 2) = x
    omega

example : ((encodeWith countingModel (0, 0) Encoder.new
    [true, true, false, true, true, true, true, true]).bind Encoder.finish).isSome = true := by
  decide +kernel

/-! ## C05: arbitrary streams -/

/-- Decoder state that any stream can produce. -/
structure Sane (d : Decoder) : Prop where
  hr : 1 ≤ d.range ∧ d.range < 2 ^ 31
  hb : -2 ^ 31 ≤ d.buffer ∧ d.buffer < 2 ^ 31
  hn : 0 ≤ d.nextHighBit ∧ d.nextHighBit ≤ 1
  hi : ∀ b ∈ d.input, b < 256

theorem sane_shift {d : Decoder} (h : Sane d) (hl : 1 ≤ d.input.length) :
    ∃ d', d.shiftIn = some d' ∧ Sane d' ∧ d'.range = d.range ∧
      d'.input.length + 1 = d.input.length := by
  obtain ⟨input, buffer, range, n⟩ := d
  obtain ⟨hr, hb, hn, hi⟩ := h
  match input, hl, hi with
  | b :: rest, _, hi =>
    have hb256 := hi b (by simp)
    have hbt : -2 ^ 31 ≤ wrapI32 (buffer * 2 ^ 8) ∧ wrapI32 (buffer * 2 ^ 8) ≤ 2 ^ 31 - 256 := by
      simp only [wrapI32] at *; omega
    simp only at hn hr
    refine ⟨{ input := rest, range := range, nextHighBit := (b : Int) % 2,
              buffer := wrapI32 (buffer * 2 ^ 8) + ((b : Int) / 2 + n * 2 ^ 7) }, ?_, ?_, rfl, ?_⟩
    · unfold Decoder.shiftIn
      simp only [Decoder.inputByte, Option.bind_eq_bind, Option.bind_some]
      rw [i32_eq (by omega), Option.bind_some]
    · exact ⟨hr, by simp only; omega, by simp only; omega, fun x hx => hi x (by simp [hx])⟩
    · simp

theorem sane_loop : ∀ (fuel : Nat) {d : Decoder}, Sane d → shifts d.range.toNat < fuel →
    shifts d.range.toNat ≤ d.input.length →
    ∃ d', Decoder.normalizeLoop fuel d = some d' ∧ Sane d' ∧ 2 ^ 23 ≤ d'.range ∧
      d'.input.length + shifts d.range.toNat = d.input.length
  | 0, _, _, hf, _ => absurd hf (Nat.not_lt_zero _)
  | fuel + 1, d, h, hf, hl => by
    unfold Decoder.normalizeLoop
    have hr := h.hr
    by_cases hlt : d.range < 2 ^ 23
    · rw [if_pos (by omega)]
      have hs := shifts_succ (r := d.range.toNat) (by omega) (by omega)
      obtain ⟨d', hd, hsane, hr', hlen⟩ := sane_shift h (by omega)
      have hw : wrapI32 (d'.range * 2 ^ 8) = d.range * 2 ^ 8 := by
        rw [hr']; exact wrapI32_eq (by omega)
      rw [hd, Option.bind_eq_bind, Option.bind_some, hw]
      have hnat : (d.range * 2 ^ 8).toNat = d.range.toNat * 256 := by omega
      have hsane' : Sane { d' with range := d.range * 2 ^ 8 } :=
        ⟨by simp only; omega, hsane.hb, hsane.hn, hsane.hi⟩
      obtain ⟨d'', h1, h2, h3, h4⟩ := sane_loop fuel hsane'
        (by show shifts (d.range * 2 ^ 8).toNat < fuel; rw [hnat]; omega)
        (by show shifts (d.range * 2 ^ 8).toNat ≤ d'.input.length; rw [hnat]; omega)
      refine ⟨d'', h1, h2, h3, ?_⟩
      have h5 : d''.input.length + shifts (d.range * 2 ^ 8).toNat = d'.input.length := h4
      rw [hnat] at h5
      omega
    · rw [if_neg (by omega)]
      have hs : shifts d.range.toNat = 0 := by unfold shifts; rw [if_pos (by omega)]
      exact ⟨d, rfl, h, by omega, by omega⟩

theorem sane_query {d : Decoder} (h : Sane d) {q : Query} (hv : q.Valid) (hl : 3 ≤ d.input.length) :
    ∃ v d', d.query q = some (v, d') ∧ Sane d' ∧ d.input.length ≤ d'.input.length + 3 := by
  have hsl := shifts_le d.range.toNat
  obtain ⟨d1, h1, hs, hr, hlen⟩ := sane_loop 4 h (by omega) (by omega)
  have h1 : d.normalize = some d1 := h1
  have hr1 := hs.hr
  have hb := hs.hb
  cases q with
  | bit p =>
    obtain ⟨r, hr0⟩ : ∃ r : Nat, d1.range = r := ⟨d1.range.toNat, by omega⟩
    obtain ⟨hi, hw⟩ := helper_eq (r := r) (p := p) (by omega) hv.2
    have hsp := split_pos (r := r) (p := p) (by omega) hv
    simp only [Decoder.query]
    unfold Decoder.decodeBit
    rw [h1, Option.bind_eq_bind, Option.bind_some, hr0, hi, Option.bind_eq_bind, Option.bind_some]
    simp only [hw]
    by_cases hlt : d1.buffer < (split r p : Nat)
    · rw [if_pos hlt]
      exact ⟨false, _, rfl, ⟨by simp only; omega, hb, hs.hn, hs.hi⟩, by simp only; omega⟩
    · rw [if_neg hlt, i32_eq (by omega), Option.bind_some, i32_eq (by omega), Option.bind_some]
      exact ⟨true, _, rfl, ⟨by simp only; omega, by simp only; omega, hs.hn, hs.hi⟩,
        by simp only; omega⟩
  | rare =>
    simp only [Decoder.query]
    unfold Decoder.decodeRareEvent
    rw [h1, Option.bind_eq_bind, Option.bind_some, i32_eq (by omega), Option.bind_eq_bind,
      Option.bind_some]
    by_cases hlt : d1.buffer < d1.range - 1
    · rw [if_pos hlt]
      exact ⟨false, _, rfl, ⟨by simp only; omega, hb, hs.hn, hs.hi⟩, by simp only; omega⟩
    · rw [if_neg hlt]
      exact ⟨true, _, rfl, ⟨by simp only; omega, by simp only; omega, hs.hn, hs.hi⟩,
        by simp only; omega⟩

theorem sane_queries : ∀ (qs : List Query) {d : Decoder}, Sane d → (∀ q ∈ qs, q.Valid) →
    3 * qs.length ≤ d.input.length →
    ∃ vs d', d.queries qs = some (vs, d') ∧ vs.length = qs.length ∧
      d.input.length ≤ d'.input.length + 3 * qs.length
  | [], d, _, _, _ => ⟨[], d, rfl, rfl, by omega⟩
  | q :: qs, d, h, hv, hl => by
    simp only [List.length_cons] at hl
    obtain ⟨v, d1, h1, hs, hlen⟩ := sane_query h (hv q (by simp)) (by omega)
    obtain ⟨vs, d2, h2, hvl, hlen2⟩ := sane_queries qs hs (fun x hx => hv x (by simp [hx])) (by omega)
    exact ⟨v :: vs, d2, by simp [Decoder.queries, h1, h2], by simp [hvl],
      by simp only [List.length_cons]; omega⟩

/-- C05. On any byte stream with enough bytes the decoder answers every sequence of calls without
panicking and reads at most `4 + 3 n` bytes. -/
theorem C05_any_stream (input : List Nat) (qs : List Query) (hi : ∀ b ∈ input, b < 256)
    (hv : ∀ q ∈ qs, q.Valid) (hl : 4 + 3 * qs.length ≤ input.length) :
    ∃ vs d, decode input qs = some (vs, d) ∧ vs.length = qs.length ∧
      input.length ≤ d.input.length + 4 + 3 * qs.length := by
  have h0 : Sane { input := input, buffer := 0, range := 0x7fffffff, nextHighBit := 0 } :=
    ⟨by simp, by simp, by simp, hi⟩
  obtain ⟨d1, e1, h1, -, l1⟩ := sane_shift h0 (by simp only; omega)
  simp only at l1
  obtain ⟨d2, e2, h2, -, l2⟩ := sane_shift h1 (by omega)
  obtain ⟨d3, e3, h3, -, l3⟩ := sane_shift h2 (by omega)
  obtain ⟨d4, e4, h4, -, l4⟩ := sane_shift h3 (by omega)
  obtain ⟨vs, d, h, hvl, hlen⟩ := sane_queries qs h4 hv (by omega)
  have hnew : Decoder.new input = some d4 := by
    unfold Decoder.new
    simp only [e1, e2, e3, e4, Option.bind_eq_bind, Option.bind_some]
  exact ⟨vs, d, by simp [decode, hnew, h], hvl, by omega⟩

theorem shiftIn_length {d d' : Decoder} (h : d.shiftIn = some d') :
    d.input.length = d'.input.length + 1 := by
  obtain ⟨input, buffer, range, n⟩ := d
  cases input with
  | nil => simp [Decoder.shiftIn, Decoder.inputByte] at h
  | cons b rest =>
    simp only [Decoder.shiftIn, Decoder.inputByte, Option.bind_eq_bind, Option.bind_some,
      Option.bind_eq_some_iff, Option.some_inj] at h
    obtain ⟨_, _, rfl⟩ := h
    rfl

/-- C05. A stream that ends before the first four bytes makes the constructor panic. -/
theorem C05_short_stream (input : List Nat) (qs : List Query) (h : input.length < 4) :
    decode input qs = none := by
  have hnew : Decoder.new input = none := by
    rw [Option.eq_none_iff_forall_ne_some]
    intro d hd
    simp only [Decoder.new, Option.bind_eq_bind, Option.bind_eq_some_iff] at hd
    obtain ⟨d1, h1, d2, h2, d3, h3, h4⟩ := hd
    have := shiftIn_length h1
    have := shiftIn_length h2
    have := shiftIn_length h3
    have := shiftIn_length h4
    simp only at *
    omega
  simp [decode, hnew]

example : (decode (List.replicate 10 255) [.bit 7, .rare]).map (fun r => r.1) =
    some [true, true] := by decide +kernel

/-! ## C06: probabilities -/

/-- C06. The constructor panics exactly above `2^23`, and whatever it returns is a valid coder
probability; in-range values are unchanged. -/
theorem C06_final_probability (raw : Nat) :
    (2 ^ 23 < raw → FinalProbability.newUnchecked raw = none) ∧
    (raw ≤ 2 ^ 23 → ∃ p, FinalProbability.newUnchecked raw = some p ∧ 1 ≤ p ∧ p < 2 ^ 23 ∧
      (1 ≤ raw ∧ raw < 2 ^ 23 → p = raw) ∧ (raw = 0 → p = 1) ∧ (raw = 2 ^ 23 → p = 2 ^ 23 - 1)) := by
  constructor
  · intro h
    simp only [FinalProbability.newUnchecked]
    rw [check_neg (by omega)]; rfl
  · intro h
    simp only [FinalProbability.newUnchecked]
    rw [check_pos h]
    exact ⟨_, rfl, by omega, by omega, by omega, by omega, by omega⟩

example : FinalProbability.newUnchecked 8388608 = some 8388607 := by decide +kernel

end Verif.Coding
