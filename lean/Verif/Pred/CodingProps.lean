import Verif.Pred.Props
import Verif.Coding.Size

/-!
# Coding with the predictor (C53, C54)

The program only estimates the size (`src/main.rs`). Here a client combines the predictor with the coder.
-/

namespace Verif.Pred

open Verif Verif.Coding

/-! ## Client -/

/-- codes the bits of one byte -/
def packBits (t : Tables) (mode : Mode) : Predictor → Encoder → List Bool → Option (Predictor × Encoder)
  | p, e, [] => some (p, e)
  | p, e, b :: bs => do
    let (f, p) ← predPredict t mode p
    let e ← e.encodeBit f b
    let p ← predUpdate t mode p b
    packBits t mode p e bs

/-- codes bytes, most significant bit first -/
def pack (t : Tables) (mode : Mode) : Predictor → Encoder → List (List Bool) → Option Encoder
  | _, e, [] => some e
  | p, e, b :: bs => do
    let p ← predStart p
    let (p, e) ← packBits t mode p e b
    pack t mode p e bs

/-- decodes the next `n` bits of a byte -/
def unpackBits (t : Tables) (mode : Mode) : Predictor → Decoder → Nat → Option (List Bool × Predictor × Decoder)
  | p, d, 0 => some ([], p, d)
  | p, d, n + 1 => do
    let (f, p) ← predPredict t mode p
    let (b, d) ← d.decodeBit f
    let p ← predUpdate t mode p b
    let (bs, p, d) ← unpackBits t mode p d n
    some (b :: bs, p, d)

/-- decodes `n` bytes -/
def unpack (t : Tables) (mode : Mode) : Predictor → Decoder → Nat → Option (List (List Bool) × Decoder)
  | _, d, 0 => some ([], d)
  | p, d, n + 1 => do
    let p ← predStart p
    let (b, p, d) ← unpackBits t mode p d 8
    let (bs, d) ← unpack t mode p d n
    some (b :: bs, d)

/-- compresses a file: tables, predictor and encoder are created, the encoder is dropped at the end -/
def compress (mode : Mode) (W maxOrder : Nat) (bytes : List (List Bool)) : Option (List Nat) := do
  let t ← tablesNew
  let p ← predNew t mode W maxOrder
  let e ← pack t mode p Encoder.new bytes
  e.finish

/-- decompresses `n` bytes; also returns the input left -/
def decompress (mode : Mode) (W maxOrder : Nat) (input : List Nat) (n : Nat) : Option (List (List Bool) × List Nat) := do
  let t ← tablesNew
  let p ← predNew t mode W maxOrder
  let d ← Decoder.new input
  let (bytes, d) ← unpack t mode p d n
  some (bytes, d.input)

/-! ## Lemmas -/

/-- the events coded for the bits -/
def bitEvents (fs : List Nat) (bits : List Bool) : List Event := List.zipWith Event.bit fs bits

theorem bitEvents_append {fs gs : List Nat} {bs cs : List Bool} (h : fs.length = bs.length) :
    bitEvents (fs ++ gs) (bs ++ cs) = bitEvents fs bs ++ bitEvents gs cs := List.zipWith_append h

theorem events_append : ∀ (evs evs' : List Event) (e : Encoder),
    e.events (evs ++ evs') = (e.events evs >>= fun e => e.events evs') := by
  intro evs
  induction evs with
  | nil => intro evs' e; rfl
  | cons ev evs ih =>
    intro evs' e
    rw [List.cons_append, Encoder.events, Encoder.events]
    cases e.event ev with
    | none => rfl
    | some e => rw [ob_some, ob_some, ih]

theorem queries_append : ∀ (qs qs' : List Query) (d : Decoder),
    d.queries (qs ++ qs') = (d.queries qs).bind fun r => (r.2.queries qs').map fun r' => (r.1 ++ r'.1, r'.2) := by
  intro qs
  induction qs with
  | nil =>
    intro qs' d
    rw [List.nil_append, Decoder.queries, Option.bind_some]
    cases d.queries qs' <;> rfl
  | cons q qs ih =>
    intro qs' d
    rw [List.cons_append, Decoder.queries, Decoder.queries]
    cases d.query q with
    | none => rfl
    | some r =>
      rw [ob_some, ob_some]
      dsimp only
      rw [ih]
      cases r.2.queries qs with
      | none => rfl
      | some r1 =>
        rw [Option.bind_some, ob_some, Option.bind_some]
        cases r1.2.queries qs' <;> rfl

theorem queries_length : ∀ {qs : List Query} {d d' : Decoder} {bs : List Bool}, d.queries qs = some (bs, d') →
    bs.length = qs.length := by
  intro qs
  induction qs with
  | nil =>
    intro d d' bs h
    obtain ⟨rfl, -⟩ := Prod.mk.inj (Option.some.inj h)
    rfl
  | cons q qs ih =>
    intro d d' bs h
    rw [Decoder.queries] at h
    cases h1 : d.query q with
    | none => rw [h1] at h; cases h
    | some r =>
      rw [h1, ob_some] at h
      dsimp only at h
      cases h2 : r.2.queries qs with
      | none => rw [h2] at h; cases h
      | some r1 =>
        rw [h2, ob_some] at h
        obtain ⟨rfl, -⟩ := Prod.mk.inj (Option.some.inj h)
        rw [List.length_cons, List.length_cons, ih h2]

/-- what a run over the bits of a byte means for coding and decoding them -/
theorem bits_run {t : Tables} {mode : Mode} : ∀ (bits : List Bool) {p p' : Predictor} {fs : List Nat},
    calls t mode p ((bits.map fun b => [Call.predict, Call.update b]).flatten) = some (fs, p') →
    fs.length = bits.length ∧
    (∀ e e', e.events (bitEvents fs bits) = some e' → packBits t mode p e bits = some (p', e')) ∧
    (∀ d d', d.queries ((bitEvents fs bits).map Event.query) = some (bits, d') →
      unpackBits t mode p d bits.length = some (bits, p', d')) := by
  intro bits
  induction bits with
  | nil =>
    intro p p' fs h
    obtain ⟨rfl, rfl⟩ := Prod.mk.inj (Option.some.inj h)
    refine ⟨rfl, ?_, ?_⟩
    · intro e e' h
      obtain rfl := Option.some.inj h
      rfl
    · intro d d' h
      obtain ⟨-, rfl⟩ := Prod.mk.inj (Option.some.inj h)
      rfl
  | cons b bits ih =>
    intro p p' fs h
    rw [List.map_cons, List.flatten_cons, List.cons_append, List.cons_append, List.nil_append, calls, call] at h
    cases h1 : predPredict t mode p with
    | none => rw [h1] at h; cases h
    | some r =>
      obtain ⟨f, p1⟩ := r
      rw [h1, ob_some] at h
      dsimp only at h
      rw [ob_some, calls, call] at h
      dsimp only at h
      cases h2 : predUpdate t mode p1 b with
      | none => rw [h2] at h; cases h
      | some p2 =>
        rw [h2, ob_some, ob_some] at h
        dsimp only at h
        cases h3 : calls t mode p2 ((bits.map fun b => [Call.predict, Call.update b]).flatten) with
        | none => rw [h3] at h; cases h
        | some r =>
          obtain ⟨gs, p3⟩ := r
          rw [h3, ob_some, ob_some] at h
          obtain ⟨rfl, rfl⟩ := Prod.mk.inj (Option.some.inj h)
          obtain ⟨i1, i2, i3⟩ := ih h3
          have hfs : (some f).toList ++ ((none : Option Nat).toList ++ gs) = f :: gs := rfl
          rw [hfs]
          refine ⟨by rw [List.length_cons, List.length_cons, i1], ?_, ?_⟩
          · intro e e' he
            have he : (e.event (.bit f b) >>= fun e => e.events (bitEvents gs bits)) = some e' := he
            rw [packBits, h1, ob_some]
            dsimp only
            rw [Encoder.event] at he
            cases hb : e.encodeBit f b with
            | none => rw [hb] at he; cases he
            | some e1 =>
              rw [hb, ob_some] at he
              rw [ob_some, h2, ob_some]
              exact i2 e1 e' he
          · intro d d' hd
            have hd : (d.query (.bit f) >>= fun r => r.2.queries ((bitEvents gs bits).map Event.query) >>= fun r' =>
              some (r.1 :: r'.1, r'.2)) = some (b :: bits, d') := hd
            rw [List.length_cons, unpackBits, h1, ob_some]
            dsimp only
            rw [Decoder.query] at hd
            cases hb : d.decodeBit f with
            | none => rw [hb] at hd; cases hd
            | some r =>
              obtain ⟨b', d1⟩ := r
              rw [hb, ob_some] at hd
              dsimp only at hd
              cases hq : d1.queries ((bitEvents gs bits).map Event.query) with
              | none => rw [hq] at hd; cases hd
              | some r =>
                obtain ⟨bs, d2⟩ := r
                rw [hq, ob_some] at hd
                obtain ⟨e1, e2⟩ := Prod.mk.inj (Option.some.inj hd)
                obtain ⟨rfl, rfl⟩ := List.cons.inj e1
                subst e2
                rw [ob_some]
                dsimp only
                rw [h2, ob_some, i3 d1 _ hq, ob_some]

/-- the same for whole bytes -/
theorem bytes_run {t : Tables} {mode : Mode} : ∀ (bytes : List (List Bool)) {p p' : Predictor} {fs : List Nat},
    (∀ b ∈ bytes, b.length = 8) → calls t mode p (bytes.flatMap byteCalls) = some (fs, p') →
    fs.length = bytes.flatten.length ∧
    (∀ e e', e.events (bitEvents fs bytes.flatten) = some e' → pack t mode p e bytes = some e') ∧
    (∀ d d', d.queries ((bitEvents fs bytes.flatten).map Event.query) = some (bytes.flatten, d') →
      unpack t mode p d bytes.length = some (bytes, d')) := by
  intro bytes
  induction bytes with
  | nil =>
    intro p p' fs _ h
    obtain ⟨rfl, rfl⟩ := Prod.mk.inj (Option.some.inj h)
    refine ⟨rfl, ?_, ?_⟩
    · intro e e' h
      obtain rfl := Option.some.inj h
      rfl
    · intro d d' h
      obtain ⟨-, rfl⟩ := Prod.mk.inj (Option.some.inj h)
      rfl
  | cons b bytes ih =>
    intro p p' fs h8 h
    have hb := h8 b (by simp)
    rw [List.flatMap_cons, byteCalls, List.cons_append, calls, call] at h
    cases h1 : predStart p with
    | none => rw [h1] at h; cases h
    | some p1 =>
      rw [h1, ob_some, ob_some] at h
      dsimp only at h
      rw [calls_append] at h
      cases h2 : calls t mode p1 ((b.map fun b => [Call.predict, Call.update b]).flatten) with
      | none => rw [h2] at h; cases h
      | some r =>
        obtain ⟨gs, p2⟩ := r
        rw [h2, Option.bind_some] at h
        dsimp only at h
        cases h3 : calls t mode p2 (bytes.flatMap byteCalls) with
        | none => rw [h3] at h; cases h
        | some r =>
          obtain ⟨hs, p3⟩ := r
          rw [h3, Option.map_some, ob_some] at h
          obtain ⟨rfl, rfl⟩ := Prod.mk.inj (Option.some.inj h)
          obtain ⟨i1, i2, i3⟩ := bits_run b h2
          obtain ⟨j1, j2, j3⟩ := ih (fun c hc => h8 c (by simp [hc])) h3
          have hfs : (none : Option Nat).toList ++ (gs ++ hs) = gs ++ hs := rfl
          dsimp only
          rw [hfs, List.flatten_cons, bitEvents_append i1]
          refine ⟨by rw [List.length_append, List.length_append, i1, j1], ?_, ?_⟩
          · intro e e' he
            rw [events_append] at he
            cases hb : e.events (bitEvents gs b) with
            | none => rw [hb] at he; cases he
            | some e1 =>
              rw [hb, ob_some] at he
              rw [pack, h1, ob_some, i2 e e1 hb, ob_some]
              exact j2 e1 e' he
          · intro d d' hd
            rw [List.map_append, queries_append] at hd
            cases hq : d.queries ((bitEvents gs b).map Event.query) with
            | none => rw [hq] at hd; cases hd
            | some r =>
              obtain ⟨bs, d1⟩ := r
              rw [hq, Option.bind_some] at hd
              dsimp only at hd
              cases hq' : d1.queries ((bitEvents hs bytes.flatten).map Event.query) with
              | none => rw [hq'] at hd; cases hd
              | some r =>
                obtain ⟨bs', d2⟩ := r
                rw [hq', Option.map_some] at hd
                obtain ⟨e1, e2⟩ := Prod.mk.inj (Option.some.inj hd)
                have hlen : bs.length = b.length := by
                  rw [queries_length hq, List.length_map, bitEvents, List.length_zipWith, i1, Nat.min_self]
                obtain ⟨rfl, rfl⟩ := List.append_inj e1 hlen
                dsimp only at e2
                subst e2
                rw [List.length_cons, unpack, h1, ob_some]
                have := i3 d d1 hq
                rw [hb] at this
                rw [this, ob_some]
                dsimp only
                rw [j3 d1 _ hq', ob_some]

theorem bitEvents_valid : ∀ {fs : List Nat} {bits : List Bool}, (∀ f ∈ fs, 1 ≤ f ∧ f < 2 ^ 23) →
    ∀ ev ∈ bitEvents fs bits, ev.Valid := by
  intro fs
  induction fs with
  | nil => intro bits _ ev h; cases bits <;> cases h
  | cons f fs ih =>
    intro bits h ev hev
    cases bits with
    | nil => cases hev
    | cons b bits =>
      rcases List.mem_cons.mp hev with rfl | hev
      · exact h f (by simp)
      · exact ih (fun g hg => h g (by simp [hg])) ev hev

theorem bitEvents_value : ∀ {fs : List Nat} {bits : List Bool}, fs.length = bits.length →
    (bitEvents fs bits).map Event.value = bits := by
  intro fs
  induction fs with
  | nil => intro bits h; cases bits with
    | nil => rfl
    | cons => cases h
  | cons f fs ih =>
    intro bits h
    cases bits with
    | nil => cases h
    | cons b bits =>
      rw [List.length_cons, List.length_cons] at h
      show b :: (bitEvents fs bits).map Event.value = _
      rw [ih (by omega)]

/-! ## C53: round trip -/

/-- **C53.** Any file of up to 87 500 000 bytes, compressed with the probabilities of the predictor, is restored exactly
by a decoder that runs the same predictor on the bits it decodes, for every mode, window size and maximal order; data
that follows in the stream is left unread. -/
theorem C53_round_trip (mode : Mode) {W maxOrder : Nat} (hW0 : 0 < W) (hW : W ≤ 2 ^ 31) (hM : maxOrder ≤ 8191)
    (bytes : List (List Bool)) (h8 : ∀ b ∈ bytes, b.length = 8) (hn : bytes.length ≤ 87500000) (trail : List Nat) :
    ∃ out, compress mode W maxOrder bytes = some out ∧ (∀ b ∈ out, b < 256) ∧
      decompress mode W maxOrder (out ++ trail) bytes.length = some (bytes, trail) := by
  obtain ⟨t, ht⟩ := C52_tables
  obtain ⟨p0, h0⟩ := C44_new ht mode hW0 hW hM
  obtain ⟨fs, p, h1, h2, h3⟩ := C44_file ht mode hW0 hW hM h0 bytes h8 (by omega)
  obtain ⟨r1, r2, r3⟩ := bytes_run bytes h8 h1
  have hev : (bitEvents fs bytes.flatten).length = 8 * bytes.length := by
    rw [bitEvents, List.length_zipWith, ← r1, Nat.min_self, h2]
  obtain ⟨out, e1, e2, d, e3, e4⟩ := C01_round_trip (bitEvents fs bytes.flatten) (bitEvents_valid h3)
    (by have := emitted_le (bitEvents fs bytes.flatten); omega) trail
  rw [bitEvents_value r1] at e3
  refine ⟨out, ?_, e2, ?_⟩
  · unfold encode at e1
    unfold compress
    cases he : Encoder.new.events (bitEvents fs bytes.flatten) with
    | none => rw [he] at e1; cases e1
    | some e =>
      rw [he, ob_some] at e1
      rw [ht, ob_some, h0, ob_some, r2 _ _ he, ob_some, e1]
  · unfold decode at e3
    unfold decompress
    cases hd : Decoder.new (out ++ trail) with
    | none => rw [hd] at e3; cases e3
    | some d0 =>
      rw [hd, ob_some] at e3
      rw [ht, ob_some, h0, ob_some, ob_some, r3 _ _ e3, ob_some, ← e4]

/-- **C53 (injective).** Two different files of the same size have different compressed forms. -/
theorem C53_injective (mode : Mode) {W maxOrder : Nat} (hW0 : 0 < W) (hW : W ≤ 2 ^ 31) (hM : maxOrder ≤ 8191)
    (bytes bytes' : List (List Bool)) (h8 : ∀ b ∈ bytes, b.length = 8) (h8' : ∀ b ∈ bytes', b.length = 8)
    (hn : bytes.length ≤ 87500000) (hl : bytes'.length = bytes.length)
    (h : compress mode W maxOrder bytes = compress mode W maxOrder bytes') : bytes = bytes' := by
  obtain ⟨out, e1, -, e2⟩ := C53_round_trip mode hW0 hW hM bytes h8 hn []
  obtain ⟨out', e1', -, e2'⟩ := C53_round_trip mode hW0 hW hM bytes' h8' (by omega) []
  rw [h, e1'] at e1
  obtain rfl := Option.some.inj e1
  rw [hl, e2] at e2'
  exact (Prod.mk.inj (Option.some.inj e2')).1

/-! ## C54: the estimate -/

/-- what the program adds to its total for a bit: its information content (`src/main.rs:62-67`, with real numbers instead
of `f64`) -/
noncomputable def estimate (fs : List Nat) (bits : List Bool) : ℝ :=
  (List.zipWith (fun f b => -Real.logb 2 (chance f b)) fs bits).sum

/-- loss by rounding down the part of the interval that belongs to a 0 -/
noncomputable def loss (fs : List Nat) (bits : List Bool) : ℝ :=
  (List.zipWith (fun (f : Nat) b => if b then 0 else Real.logb 2 (1 + 1 / (f : ℝ))) fs bits).sum

/-- gain by rounding up the part of the interval that belongs to a 1 -/
noncomputable def gain (fs : List Nat) (bits : List Bool) : ℝ :=
  (List.zipWith (fun (f : Nat) b => if b then Real.logb 2 (1 + 1 / (2 ^ 23 - (f : ℝ))) else 0) fs bits).sum

theorem content_share : ∀ {fs : List Nat} {bits : List Bool}, (∀ f ∈ fs, 1 ≤ f ∧ f < 2 ^ 23) →
    ((bitEvents fs bits).map fun ev => contentOf (share ev)).sum = estimate fs bits + loss fs bits ∧
    ((bitEvents fs bits).map fun ev => contentOf (shareMost ev)).sum = estimate fs bits - gain fs bits := by
  intro fs
  induction fs with
  | nil => intro bits _; cases bits <;> simp [bitEvents, estimate, loss, gain]
  | cons f fs ih =>
    intro bits h
    cases bits with
    | nil => simp [bitEvents, estimate, loss, gain]
    | cons b bits =>
      obtain ⟨i1, i2⟩ := ih (bits := bits) fun g hg => h g (by simp [hg])
      obtain ⟨f1, f2⟩ := h f (by simp)
      have r1 : (0 : ℝ) < f := by exact_mod_cast f1
      have r2 : (f : ℝ) < 2 ^ 23 := by exact_mod_cast f2
      unfold bitEvents estimate loss gain at *
      simp only [List.zipWith_cons_cons, List.map_cons, List.sum_cons]
      rw [i1, i2]
      cases b with
      | false =>
        have e1 : contentOf (share (.bit f false)) = -Real.logb 2 (chance f false) + Real.logb 2 (1 + 1 / (f : ℝ)) := by
          unfold contentOf share chance
          rw [if_neg (by simp)]
          push_cast
          rw [show (8388608 : ℝ) = 2 ^ 23 by norm_num,
            show (f : ℝ) * f / ((f + 1) * 2 ^ 23) = (f / 2 ^ 23) / (1 + 1 / f) by field_simp,
            Real.logb_div (by positivity) (by positivity)]
          ring
        have e2 : contentOf (shareMost (.bit f false)) = -Real.logb 2 (chance f false) := by
          unfold contentOf shareMost chance
          rw [if_neg (by simp)]
          push_cast
          norm_num
        rw [e1, e2, if_neg (by simp), if_neg (by simp)]
        constructor <;> ring
      | true =>
        have hs : ((2 ^ 23 - f : ℕ) : ℝ) = 2 ^ 23 - f := by
          rw [Nat.cast_sub (by omega)]; push_cast; norm_num
        have e1 : contentOf (share (.bit f true)) = -Real.logb 2 (chance f true) := by
          unfold contentOf share chance
          rw [if_pos rfl]
          dsimp only
          rw [hs]
          push_cast
          rw [show (8388608 : ℝ) = 2 ^ 23 by norm_num,
            show ((2 : ℝ) ^ 23 - f) / 2 ^ 23 = 1 - f / 2 ^ 23 by field_simp]
        have e2 : contentOf (shareMost (.bit f true)) =
            -Real.logb 2 (chance f true) - Real.logb 2 (1 + 1 / (2 ^ 23 - (f : ℝ))) := by
          unfold contentOf shareMost chance
          rw [if_pos rfl]
          dsimp only
          rw [Nat.cast_add, hs]
          have h3 : (0 : ℝ) < 2 ^ 23 - f := by linarith
          have h4 : (0 : ℝ) < 1 - f / 2 ^ 23 := by
            rw [show (1 : ℝ) - f / 2 ^ 23 = (2 ^ 23 - f) / 2 ^ 23 by field_simp]
            positivity
          have h5 : (0 : ℝ) < 1 + 1 / (2 ^ 23 - (f : ℝ)) := by positivity
          push_cast
          rw [show (8388608 : ℝ) = 2 ^ 23 by norm_num,
            show ((2 : ℝ) ^ 23 - f + 1) / 2 ^ 23 = (1 - f / 2 ^ 23) * (1 + 1 / (2 ^ 23 - (f : ℝ))) by
            have : (2 : ℝ) ^ 23 - f ≠ 0 := h3.ne'
            field_simp, Real.logb_mul h4.ne' h5.ne']
          ring
        rw [e1, e2, if_pos rfl, if_pos rfl]
        constructor <;> ring

/-- **C54.** The size the program estimates is the size a file really has after compression with the same probabilities:
beyond the four final bytes the compressed form has at most the estimate plus the rounding losses, and at least the
estimate less the rounding gains and 31 bits. The loss per 0 with probability `f / 2^23` is `log2 (1 + 1/f)`, the gain
per 1 is the same with `2^23 - f`. -/
theorem C54_estimate (mode : Mode) {W maxOrder : Nat} (hW0 : 0 < W) (hW : W ≤ 2 ^ 31) (hM : maxOrder ≤ 8191)
    (bytes : List (List Bool)) (h8 : ∀ b ∈ bytes, b.length = 8) (hn : bytes.length ≤ 87500000)
    {t : Tables} (ht : tablesNew = some t) {p0 p : Predictor} (h0 : predNew t mode W maxOrder = some p0)
    {fs : List Nat} (h : calls t mode p0 (bytes.flatMap byteCalls) = some (fs, p)) :
    ∃ out, compress mode W maxOrder bytes = some out ∧
      8 * ((out.length : ℝ) - 4) ≤ estimate fs bytes.flatten + loss fs bytes.flatten ∧
      estimate fs bytes.flatten - gain fs bytes.flatten - 31 ≤ 8 * ((out.length : ℝ) - 4) := by
  obtain ⟨fs', p', h1, h2, h3⟩ := C44_file ht mode hW0 hW hM h0 bytes h8 (by omega)
  rw [h] at h1
  obtain ⟨rfl, rfl⟩ := Prod.mk.inj (Option.some.inj h1)
  obtain ⟨r1, r2, -⟩ := bytes_run bytes h8 h
  have hev : (bitEvents fs bytes.flatten).length = 8 * bytes.length := by
    rw [bitEvents, List.length_zipWith, ← r1, Nat.min_self, h2]
  obtain ⟨out, e1, -, e2, e3⟩ := C03_bits (bitEvents fs bytes.flatten) (bitEvents_valid h3)
    (by have := emitted_le (bitEvents fs bytes.flatten); omega)
  obtain ⟨c1, c2⟩ := content_share (bits := bytes.flatten) h3
  rw [c1] at e3
  rw [c2] at e2
  refine ⟨out, ?_, e3, e2⟩
  unfold encode at e1
  unfold compress
  cases he : Encoder.new.events (bitEvents fs bytes.flatten) with
  | none => rw [he] at e1; cases e1
  | some e =>
    rw [he, ob_some] at e1
    rw [ht, ob_some, h0, ob_some, r2 _ _ he, ob_some, e1]

/-- two bytes with the parameters of the program -/
example : ∃ out, compress .light 10000000 20 [[false, true, true, false, false, false, false, true],
      [false, true, true, false, false, false, true, false]] = some out ∧
    decompress .light 10000000 20 (out ++ [1, 2]) 2 =
      some ([[false, true, true, false, false, false, false, true],
        [false, true, true, false, false, false, true, false]], [1, 2]) := by
  obtain ⟨out, h1, -, h2⟩ := C53_round_trip .light (W := 10000000) (maxOrder := 20) (by omega) (by omega) (by omega)
    [[false, true, true, false, false, false, false, true], [false, true, true, false, false, false, true, false]]
    (by decide) (by decide) [1, 2]
  exact ⟨out, h1, h2⟩

end Verif.Pred
