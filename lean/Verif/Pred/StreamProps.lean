import Verif.Pred.CodingProps
import Verif.Coding.StreamProps

/-! # Decompressing arbitrary data (C73) -/

namespace Verif.Pred

open Verif Verif.Coding

/-- `cs` is the history of a predictor -/
structure Reach (t : Tables) (mode : Mode) (p0 : Predictor) (cs : List Call) (ph : Phase) (p : Predictor) : Prop where
  run : ∃ fs, calls t mode p0 cs = some (fs, p)
  phase : phaseRun .idle cs = some ph

section

variable {t : Tables} (ht : tablesNew = some t) {mode : Mode} {W maxOrder : Nat} (hW0 : 0 < W) (hW : W ≤ 2 ^ 31)
  (hM : maxOrder ≤ 8191) {p0 : Predictor} (h0 : predNew t mode W maxOrder = some p0)

include ht hW0 hW hM h0

/-- a call the protocol allows succeeds -/
theorem Reach.step {cs : List Call} {ph ph' : Phase} {p : Predictor} (h : Reach t mode p0 cs ph p) {c : Call}
    (hn : cs.length < 2 ^ 40) (hc : phaseStep ph c = some ph') :
    ∃ o p', call t mode p c = some (o, p') ∧ (∀ f, o = some f → 1 ≤ f ∧ f < 2 ^ 23) ∧ Reach t mode p0 (cs ++ [c]) ph' p' := by
  obtain ⟨fs, h1⟩ := h.run
  have hph : phaseRun .idle (cs ++ [c]) = some ph' := by
    rw [phaseRun_append, h.phase, Option.bind_some, phaseRun, hc]
    rfl
  have hl : (cs ++ [c]).length ≤ 2 ^ 40 := by
    rw [List.length_append, List.length_singleton]
    omega
  have hs := (C44_protocol ht mode hW0 hW hM h0 (cs ++ [c]) hl).mpr (by rw [hph]; rfl)
  have he := calls_append t mode cs [c] p0
  rw [h1, Option.bind_some] at he
  dsimp only at he
  rw [calls] at he
  cases hcall : call t mode p c with
  | none =>
    rw [hcall] at he
    rw [he] at hs
    cases hs
  | some r =>
    obtain ⟨o, p'⟩ := r
    rw [hcall, ob_some] at he
    dsimp only at he
    rw [calls, ob_some, Option.map_some] at he
    refine ⟨o, p', rfl, ?_, ⟨_, he⟩, hph⟩
    intro f hf
    have := (C44_predictions ht mode hW0 hW hM h0 (cs ++ [c]) hl he).2 f (by rw [hf]; simp)
    exact this

theorem unpackBits_any : ∀ (n j : Nat) (cs : List Call) (p : Predictor) (d : Decoder), j + n = 8 → 0 < n →
    Reach t mode p0 cs (.ready j) p → cs.length + 2 * n ≤ 2 ^ 40 → Sane d → 3 * n ≤ d.input.length →
    ∃ bs p' d' cs', unpackBits t mode p d n = some (bs, p', d') ∧ bs.length = n ∧ cs'.length = cs.length + 2 * n ∧
      Reach t mode p0 cs' .idle p' ∧ Sane d' ∧ d.input.length ≤ d'.input.length + 3 * n := by
  intro n
  induction n with
  | zero => intro j cs p d _ h; omega
  | succ n ih =>
    intro j cs p d hj _ h hn hs hl
    obtain ⟨o, p1, c1, v1, r1⟩ := h.step ht hW0 hW hM h0 (c := .predict) (by omega) rfl
    rw [call] at c1
    cases hp : predPredict t mode p with
    | none => rw [hp] at c1; cases c1
    | some r =>
      obtain ⟨f, q⟩ := r
      rw [hp, ob_some] at c1
      obtain ⟨rfl, rfl⟩ := Prod.mk.inj (Option.some.inj c1)
      obtain ⟨b, d1, q1, s1, l1⟩ := sane_query hs (q := .bit f) (v1 f rfl) (by omega)
      have q1 : d.decodeBit f = some (b, d1) := q1
      obtain ⟨o2, p2, c2, -, r2⟩ := r1.step ht hW0 hW hM h0 (c := .update b)
        (ph' := if j = 7 then .idle else .ready (j + 1)) (by rw [List.length_append, List.length_singleton]; omega) rfl
      rw [call] at c2
      cases hu : predUpdate t mode q b with
      | none => rw [hu] at c2; cases c2
      | some q' =>
        rw [hu, ob_some] at c2
        obtain ⟨rfl, rfl⟩ := Prod.mk.inj (Option.some.inj c2)
        rw [unpackBits, hp, ob_some]
        dsimp only
        rw [q1, ob_some]
        dsimp only
        rw [hu, ob_some]
        by_cases hj7 : j = 7
        · obtain rfl : n = 0 := by omega
          rw [if_pos hj7] at r2
          refine ⟨[b], q', d1, _, ?_, rfl, ?_, r2, s1, by omega⟩
          · rw [unpackBits, ob_some]
          · simp
        · rw [if_neg hj7] at r2
          obtain ⟨bs, p3, d3, cs3, e1, e2, e3, e4, e5, e6⟩ := ih (j + 1) _ q' d1 (by omega) (by omega) r2
            (by simp only [List.length_append, List.length_singleton]; omega) s1 (by omega)
          refine ⟨b :: bs, p3, d3, cs3, ?_, by rw [List.length_cons, e2], ?_, e4, e5, by omega⟩
          · rw [e1, ob_some]
          · rw [e3]
            simp only [List.length_append, List.length_singleton]
            omega

theorem unpack_any : ∀ (n : Nat) (cs : List Call) (p : Predictor) (d : Decoder),
    Reach t mode p0 cs .idle p → cs.length + 17 * n ≤ 2 ^ 40 → Sane d → 24 * n ≤ d.input.length →
    ∃ bytes d', unpack t mode p d n = some (bytes, d') ∧ bytes.length = n ∧ (∀ b ∈ bytes, b.length = 8) ∧
      d.input.length ≤ d'.input.length + 24 * n := by
  intro n
  induction n with
  | zero =>
    intro cs p d _ _ _ _
    exact ⟨[], d, rfl, rfl, (fun b hb => by cases hb), by omega⟩
  | succ n ih =>
    intro cs p d h hn hs hl
    obtain ⟨o, p1, c1, -, r1⟩ := h.step ht hW0 hW hM h0 (c := .start) (by omega) rfl
    rw [call] at c1
    cases hp : predStart p with
    | none => rw [hp] at c1; cases c1
    | some q =>
      rw [hp, ob_some] at c1
      obtain ⟨rfl, rfl⟩ := Prod.mk.inj (Option.some.inj c1)
      obtain ⟨b, p2, d2, cs2, e1, e2, e3, e4, e5, e6⟩ := unpackBits_any ht hW0 hW hM h0 8 0 _ q d (by omega) (by omega) r1
        (by rw [List.length_append, List.length_singleton]; omega) hs (by omega)
      rw [List.length_append, List.length_singleton] at e3
      obtain ⟨bs, d3, g1, g2, g3, g4⟩ := ih cs2 p2 d2 e4 (by omega) e5 (by omega)
      refine ⟨b :: bs, d3, ?_, by rw [List.length_cons, g2], ?_, by omega⟩
      · rw [unpack, hp, ob_some, e1, ob_some]
        dsimp only
        rw [g1, ob_some]
      · intro c hc
        rcases List.mem_cons.mp hc with rfl | hc
        · exact e2
        · exact g3 c hc

end

/-! ## Reading -/

theorem reader_const {α : Type} (o : Option α) : Reader fun d : Decoder => o.map fun a => (a, d) :=
  Reader.pure _ (fun _ => o) (·.buffer) (·.range) (·.nextHighBit) (fun _ => rfl) (fun _ _ => ⟨rfl, rfl, rfl, rfl⟩)

theorem reader_unpackBits (t : Tables) (mode : Mode) : ∀ (n : Nat) (p : Predictor),
    Reader fun d => (unpackBits t mode p d n).map fun r => ((r.1, r.2.1), r.2.2) := by
  intro n
  induction n with
  | zero => intro p; exact reader_const (some (([] : List Bool), p))
  | succ n ih =>
    intro p
    have h1 : ∀ (b : Bool) (q : Predictor), Reader fun d => ((unpackBits t mode q d n).map fun r => ((r.1, r.2.1), r.2.2)).bind
        fun x => (some (b :: x.1.1, x.1.2)).map fun a => (a, x.2) :=
      fun b q => (ih q).bind fun a => reader_const (some (b :: a.1, a.2))
    have h2 : ∀ (q : Predictor) (b : Bool), Reader fun d => ((predUpdate t mode q b).map fun a => (a, d)).bind fun x =>
        ((unpackBits t mode x.1 x.2 n).map fun r => ((r.1, r.2.1), r.2.2)).bind
          fun x => (some (b :: x.1.1, x.1.2)).map fun a => (a, x.2) :=
      fun q b => (reader_const (predUpdate t mode q b)).bind fun q' => h1 b q'
    have h3 : ∀ r : Nat × Predictor, Reader fun d => (d.query (.bit r.1)).bind fun y =>
        ((predUpdate t mode r.2 y.1).map fun a => (a, y.2)).bind fun x =>
          ((unpackBits t mode x.1 x.2 n).map fun r => ((r.1, r.2.1), r.2.2)).bind
            fun x => (some (y.1 :: x.1.1, x.1.2)).map fun a => (a, x.2) :=
      fun r => (reader_query (.bit r.1)).bind fun b => h2 r.2 b
    refine ((reader_const (predPredict t mode p)).bind h3).congr fun d => ?_
    rw [unpackBits]
    cases predPredict t mode p with
    | none => rfl
    | some r =>
      rw [ob_some, Option.map_some, Option.bind_some]
      dsimp only [Decoder.query]
      cases d.decodeBit r.1 with
      | none => rfl
      | some y =>
        rw [ob_some, Option.bind_some]
        cases predUpdate t mode r.2 y.1 with
        | none => rfl
        | some q =>
          rw [ob_some, Option.map_some, Option.bind_some]
          cases unpackBits t mode q y.2 n <;> rfl

theorem reader_unpack (t : Tables) (mode : Mode) : ∀ (n : Nat) (p : Predictor), Reader fun d => unpack t mode p d n := by
  intro n
  induction n with
  | zero => intro p; exact reader_const (some ([] : List (List Bool)))
  | succ n ih =>
    intro p
    have h1 : ∀ a : List Bool × Predictor, Reader fun d => (unpack t mode a.2 d n).bind
        fun x => (some (a.1 :: x.1)).map fun y => (y, x.2) :=
      fun a => (ih a.2).bind fun bs => reader_const (some (a.1 :: bs))
    have h2 : ∀ q : Predictor, Reader fun d => ((unpackBits t mode q d 8).map fun r => ((r.1, r.2.1), r.2.2)).bind fun a =>
        (unpack t mode a.1.2 a.2 n).bind fun x => (some (a.1.1 :: x.1)).map fun y => (y, x.2) :=
      fun q => (reader_unpackBits t mode 8 q).bind h1
    refine ((reader_const (predStart p)).bind h2).congr fun d => ?_
    rw [unpack]
    cases predStart p with
    | none => rfl
    | some q =>
      rw [ob_some, Option.map_some, Option.bind_some]
      cases unpackBits t mode q d 8 with
      | none => rfl
      | some r =>
        rw [ob_some, Option.map_some, Option.bind_some]
        dsimp only
        cases unpack t mode r.2.1 r.2.2 n <;> rfl

/-- the decoder before the first byte -/
def blank (input : List Nat) : Decoder := { input := input, buffer := 0, range := 0x7fffffff, nextHighBit := 0 }

/-- starting the decoder and unpacking -/
def unpackAll (t : Tables) (mode : Mode) (p : Predictor) (n : Nat) (d : Decoder) : Option (List (List Bool) × Decoder) :=
  (unitStep Decoder.shiftIn d).bind fun x => (unitStep Decoder.shiftIn x.2).bind fun x =>
    (unitStep Decoder.shiftIn x.2).bind fun x => (unitStep Decoder.shiftIn x.2).bind fun x => unpack t mode p x.2 n

theorem reader_all (t : Tables) (mode : Mode) (p : Predictor) (n : Nat) : Reader (unpackAll t mode p n) :=
  reader_shift.bind fun _ => reader_shift.bind fun _ => reader_shift.bind fun _ => reader_shift.bind fun _ =>
    reader_unpack t mode n p

theorem decompress_eq {t : Tables} (ht : tablesNew = some t) {mode : Mode} {W maxOrder : Nat} {p0 : Predictor}
    (h0 : predNew t mode W maxOrder = some p0) (input : List Nat) (n : Nat) :
    decompress mode W maxOrder input n = (unpackAll t mode p0 n (blank input)).map fun r => (r.1, r.2.input) := by
  unfold decompress unpackAll Decoder.new unitStep blank
  rw [ht, ob_some, h0, ob_some]
  simp only [Option.bind_eq_bind]
  cases Decoder.shiftIn { input := input, buffer := 0, range := 0x7fffffff, nextHighBit := 0 } with
  | none => rfl
  | some d1 =>
    simp only [Option.bind_some, Option.map_some]
    cases d1.shiftIn with
    | none => rfl
    | some d2 =>
      simp only [Option.bind_some, Option.map_some]
      cases d2.shiftIn with
      | none => rfl
      | some d3 =>
        simp only [Option.bind_some, Option.map_some]
        cases d3.shiftIn with
        | none => rfl
        | some d4 =>
          simp only [Option.bind_some, Option.map_some]
          cases unpack t mode p0 d4 n <;> rfl

theorem blank_more (input trail : List Nat) : blank (input ++ trail) = (blank input).more trail := rfl

section

variable (mode : Mode) {W maxOrder : Nat} (hW0 : 0 < W) (hW : W ≤ 2 ^ 31) (hM : maxOrder ≤ 8191)

include hW0 hW hM

/-- **C73.** Decompressing any data never panics as long as there are enough bytes: it gives the requested number of
bytes and reads at most 24 bytes for each, and four more. -/
theorem C73_any_stream (input : List Nat) (hi : ∀ b ∈ input, b < 256) (n : Nat) (hn : n ≤ 2 ^ 35)
    (hl : 4 + 24 * n ≤ input.length) :
    ∃ bytes rest, decompress mode W maxOrder input n = some (bytes, rest) ∧ bytes.length = n ∧
      (∀ b ∈ bytes, b.length = 8) ∧ input.length ≤ rest.length + 4 + 24 * n := by
  obtain ⟨t, ht⟩ := C52_tables
  obtain ⟨p0, h0⟩ := C44_new ht mode hW0 hW hM
  have hs : Sane (blank input) := ⟨by simp [blank], by simp [blank], by simp [blank], hi⟩
  obtain ⟨d1, e1, h1, -, l1⟩ := sane_shift hs (by simp only [blank]; omega)
  simp only [blank] at l1
  obtain ⟨d2, e2, h2, -, l2⟩ := sane_shift h1 (by omega)
  obtain ⟨d3, e3, h3, -, l3⟩ := sane_shift h2 (by omega)
  obtain ⟨d4, e4, h4, -, l4⟩ := sane_shift h3 (by omega)
  obtain ⟨bytes, d, g1, g2, g3, g4⟩ := unpack_any ht hW0 hW hM h0 n [] p0 d4 ⟨⟨[], rfl⟩, rfl⟩ (by simp; omega) h4 (by omega)
  refine ⟨bytes, d.input, ?_, g2, g3, by omega⟩
  rw [decompress_eq ht h0]
  simp only [unpackAll, unitStep, e1, e2, e3, e4, Option.map_some, Option.bind_some, g1]

/-- **C73 (prefix).** If decompression succeeds, then on every continuation of the data it gives the same bytes and leaves
the continuation unread. -/
theorem C73_prefix (input : List Nat) (n : Nat) (bytes : List (List Bool)) (rest : List Nat)
    (h : decompress mode W maxOrder input n = some (bytes, rest)) (trail : List Nat) :
    decompress mode W maxOrder (input ++ trail) n = some (bytes, rest ++ trail) := by
  obtain ⟨t, ht⟩ := C52_tables
  obtain ⟨p0, h0⟩ := C44_new ht mode hW0 hW hM
  rw [decompress_eq ht h0] at h ⊢
  rw [Option.map_eq_some_iff] at h
  obtain ⟨⟨bs, d⟩, h1, h2⟩ := h
  obtain ⟨rfl, rfl⟩ := Prod.mk.inj h2
  rw [blank_more, (reader_all t mode p0 n).more h1 trail]
  rfl

/-- **C73 (panic).** If decompression panics then only for lack of data: continued by enough bytes, whatever they are,
the data is decompressed, and bytes beyond its original end are read. -/
theorem C73_panic (input : List Nat) (hi : ∀ b ∈ input, b < 256) (n : Nat) (hn : n ≤ 2 ^ 35)
    (h : decompress mode W maxOrder input n = none) (trail : List Nat) (ht : ∀ b ∈ trail, b < 256)
    (hl : 4 + 24 * n ≤ input.length + trail.length) :
    ∃ bytes rest, decompress mode W maxOrder (input ++ trail) n = some (bytes, rest) ∧ rest.length < trail.length := by
  obtain ⟨bytes, rest, e, -⟩ := C73_any_stream mode hW0 hW hM (input ++ trail)
    (fun b hb => (List.mem_append.1 hb).elim (hi b) (ht b)) n hn (by rw [List.length_append]; omega)
  refine ⟨bytes, rest, e, ?_⟩
  obtain ⟨t, ht⟩ := C52_tables
  obtain ⟨p0, h0⟩ := C44_new ht mode hW0 hW hM
  rw [decompress_eq ht h0] at e h
  rw [Option.map_eq_none_iff] at h
  rw [Option.map_eq_some_iff] at e
  obtain ⟨⟨bs, d⟩, h1, h2⟩ := e
  obtain ⟨rfl, rfl⟩ := Prod.mk.inj h2
  rw [blank_more] at h1
  exact (reader_all t mode p0 n).short h trail _ _ h1

/-- **C73 (truncation).** A compressed file that lacks its last byte, or more, makes the decompressor panic; it is never
decompressed to something else. -/
theorem C73_truncated (bytes : List (List Bool)) (h8 : ∀ b ∈ bytes, b.length = 8) (hn : bytes.length ≤ 87500000)
    (out : List Nat) (h : compress mode W maxOrder bytes = some out) (k : Nat) (hk : k < out.length) :
    decompress mode W maxOrder (out.take k) bytes.length = none := by
  obtain ⟨out', h1, -, h2⟩ := C53_round_trip mode hW0 hW hM bytes h8 hn []
  rw [h] at h1
  obtain rfl := Option.some.inj h1
  rw [List.append_nil] at h2
  cases hd : decompress mode W maxOrder (out.take k) bytes.length with
  | none => rfl
  | some r =>
    obtain ⟨bs, rest⟩ := r
    have := C73_prefix mode hW0 hW hM _ _ _ _ hd (out.drop k)
    rw [List.take_append_drop, h2, Option.some.injEq, Prod.mk.injEq] at this
    have := congrArg List.length this.2
    simp only [List.length_nil, List.length_append, List.length_drop] at this
    omega

end

theorem unpack_add {t : Tables} {mode : Mode} (m : Nat) : ∀ (n : Nat) (p : Predictor) (d d' : Decoder) (bytes : List (List Bool)),
    unpack t mode p d (n + m) = some (bytes, d') → ∃ d1, unpack t mode p d n = some (bytes.take n, d1) := by
  intro n
  induction n with
  | zero => intro p d d' bytes _; exact ⟨d, rfl⟩
  | succ n ih =>
    intro p d d' bytes h
    rw [show n + 1 + m = (n + m) + 1 by omega, unpack] at h
    rw [unpack]
    cases h1 : predStart p with
    | none => rw [h1] at h; cases h
    | some q =>
      rw [h1, ob_some] at h
      rw [ob_some]
      cases h2 : unpackBits t mode q d 8 with
      | none => rw [h2] at h; cases h
      | some r =>
        obtain ⟨b, p2, d2⟩ := r
        rw [h2, ob_some] at h
        rw [ob_some]
        dsimp only at h ⊢
        cases h3 : unpack t mode p2 d2 (n + m) with
        | none => rw [h3] at h; cases h
        | some r =>
          obtain ⟨bs, d3⟩ := r
          rw [h3, ob_some] at h
          obtain ⟨rfl, rfl⟩ := Prod.mk.inj (Option.some.inj h)
          obtain ⟨d4, h4⟩ := ih p2 d2 d3 bs h3
          exact ⟨d4, by rw [h4, ob_some, List.take_succ_cons]⟩

/-- **C73 (streaming).** The first bytes can be decompressed without the rest: asking for fewer bytes gives the first of
the bytes. -/
theorem C73_streaming (mode : Mode) (W maxOrder : Nat) (input : List Nat) (n m : Nat) (bytes : List (List Bool)) (rest : List Nat)
    (h : decompress mode W maxOrder input (n + m) = some (bytes, rest)) :
    ∃ rest', decompress mode W maxOrder input n = some (bytes.take n, rest') := by
  obtain ⟨t, ht⟩ := C52_tables
  cases h0 : predNew t mode W maxOrder with
  | none => unfold decompress at h; rw [ht, ob_some, h0] at h; cases h
  | some p0 =>
    unfold decompress at h ⊢
    rw [ht, ob_some, h0, ob_some] at h ⊢
    cases hd : Decoder.new input with
    | none => rw [hd] at h; cases h
    | some d =>
      rw [hd, ob_some] at h
      rw [ob_some]
      cases hu : unpack t mode p0 d (n + m) with
      | none => rw [hu] at h; cases h
      | some r =>
        obtain ⟨bs, d'⟩ := r
        rw [hu, ob_some] at h
        obtain ⟨rfl, -⟩ := Prod.mk.inj (Option.some.inj h)
        obtain ⟨d1, h1⟩ := unpack_add m n p0 d d' _ hu
        exact ⟨d1.input, by rw [h1, ob_some]⟩

/-- three bytes from data no compressor made -/
example : ∃ bytes rest, decompress .light 10000000 20 (List.replicate 100 171) 3 = some (bytes, rest) ∧ bytes.length = 3 := by
  obtain ⟨bytes, rest, h1, h2, -⟩ := C73_any_stream .light (W := 10000000) (maxOrder := 20) (by norm_num) (by norm_num)
    (by norm_num) (List.replicate 100 171) (by simp) 3 (by norm_num) (by simp)
  exact ⟨bytes, rest, h1, h2⟩

/-- two compressed bytes without their last byte -/
example : ∃ out, compress .light 10000000 20 [List.replicate 8 true, List.replicate 8 false] = some out ∧
    out.length - 1 < out.length ∧ decompress .light 10000000 20 (out.take (out.length - 1)) 2 = none := by
  obtain ⟨out, h1, -, h2⟩ := C53_round_trip .light (W := 10000000) (maxOrder := 20) (by norm_num) (by norm_num) (by norm_num)
    [List.replicate 8 true, List.replicate 8 false] (by simp) (by norm_num) []
  have hl : out.length - 1 < out.length := by
    rcases Nat.eq_zero_or_pos out.length with h | h
    · rw [List.eq_nil_of_length_eq_zero h] at h2
      obtain ⟨t, ht⟩ := C52_tables
      obtain ⟨p0, h0⟩ := C44_new ht .light (W := 10000000) (maxOrder := 20) (by norm_num) (by norm_num) (by norm_num)
      rw [decompress_eq ht h0] at h2
      cases h2
    · omega
  exact ⟨out, h1, hl, C73_truncated .light (by norm_num) (by norm_num) (by norm_num) _ (by simp) (by norm_num) out h1 _ hl⟩

end Verif.Pred
