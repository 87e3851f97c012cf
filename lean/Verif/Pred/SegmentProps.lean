import Verif.Pred.LongProps

/-!
# C99: streams stored one after another
-/

namespace Verif.Pred

open Verif Verif.Coding

/-! ## What is done with several streams -/

/-- one encoder after the other, dropped (`src/coding/encoder.rs:113-121`) before the next one is
created, writing to the same place -/
def encodeAll : List (List Event) → Option (List Nat)
  | [] => some []
  | evs :: rest => do
    let out ← encode evs
    let more ← encodeAll rest
    some (out ++ more)

/-- one decoder after the other, each created (`src/coding/decoder.rs:33-46`) on what the one before has left unread -/
def decodeAll : List Nat → List (List Query) → Option (List (List Bool) × List Nat)
  | input, [] => some ([], input)
  | input, qs :: rest => do
    let (bits, d) ← decode input qs
    let (more, left) ← decodeAll d.input rest
    some (bits :: more, left)

/-- the settings of a compressor -/
structure Settings where
  mode : Mode
  W : Nat
  maxOrder : Nat

/-- settings that the compressor accepts -/
def Settings.Fine (s : Settings) : Prop := 0 < s.W ∧ s.W ≤ 2 ^ 31 ∧ s.maxOrder ≤ 8191

/-- files compressed one after the other, each with its own settings -/
def compressAll : List (Settings × List (List Bool)) → Option (List Nat)
  | [] => some []
  | (s, bytes) :: rest => do
    let out ← compress s.mode s.W s.maxOrder bytes
    let more ← compressAll rest
    some (out ++ more)

/-- files decompressed one after the other, given the settings and sizes -/
def decompressAll : List Nat → List (Settings × Nat) → Option (List (List (List Bool)) × List Nat)
  | input, [] => some ([], input)
  | input, (s, n) :: rest => do
    let (bytes, left) ← decompress s.mode s.W s.maxOrder input n
    let (more, left) ← decompressAll left rest
    some (bytes :: more, left)

/-! ## Theorems -/

/-- **C99 (events).** Streams written one after another to the same place are decoded one after another: each decoder stops exactly where the
next stream begins. -/
theorem C99_events : ∀ (segs : List (List Event)), (∀ evs ∈ segs, ∀ ev ∈ evs, ev.Valid) → ∀ {out : List Nat},
    encodeAll segs = some out → ∀ trail, decodeAll (out ++ trail) (segs.map fun evs => evs.map Event.query) =
      some (segs.map fun evs => evs.map Event.value, trail) := by
  intro segs
  induction segs with
  | nil =>
    intro _ out h trail
    obtain rfl := Option.some.inj h
    rfl
  | cons evs segs ih =>
    intro hv out h trail
    rw [encodeAll] at h
    obtain ⟨o, e1, h⟩ := Option.bind_eq_some_iff.mp h
    obtain ⟨more, e2, h⟩ := Option.bind_eq_some_iff.mp h
    obtain rfl := Option.some.inj h
    obtain ⟨-, d, d1, d2⟩ := C88_round_trip evs (hv evs (by simp)) e1 (more ++ trail)
    rw [List.map_cons, decodeAll, List.append_assoc, d1, ob_some]
    dsimp only
    rw [d2, ih (fun e he => hv e (by simp [he])) e2 trail, ob_some, List.map_cons]

/-- **C99 (files).** Files compressed one after another into one stream, each with its own mode, window and maximal order, are restored
one after another; what follows is left unread. -/
theorem C99_files : ∀ (segs : List (Settings × List (List Bool))),
    (∀ s ∈ segs, s.1.Fine ∧ (∀ b ∈ s.2, b.length = 8) ∧ s.2.length ≤ 2 ^ 35) → ∀ {out : List Nat},
    compressAll segs = some out → ∀ trail, decompressAll (out ++ trail) (segs.map fun s => (s.1, s.2.length)) =
      some (segs.map Prod.snd, trail) := by
  intro segs
  induction segs with
  | nil =>
    intro _ out h trail
    obtain rfl := Option.some.inj h
    rfl
  | cons s segs ih =>
    obtain ⟨s, bytes⟩ := s
    intro hv out h trail
    rw [compressAll] at h
    obtain ⟨o, e1, h⟩ := Option.bind_eq_some_iff.mp h
    obtain ⟨more, e2, h⟩ := Option.bind_eq_some_iff.mp h
    obtain rfl := Option.some.inj h
    obtain ⟨⟨f1, f2, f3⟩, h8, hn⟩ := hv (s, bytes) (by simp)
    obtain ⟨-, d1⟩ := C88_files f1 f2 f3 bytes h8 hn e1 (more ++ trail)
    rw [List.map_cons, decompressAll, List.append_assoc, d1, ob_some]
    dsimp only
    rw [ih (fun e he => hv e (by simp [he])) e2 trail, ob_some, List.map_cons]

/-- **C99 (success).** Compressing files of up to 87 500 000 bytes one after another succeeds, however many they are. -/
theorem C99_success : ∀ (segs : List (Settings × List (List Bool))),
    (∀ s ∈ segs, s.1.Fine ∧ (∀ b ∈ s.2, b.length = 8) ∧ s.2.length ≤ 87500000) → ∃ out, compressAll segs = some out := by
  intro segs
  induction segs with
  | nil => intro _; exact ⟨[], rfl⟩
  | cons s segs ih =>
    obtain ⟨s, bytes⟩ := s
    intro hv
    obtain ⟨⟨f1, f2, f3⟩, h8, hn⟩ := hv (s, bytes) (by simp)
    obtain ⟨o, e1, -⟩ := C53_round_trip s.mode f1 f2 f3 bytes h8 hn []
    obtain ⟨more, e2⟩ := ih fun e he => hv e (by simp [he])
    exact ⟨o ++ more, by rw [compressAll, e1, ob_some, e2, ob_some]⟩

/-- **C99 (no marks needed).** Two lists of files with the same settings and sizes whose streams agree are the same. -/
theorem C99_unique (segs segs' : List (Settings × List (List Bool)))
    (h : ∀ s ∈ segs, s.1.Fine ∧ (∀ b ∈ s.2, b.length = 8) ∧ s.2.length ≤ 2 ^ 35)
    (h' : ∀ s ∈ segs', s.1.Fine ∧ (∀ b ∈ s.2, b.length = 8) ∧ s.2.length ≤ 2 ^ 35)
    (hs : (segs.map fun s => (s.1, s.2.length)) = segs'.map fun s => (s.1, s.2.length)) {out : List Nat} {trail trail' : List Nat}
    {out' : List Nat} (e : compressAll segs = some out) (e' : compressAll segs' = some out')
    (ho : out ++ trail = out' ++ trail') : segs = segs' ∧ trail = trail' := by
  have a := C99_files segs h e trail
  have a' := C99_files segs' h' e' trail'
  rw [ho, hs, a'] at a
  obtain ⟨a1, a2⟩ := Prod.mk.inj (Option.some.inj a)
  refine ⟨?_, a2.symm⟩
  have f : segs.map Prod.fst = segs'.map Prod.fst := by
    have := congrArg (List.map Prod.fst) hs
    rwa [List.map_map, List.map_map] at this
  rw [← List.zip_unzip segs, ← List.zip_unzip segs', List.unzip_eq_map, List.unzip_eq_map, f, a1]

/-- two encoders on one output, the second one codes nothing -/
example : encodeAll [[.bit (2 ^ 22) true, .rare false], []] = some ([127, 255, 255, 254] ++ [0, 0, 0, 0]) := by
  decide +kernel

/-- two files with different settings and an empty one -/
example : ∃ out, compressAll [(⟨.light, 3, 1⟩, [letterA, letterB]), (⟨.none, 5, 8⟩, []), (⟨.light, 9, 2⟩, [letterB])] = some out ∧
    decompressAll (out ++ [1, 2]) [(⟨.light, 3, 1⟩, 2), (⟨.none, 5, 8⟩, 0), (⟨.light, 9, 2⟩, 1)] =
      some ([[letterA, letterB], [], [letterB]], [1, 2]) := by
  have h : ∀ s ∈ [((⟨.light, 3, 1⟩ : Settings), [letterA, letterB]), (⟨.none, 5, 8⟩, []), (⟨.light, 9, 2⟩, [letterB])],
      s.1.Fine ∧ (∀ b ∈ s.2, b.length = 8) ∧ s.2.length ≤ 87500000 := by
    intro s hs
    simp only [List.mem_cons, List.not_mem_nil, or_false] at hs
    rcases hs with rfl | rfl | rfl <;> exact ⟨by simp [Settings.Fine], by decide, by decide⟩
  obtain ⟨out, e⟩ := C99_success _ h
  exact ⟨out, e, C99_files _ (fun s hs => ⟨(h s hs).1, (h s hs).2.1, by have := (h s hs).2.2; omega⟩) e [1, 2]⟩

end Verif.Pred
