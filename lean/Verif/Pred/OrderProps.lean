import Verif.Pred.CodingProps
import Verif.Coding.OrderProps

/-!
# C83 for files: compression preserves the order

Files are lists of bytes, bytes are lists of eight bits with the most significant one first, so the lexicographic order of
Lean's lists is the usual order of files.
-/

namespace Verif.Pred

open Verif Verif.Coding

/-- the calls for single bits -/
def bitCalls (bits : List Bool) : List Call := (bits.map fun b => [.predict, .update b]).flatten

theorem calls_bit {t : Tables} {mode : Mode} {p q : Predictor} {b : Bool} {cs : List Call} {fs : List Nat}
    (h : calls t mode p (.predict :: .update b :: cs) = some (fs, q)) :
    ∃ f p1 p2 gs, predPredict t mode p = some (f, p1) ∧ predUpdate t mode p1 b = some p2 ∧
      calls t mode p2 cs = some (gs, q) ∧ fs = f :: gs := by
  rw [calls, call] at h
  cases h1 : predPredict t mode p with
  | none => rw [h1] at h; cases h
  | some r =>
    obtain ⟨f, p1⟩ := r
    rw [h1, ob_some] at h
    dsimp only at h
    rw [ob_some] at h
    dsimp only at h
    rw [calls, call] at h
    cases h2 : predUpdate t mode p1 b with
    | none => rw [h2] at h; cases h
    | some p2 =>
      rw [h2, ob_some, ob_some] at h
      dsimp only at h
      cases h3 : calls t mode p2 cs with
      | none => rw [h3] at h; cases h
      | some r =>
        obtain ⟨gs, p3⟩ := r
        rw [h3, ob_some, ob_some] at h
        obtain ⟨rfl, rfl⟩ := Prod.mk.inj (Option.some.inj h)
        exact ⟨f, p1, p2, gs, rfl, h2, h3, rfl⟩

theorem calls_start {t : Tables} {mode : Mode} {p q : Predictor} {cs : List Call} {fs : List Nat}
    (h : calls t mode p (.start :: cs) = some (fs, q)) :
    ∃ p1, predStart p = some p1 ∧ calls t mode p1 cs = some (fs, q) := by
  rw [calls, call] at h
  cases h1 : predStart p with
  | none => rw [h1] at h; cases h
  | some p1 =>
    rw [h1, ob_some, ob_some] at h
    dsimp only at h
    cases h3 : calls t mode p1 cs with
    | none => rw [h3] at h; cases h
    | some r =>
      obtain ⟨gs, p3⟩ := r
      rw [h3, ob_some] at h
      obtain ⟨rfl, rfl⟩ := Prod.mk.inj (Option.some.inj h)
      exact ⟨p1, rfl, h3⟩

/-- the first different bit decides -/
theorem bits_below {t : Tables} {mode : Mode} : ∀ (a b x y : List Bool) {p q q' : Predictor} {fs fs' : List Nat}
    {cs cs' : List Call}, a.length = b.length → a < b → calls t mode p (bitCalls a ++ cs) = some (fs, q) →
    calls t mode p (bitCalls b ++ cs') = some (fs', q') → Below (bitEvents fs (a ++ x)) (bitEvents fs' (b ++ y))
  | [], [], _, _, _, _, _, _, _, _, _, _, h, _, _ => absurd h (List.lt_irrefl _)
  | [], _ :: _, _, _, _, _, _, _, _, _, _, hl, _, _, _ => by simp at hl
  | _ :: _, [], _, _, _, _, _, _, _, _, _, hl, _, _, _ => by simp at hl
  | u :: a, v :: b, x, y, p, q, q', fs, fs', cs, cs', hl, h, h1, h2 => by
    obtain ⟨f, p1, p2, gs, c1, c2, c3, rfl⟩ := calls_bit h1
    obtain ⟨f', p1', p2', gs', d1, d2, d3, rfl⟩ := calls_bit h2
    rw [c1] at d1
    obtain ⟨rfl, rfl⟩ := Prod.mk.inj (Option.some.inj d1)
    rw [List.cons_lt_cons_iff] at h
    rcases h with h | ⟨rfl, h⟩
    · obtain ⟨rfl, rfl⟩ := Bool.lt_iff.mp h
      exact .here rfl rfl rfl
    · rw [c2] at d2
      obtain rfl := Option.some.inj d2
      exact .there _ (bits_below a b x y (by simpa using hl) h c3 d3)

/-- the same bits are coded by the same events -/
theorem bits_same {t : Tables} {mode : Mode} : ∀ (a x y : List Bool) {p q q' : Predictor} {fs fs' : List Nat}
    {cs cs' : List Call}, calls t mode p (bitCalls a ++ cs) = some (fs, q) →
    calls t mode p (bitCalls a ++ cs') = some (fs', q') →
    ∃ p1 gs gs' es, calls t mode p1 cs = some (gs, q) ∧ calls t mode p1 cs' = some (gs', q') ∧
      bitEvents fs (a ++ x) = es ++ bitEvents gs x ∧ bitEvents fs' (a ++ y) = es ++ bitEvents gs' y
  | [], _, _, p, _, _, fs, fs', _, _, h1, h2 => ⟨p, fs, fs', [], h1, h2, rfl, rfl⟩
  | u :: a, x, y, p, q, q', fs, fs', cs, cs', h1, h2 => by
    obtain ⟨f, p1, p2, gs, c1, c2, c3, rfl⟩ := calls_bit h1
    obtain ⟨f', p1', p2', gs', d1, d2, d3, rfl⟩ := calls_bit h2
    rw [c1] at d1
    obtain ⟨rfl, rfl⟩ := Prod.mk.inj (Option.some.inj d1)
    rw [c2] at d2
    obtain rfl := Option.some.inj d2
    obtain ⟨p3, ks, ks', es, i1, i2, i3, i4⟩ := bits_same a x y c3 d3
    exact ⟨p3, ks, ks', .bit f u :: es, i1, i2, congrArg (List.cons _) i3, congrArg (List.cons _) i4⟩

theorem Below.append : ∀ (es : List Event) {as bs : List Event}, Below as bs → Below (es ++ as) (es ++ bs)
  | [], _, _, h => h
  | e :: es, _, _, h => .there e (Below.append es h)

/-- events of two files -/
theorem bytes_below {t : Tables} {mode : Mode} : ∀ (a b : List (List Bool)) {p q q' : Predictor} {fs fs' : List Nat},
    (∀ x ∈ a, x.length = 8) → (∀ x ∈ b, x.length = 8) → a < b →
    calls t mode p (a.flatMap byteCalls) = some (fs, q) → calls t mode p (b.flatMap byteCalls) = some (fs', q') →
    (a <+: b ∧ bitEvents fs a.flatten <+: bitEvents fs' b.flatten) ∨
      Below (bitEvents fs a.flatten) (bitEvents fs' b.flatten)
  | [], b, p, q, q', fs, fs', _, _, _, h1, _ => by
    obtain ⟨rfl, rfl⟩ := Prod.mk.inj (Option.some.inj h1)
    exact .inl ⟨List.nil_prefix, List.nil_prefix⟩
  | _ :: _, [], _, _, _, _, _, _, _, h, _, _ => absurd h (List.not_lt_nil _)
  | u :: a, v :: b, p, q, q', fs, fs', ha, hb, h, h1, h2 => by
    rw [List.flatMap_cons] at h1 h2
    obtain ⟨p1, c1, c2⟩ := calls_start h1
    obtain ⟨p1', d1, d2⟩ := calls_start h2
    rw [c1] at d1
    obtain rfl := Option.some.inj d1
    rw [List.flatten_cons, List.flatten_cons]
    rw [List.cons_lt_cons_iff] at h
    rcases h with h | ⟨rfl, h⟩
    · exact .inr (bits_below u v _ _ (by rw [ha u (by simp), hb v (by simp)]) h c2 d2)
    · obtain ⟨p2, gs, gs', es, e1, e2, e3, e4⟩ := bits_same u a.flatten b.flatten c2 d2
      rw [e3, e4]
      rcases bytes_below a b (fun x hx => ha x (by simp [hx])) (fun x hx => hb x (by simp [hx])) h e1 e2 with ⟨i1, i2⟩ | i
      · exact .inl ⟨List.cons_prefix_cons.mpr ⟨rfl, i1⟩, (List.prefix_append_right_inj es).mpr i2⟩
      · exact .inr (Below.append es i)

theorem compress_eq (mode : Mode) {W maxOrder : Nat} {t : Tables} (ht : tablesNew = some t) {p0 : Predictor}
    (h0 : predNew t mode W maxOrder = some p0) {bytes : List (List Bool)} (h8 : ∀ b ∈ bytes, b.length = 8)
    {fs : List Nat} {p : Predictor} (h : calls t mode p0 (bytes.flatMap byteCalls) = some (fs, p)) {out : List Nat}
    (ho : encode (bitEvents fs bytes.flatten) = some out) : compress mode W maxOrder bytes = some out := by
  obtain ⟨r1, r2, r3⟩ := bytes_run bytes h8 h
  unfold encode at ho
  unfold compress
  cases he : Encoder.new.events (bitEvents fs bytes.flatten) with
  | none => rw [he] at ho; cases ho
  | some e =>
    rw [he, ob_some] at ho
    rw [ht, ob_some, h0, ob_some, r2 _ _ he, ob_some, ho]

/-- **C83 (files).** Compression preserves the order of files: the smaller of two files never has the greater compressed
form, and it has the smaller one unless it is a prefix of the other file. -/
theorem C83_files (mode : Mode) {W maxOrder : Nat} (hW0 : 0 < W) (hW : W ≤ 2 ^ 31) (hM : maxOrder ≤ 8191)
    (bytes bytes' : List (List Bool)) (h8 : ∀ b ∈ bytes, b.length = 8) (h8' : ∀ b ∈ bytes', b.length = 8)
    (hn : bytes.length ≤ 87500000) (hn' : bytes'.length ≤ 87500000) (h : bytes < bytes') :
    ∃ out out', compress mode W maxOrder bytes = some out ∧ compress mode W maxOrder bytes' = some out' ∧ ¬ out' < out ∧
      (¬ bytes <+: bytes' → out < out') := by
  obtain ⟨t, ht⟩ := C52_tables
  obtain ⟨p0, h0⟩ := C44_new ht mode hW0 hW hM
  obtain ⟨fs, p, h1, h2, h3⟩ := C44_file ht mode hW0 hW hM h0 bytes h8 (by omega)
  obtain ⟨fs', p', h1', h2', h3'⟩ := C44_file ht mode hW0 hW hM h0 bytes' h8' (by omega)
  have small : ∀ {fs : List Nat} {bytes : List (List Bool)}, fs.length = 8 * bytes.length → bytes.length ≤ 87500000 →
      emitted (bitEvents fs bytes.flatten) + 5 < 2 ^ 31 := by
    intro fs bytes h hb
    have := emitted_le (bitEvents fs bytes.flatten)
    have hev : (bitEvents fs bytes.flatten).length ≤ 8 * bytes.length := by
      rw [bitEvents, List.length_zipWith, h]
      exact Nat.min_le_left _ _
    omega
  rcases bytes_below bytes bytes' h8 h8' h h1 h1' with ⟨i1, more, i2⟩ | i
  · obtain ⟨out, out', e, e', l, -⟩ := C83_prefix (bitEvents fs bytes.flatten) more
      (by rw [i2]; exact bitEvents_valid h3') (by rw [i2]; exact small h2' hn')
    rw [i2] at e'
    exact ⟨out, out', compress_eq mode ht h0 h8 h1 e, compress_eq mode ht h0 h8' h1' e', l, fun hp => absurd i1 hp⟩
  · obtain ⟨out, out', e, e', l⟩ := C83_events i (bitEvents_valid h3) (bitEvents_valid h3') (small h2 hn) (small h2' hn')
    exact ⟨out, out', compress_eq mode ht h0 h8 h1 e, compress_eq mode ht h0 h8' h1' e', List.lt_asymm l, fun _ => l⟩

/-- **C83 (sorting).** Files of the same size are in the same order before and after compression. -/
theorem C83_same_size (mode : Mode) {W maxOrder : Nat} (hW0 : 0 < W) (hW : W ≤ 2 ^ 31) (hM : maxOrder ≤ 8191)
    (bytes bytes' : List (List Bool)) (h8 : ∀ b ∈ bytes, b.length = 8) (h8' : ∀ b ∈ bytes', b.length = 8)
    (hn : bytes.length ≤ 87500000) (hl : bytes'.length = bytes.length) :
    ∃ out out', compress mode W maxOrder bytes = some out ∧ compress mode W maxOrder bytes' = some out' ∧
      (out < out' ↔ bytes < bytes') := by
  have key : ∀ x y : List (List Bool), (∀ b ∈ x, b.length = 8) → (∀ b ∈ y, b.length = 8) → x.length ≤ 87500000 →
      y.length = x.length → x < y → ∃ out out', compress mode W maxOrder x = some out ∧
        compress mode W maxOrder y = some out' ∧ out < out' := by
    intro x y a1 a2 a3 a4 a5
    obtain ⟨out, out', e, e', -, l⟩ := C83_files mode hW0 hW hM x y a1 a2 a3 (by omega) a5
    refine ⟨out, out', e, e', l fun hp => ?_⟩
    rw [hp.eq_of_length a4.symm] at a5
    exact List.lt_irrefl _ a5
  obtain ⟨out, e, -⟩ := C53_round_trip mode hW0 hW hM bytes h8 hn []
  obtain ⟨out', e', -⟩ := C53_round_trip mode hW0 hW hM bytes' h8' (by omega) []
  refine ⟨out, out', e, e', ?_, ?_⟩
  · intro h
    by_contra hn'
    rcases List.le_iff_lt_or_eq.mp (List.not_lt.mp hn') with h1 | rfl
    · obtain ⟨o', o, e1, e2, h2⟩ := key bytes' bytes h8' h8 (by omega) hl.symm h1
      rw [e] at e2; rw [e'] at e1
      obtain rfl := Option.some.inj e1
      obtain rfl := Option.some.inj e2
      exact List.lt_asymm h h2
    · rw [e] at e'
      obtain rfl := Option.some.inj e'
      exact List.lt_irrefl _ h
  · intro h
    obtain ⟨o, o', e1, e2, h2⟩ := key bytes bytes' h8 h8' hn hl h
    rw [e] at e1; rw [e'] at e2
    obtain rfl := Option.some.inj e1
    obtain rfl := Option.some.inj e2
    exact h2

/-- the bytes 97, 98 and 97, 99 -/
example : ∃ out out',
    compress .light 10000000 20 [[false, true, true, false, false, false, false, true],
      [false, true, true, false, false, false, true, false]] = some out ∧
    compress .light 10000000 20 [[false, true, true, false, false, false, false, true],
      [false, true, true, false, false, false, true, true]] = some out' ∧ out < out' := by
  obtain ⟨out, out', e, e', h⟩ := C83_same_size .light (W := 10000000) (maxOrder := 20) (by omega) (by omega) (by omega)
    [[false, true, true, false, false, false, false, true], [false, true, true, false, false, false, true, false]]
    [[false, true, true, false, false, false, false, true], [false, true, true, false, false, false, true, true]]
    (by decide) (by decide) (by decide) rfl
  exact ⟨out, out', e, e', h.mpr (by decide)⟩

end Verif.Pred
