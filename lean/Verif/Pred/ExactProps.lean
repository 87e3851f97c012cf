import Verif.Pred.LargeProps
import Verif.Coding.ExactProps

/-!
# C95 for files: which data is decompressed to what
-/

namespace Verif.Pred

open Verif Verif.Coding

/-! ## Lemmas -/

theorem unpackBits_run {t : Tables} {mode : Mode} : ∀ (n : Nat) {p p' : Predictor} {d d' : Decoder} {bits : List Bool},
    unpackBits t mode p d n = some (bits, p', d') →
    bits.length = n ∧ ∃ fs, calls t mode p ((bits.map fun b => [Call.predict, Call.update b]).flatten) = some (fs, p') ∧
      fs.length = bits.length ∧ d.queries ((bitEvents fs bits).map Event.query) = some (bits, d')
  | 0, p, p', d, d', bits, h => by
    obtain ⟨rfl, hh⟩ := Prod.mk.inj (Option.some.inj h)
    obtain ⟨rfl, rfl⟩ := Prod.mk.inj hh
    exact ⟨rfl, [], rfl, rfl, rfl⟩
  | n + 1, p, p', d, d', bits, h => by
    rw [unpackBits] at h
    obtain ⟨⟨f, p1⟩, h1, h⟩ := Option.bind_eq_some_iff.mp h
    obtain ⟨⟨b, d1⟩, h2, h⟩ := Option.bind_eq_some_iff.mp h
    obtain ⟨p2, h3, h⟩ := Option.bind_eq_some_iff.mp h
    obtain ⟨⟨bs, p3, d3⟩, h4, h⟩ := Option.bind_eq_some_iff.mp h
    obtain ⟨rfl, hh⟩ := Prod.mk.inj (Option.some.inj h)
    obtain ⟨rfl, rfl⟩ := Prod.mk.inj hh
    obtain ⟨i1, fs, i2, i3, i4⟩ := unpackBits_run n h4
    refine ⟨by rw [List.length_cons, i1], f :: fs, ?_, by rw [List.length_cons, List.length_cons, i3], ?_⟩
    · rw [List.map_cons, List.flatten_cons, List.cons_append, List.cons_append, List.nil_append, calls, call, h1, ob_some]
      dsimp only
      rw [ob_some]
      dsimp only
      rw [calls, call, h3, ob_some, ob_some]
      dsimp only
      rw [i2, ob_some, ob_some]
      rfl
    · change d.queries (Query.bit f :: (bitEvents fs bs).map Event.query) = _
      rw [Decoder.queries, Decoder.query, h2, ob_some]
      dsimp only
      rw [i4, ob_some]

theorem unpack_run {t : Tables} {mode : Mode} : ∀ (n : Nat) {p : Predictor} {d d' : Decoder} {bytes : List (List Bool)},
    unpack t mode p d n = some (bytes, d') →
    bytes.length = n ∧ (∀ b ∈ bytes, b.length = 8) ∧ ∃ fs p', calls t mode p (bytes.flatMap byteCalls) = some (fs, p') ∧
      fs.length = bytes.flatten.length ∧ d.queries ((bitEvents fs bytes.flatten).map Event.query) = some (bytes.flatten, d')
  | 0, p, d, d', bytes, h => by
    obtain ⟨rfl, rfl⟩ := Prod.mk.inj (Option.some.inj h)
    exact ⟨rfl, (fun b hb => by cases hb), [], p, rfl, rfl, rfl⟩
  | n + 1, p, d, d', bytes, h => by
    rw [unpack] at h
    obtain ⟨p1, h1, h⟩ := Option.bind_eq_some_iff.mp h
    obtain ⟨⟨b, p2, d1⟩, h2, h⟩ := Option.bind_eq_some_iff.mp h
    obtain ⟨⟨bs, d2⟩, h3, h⟩ := Option.bind_eq_some_iff.mp h
    obtain ⟨rfl, rfl⟩ := Prod.mk.inj (Option.some.inj h)
    obtain ⟨i1, fs, i2, i3, i4⟩ := unpackBits_run 8 h2
    obtain ⟨j1, j2, gs, p', j3, j4, j5⟩ := unpack_run n h3
    refine ⟨by rw [List.length_cons, j1], ?_, fs ++ gs, p', ?_, ?_, ?_⟩
    · intro c hc
      rcases List.mem_cons.mp hc with rfl | hc
      · exact i1
      · exact j2 c hc
    · rw [List.flatMap_cons, byteCalls, List.cons_append, calls, call, h1, ob_some, ob_some]
      dsimp only
      rw [calls_append, i2, Option.bind_some]
      dsimp only
      rw [j3, Option.map_some, ob_some]
      rfl
    · rw [List.flatten_cons, List.length_append, List.length_append, i3, j4]
    · rw [List.flatten_cons, bitEvents_append i3, List.map_append, queries_append, i4, Option.bind_some]
      dsimp only
      rw [j5, Option.map_some]

theorem take_flatMap {α β : Type} (f : α → List β) (k : Nat) (l : List α) :
    l.flatMap f = (l.take k).flatMap f ++ (l.drop k).flatMap f := by
  rw [← List.flatMap_append, List.take_append_drop]

theorem length_flatten8 : ∀ {l : List (List Bool)}, (∀ b ∈ l, b.length = 8) → l.flatten.length = 8 * l.length
  | [], _ => rfl
  | x :: l, h => by
    rw [List.flatten_cons, List.length_append, h x (by simp), length_flatten8 fun b hb => h b (by simp [hb]), List.length_cons]
    omega

section
variable {mode : Mode} {W maxOrder : Nat} (hW0 : 0 < W) (hW : W ≤ 2 ^ 31) (hM : maxOrder ≤ 8191)
include hW0 hW hM

/-- decompression as decoding -/
theorem decompress_decode {input rest : List Nat} {n : Nat} (hn : n ≤ 2 ^ 35) {bytes : List (List Bool)}
    (h : decompress mode W maxOrder input n = some (bytes, rest)) :
    bytes.length = n ∧ (∀ b ∈ bytes, b.length = 8) ∧ ∃ t p0 fs p d, tablesNew = some t ∧ predNew t mode W maxOrder = some p0 ∧
      calls t mode p0 (bytes.flatMap byteCalls) = some (fs, p) ∧ fs.length = bytes.flatten.length ∧
      (∀ f ∈ fs, 1 ≤ f ∧ f < 2 ^ 23) ∧ d.input = rest ∧
      decode input ((bitEvents fs bytes.flatten).map Event.query) = some ((bitEvents fs bytes.flatten).map Event.value, d) := by
  unfold decompress at h
  obtain ⟨t, ht, h⟩ := Option.bind_eq_some_iff.mp h
  obtain ⟨p0, h0, h⟩ := Option.bind_eq_some_iff.mp h
  obtain ⟨d0, hd, h⟩ := Option.bind_eq_some_iff.mp h
  obtain ⟨⟨bs, d⟩, hu, h⟩ := Option.bind_eq_some_iff.mp h
  obtain ⟨rfl, rfl⟩ := Prod.mk.inj (Option.some.inj h)
  obtain ⟨i1, i2, fs, p, i3, i4, i5⟩ := unpack_run n hu
  have hv := (C44_predictions ht mode hW0 hW hM h0 _ (by rw [bytes_length bs i2]; omega) i3).2
  refine ⟨i1, i2, t, p0, fs, p, d, ht, h0, i3, i4, hv, rfl, ?_⟩
  rw [decode, hd, ob_some, i5, bitEvents_value i4]

/-! ## Theorems -/

/-- **C95 (files, exact set of data).** The data that is decompressed to a file, with a given rest left unread, is exactly the data
whose used part has the length of the compressed form and, as a number, lies in an interval that begins with the
compressed form. -/
theorem C95_data (bytes : List (List Bool)) (h8 : ∀ b ∈ bytes, b.length = 8) (hn : bytes.length ≤ 2 ^ 35) {out : List Nat}
    (he : compress mode W maxOrder bytes = some out) :
    ∃ width, 2 ≤ width ∧ width < 2 ^ 32 ∧ ∀ input, (∀ b ∈ input, b < 256) → Regular input → ∀ rest,
      (decompress mode W maxOrder input bytes.length = some (bytes, rest) ↔
        ∃ used, input = used ++ rest ∧ used.length = out.length ∧ val out ≤ val used ∧ val used < val out + width) := by
  obtain ⟨t, ht⟩ := C52_tables
  obtain ⟨p0, h0⟩ := C44_new ht mode hW0 hW hM
  obtain ⟨fs, p, h1, -, h3⟩ := C44_file ht mode hW0 hW hM h0 bytes h8 hn
  obtain ⟨r1, -, r3⟩ := bytes_run bytes h8 h1
  rw [compress_encode h8 ht h0 h1] at he
  obtain ⟨width, w1, w2, w3⟩ := C95_exact _ (bitEvents_valid h3) he
  refine ⟨width, w1, w2, fun input hb hr rest => ?_⟩
  rw [← w3 input hb hr rest]
  constructor
  · intro h
    obtain ⟨-, -, t', p0', fs', p', d, ht', h0', i3, -, -, i6, i7⟩ := decompress_decode hW0 hW hM hn h
    rw [ht] at ht'
    obtain rfl := Option.some.inj ht'
    rw [h0] at h0'
    obtain rfl := Option.some.inj h0'
    rw [h1] at i3
    obtain ⟨rfl, rfl⟩ := Prod.mk.inj (Option.some.inj i3)
    exact ⟨d, i7, i6⟩
  · rintro ⟨d, hd, rfl⟩
    rw [bitEvents_value r1] at hd
    unfold decode at hd
    obtain ⟨d0, g1, g2⟩ := Option.bind_eq_some_iff.mp hd
    unfold decompress
    rw [ht, ob_some, h0, ob_some, g1, ob_some, r3 _ _ g2, ob_some]

/-- **C95 (files, order of data).** Decompressing the same number of bytes from any data, greater data is never decompressed to a
smaller file. -/
theorem C95_files {n : Nat} (hn : n ≤ 2 ^ 35) {input input' rest rest' : List Nat} (hb : ∀ b ∈ input, b < 256)
    (hb' : ∀ b ∈ input', b < 256) (hr : Regular input) (hr' : Regular input') {bytes bytes' : List (List Bool)}
    (h : decompress mode W maxOrder input n = some (bytes, rest))
    (h' : decompress mode W maxOrder input' n = some (bytes', rest')) (hle : ¬ input' < input) : ¬ bytes' < bytes := by
  obtain ⟨l, e8, t, p0, fs, p, d, ht, h0, i3, -, i5, -, i7⟩ := decompress_decode hW0 hW hM hn h
  obtain ⟨l', e8', t', p0', fs', p', d', ht', h0', i3', -, i5', -, i7'⟩ := decompress_decode hW0 hW hM hn h'
  rw [ht] at ht'
  obtain rfl := Option.some.inj ht'
  rw [h0] at h0'
  obtain rfl := Option.some.inj h0'
  intro hlt
  rcases bytes_below bytes' bytes e8' e8 hlt i3' i3 with ⟨i1, -⟩ | i
  · rw [i1.eq_of_length (by omega)] at hlt
    exact List.lt_irrefl _ hlt
  · exact hle (C95_order i (bitEvents_valid i5') (bitEvents_valid i5) hb' hb hr' hr i7' i7)

/-- **C95 (files, damage).** If the compressed form of a file is damaged only behind the size of the compressed form of its first
`k` bytes, in whatever way, then these `k` bytes are still decompressed correctly. Every further byte of the file makes the
compressed form at most 24 bytes longer. -/
theorem C95_damaged (bytes : List (List Bool)) (h8 : ∀ b ∈ bytes, b.length = 8) (hn : bytes.length ≤ 2 ^ 35) (k : Nat)
    {first out : List Nat} (hf : compress mode W maxOrder (bytes.take k) = some first)
    (ho : compress mode W maxOrder bytes = some out) (rest : List Nat) :
    first.length ≤ out.length ∧ out.length ≤ first.length + 24 * (bytes.length - k) ∧
    decompress mode W maxOrder (out.take first.length ++ rest) (bytes.take k).length = some (bytes.take k, rest) := by
  obtain ⟨t, ht⟩ := C52_tables
  obtain ⟨p0, h0⟩ := C44_new ht mode hW0 hW hM
  obtain ⟨fs, p, h1, -, h3⟩ := C44_file ht mode hW0 hW hM h0 bytes h8 hn
  have h8k : ∀ b ∈ bytes.take k, b.length = 8 := fun b hb => h8 b (List.mem_of_mem_take hb)
  have h8d : ∀ b ∈ bytes.drop k, b.length = 8 := fun b hb => h8 b (List.mem_of_mem_drop hb)
  have h1' := h1
  rw [take_flatMap byteCalls k, calls_append] at h1
  obtain ⟨⟨gs, p1⟩, g1, h1⟩ := Option.bind_eq_some_iff.mp h1
  obtain ⟨⟨hs, p2⟩, g2, h1⟩ := Option.map_eq_some_iff.mp h1
  obtain ⟨rfl, rfl⟩ := Prod.mk.inj h1
  obtain ⟨r1, -, r3⟩ := bytes_run (bytes.take k) h8k g1
  obtain ⟨r1', -, -⟩ := bytes_run (bytes.drop k) h8d g2
  rw [compress_encode h8k ht h0 g1] at hf
  rw [compress_encode h8 ht h0 h1'] at ho
  dsimp only at ho h3
  have hsplit : bitEvents (gs ++ hs) bytes.flatten =
      bitEvents gs (bytes.take k).flatten ++ bitEvents hs (bytes.drop k).flatten := by
    rw [← bitEvents_append r1, ← List.flatten_append, List.take_append_drop]
  rw [hsplit] at ho
  obtain ⟨e1, e2, d, e3, e4⟩ := C95_damage (by rw [← hsplit]; exact bitEvents_valid h3) hf ho rest
  refine ⟨e1, ?_, ?_⟩
  · have hl : (bitEvents hs (bytes.drop k).flatten).length = 8 * (bytes.length - k) := by
      unfold bitEvents
      rw [List.length_zipWith, r1', Nat.min_self, length_flatten8 h8d, List.length_drop]
    omega
  · rw [bitEvents_value r1] at e3
    unfold decode at e3
    obtain ⟨d0, j1, j2⟩ := Option.bind_eq_some_iff.mp e3
    unfold decompress
    rw [ht, ob_some, h0, ob_some, j1, ob_some, r3 _ _ j2, ob_some, ← e4]

end

/-- the hypotheses: a file of three letters, and its first two letters -/
example : ∃ first out, compress .light 10000000 20 ([letterA, letterB, letterA].take 2) = some first ∧
    compress .light 10000000 20 [letterA, letterB, letterA] = some out ∧
    decompress .light 10000000 20 (out.take first.length ++ [1, 2, 3]) 2 = some ([letterA, letterB], [1, 2, 3]) := by
  have h8 : ∀ b ∈ [letterA, letterB, letterA], b.length = 8 := by decide
  obtain ⟨first, f1, -⟩ := C88_billion (W := 10000000) (maxOrder := 20) (by norm_num) (by norm_num) (by norm_num)
    ([letterA, letterB, letterA].take 2) (fun b hb => h8 b (List.mem_of_mem_take hb)) (by decide) []
  obtain ⟨out, o1, -⟩ := C88_billion (W := 10000000) (maxOrder := 20) (by norm_num) (by norm_num) (by norm_num)
    [letterA, letterB, letterA] h8 (by decide) []
  exact ⟨first, out, f1, o1, (C95_damaged (by norm_num) (by norm_num) (by norm_num) _ h8 (by decide) 2 f1 o1 [1, 2, 3]).2.2⟩

/-- the hypotheses: any data of 52 bytes that is regular is decompressed to two bytes -/
example : ∃ bytes rest, decompress .light 10000000 20 (List.replicate 52 171) 2 = some (bytes, rest) ∧
    Regular (List.replicate 52 171) := by
  obtain ⟨bytes, rest, h, -⟩ := C73_any_stream .light (W := 10000000) (maxOrder := 20) (by norm_num) (by norm_num) (by norm_num)
    (List.replicate 52 171) (fun b hb => by rw [List.eq_of_mem_replicate hb]; decide) 2 (by norm_num) (by simp)
  exact ⟨bytes, rest, h, by constructor <;> decide⟩

end Verif.Pred
