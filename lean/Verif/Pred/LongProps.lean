import Verif.Pred.LimitProps
import Verif.Coding.LongProps

/-!
# C88: large files

The round trip of C53 and the sizes of C54 for files of up to 2^35 bytes, whenever the encoder finishes, and for the mode of the
program for all files of up to a billion bytes.
-/

namespace Verif.Pred

open Verif Verif.Coding Verif.Mix

/-! ## Lemmas -/

theorem packBits_eq {t : Tables} {mode : Mode} : ∀ (bits : List Bool) {p p' : Predictor} {fs : List Nat} (e : Encoder),
    calls t mode p ((bits.map fun b => [Call.predict, Call.update b]).flatten) = some (fs, p') →
    packBits t mode p e bits = (e.events (bitEvents fs bits)).map fun e => (p', e) := by
  intro bits
  induction bits with
  | nil =>
    intro p p' fs e h
    obtain ⟨rfl, rfl⟩ := Prod.mk.inj (Option.some.inj h)
    rfl
  | cons b bits ih =>
    intro p p' fs e h
    rw [List.map_cons, List.flatten_cons, List.cons_append, List.cons_append, List.nil_append, calls, call] at h
    cases h1 : predPredict t mode p with
    | none => rw [h1] at h; cases h
    | some r =>
      obtain ⟨f, p1⟩ := r
      rw [h1, ob_some] at h
      dsimp only at h
      rw [ob_some, calls, call] at h
      dsimp only at h
      cases h2 : predUpdate t mode p1 b with
      | none => rw [h2] at h; cases h
      | some p2 =>
        rw [h2, ob_some, ob_some] at h
        dsimp only at h
        cases h3 : calls t mode p2 ((bits.map fun b => [Call.predict, Call.update b]).flatten) with
        | none => rw [h3] at h; cases h
        | some r =>
          obtain ⟨gs, p3⟩ := r
          rw [h3, ob_some, ob_some] at h
          obtain ⟨rfl, rfl⟩ := Prod.mk.inj (Option.some.inj h)
          have hfs : (some f).toList ++ ((none : Option Nat).toList ++ gs) = f :: gs := rfl
          rw [hfs]
          change _ = (e.event (.bit f b) >>= fun e => e.events (bitEvents gs bits)).map _
          rw [packBits, h1, ob_some, Encoder.event]
          dsimp only
          cases hb : e.encodeBit f b with
          | none => rfl
          | some e1 =>
            rw [ob_some, ob_some, h2, ob_some]
            exact ih e1 h3

theorem pack_eq {t : Tables} {mode : Mode} : ∀ (bytes : List (List Bool)) {p p' : Predictor} {fs : List Nat} (e : Encoder),
    (∀ b ∈ bytes, b.length = 8) → calls t mode p (bytes.flatMap byteCalls) = some (fs, p') →
    pack t mode p e bytes = e.events (bitEvents fs bytes.flatten) := by
  intro bytes
  induction bytes with
  | nil =>
    intro p p' fs e _ h
    obtain ⟨rfl, rfl⟩ := Prod.mk.inj (Option.some.inj h)
    rfl
  | cons b bytes ih =>
    intro p p' fs e h8 h
    rw [List.flatMap_cons, byteCalls, List.cons_append, calls, call] at h
    cases h1 : predStart p with
    | none => rw [h1] at h; cases h
    | some p1 =>
      rw [h1, ob_some, ob_some] at h
      dsimp only at h
      rw [calls_append] at h
      cases h2 : calls t mode p1 ((b.map fun b => [Call.predict, Call.update b]).flatten) with
      | none => rw [h2] at h; cases h
      | some r =>
        obtain ⟨gs, p2⟩ := r
        rw [h2, Option.bind_some] at h
        dsimp only at h
        cases h3 : calls t mode p2 (bytes.flatMap byteCalls) with
        | none => rw [h3] at h; cases h
        | some r =>
          obtain ⟨hs, p3⟩ := r
          rw [h3, Option.map_some, ob_some] at h
          obtain ⟨rfl, rfl⟩ := Prod.mk.inj (Option.some.inj h)
          obtain ⟨i1, -⟩ := bits_run b h2
          have hfs : (none : Option Nat).toList ++ (gs ++ hs) = gs ++ hs := rfl
          dsimp only
          rw [hfs, List.flatten_cons, bitEvents_append i1, events_append, pack, h1, ob_some, packBits_eq b e h2]
          cases e.events (bitEvents gs b) with
          | none => rfl
          | some e1 =>
            rw [Option.map_some, ob_some, ob_some]
            exact ih e1 (fun c hc => h8 c (by simp [hc])) h3

theorem compress_encode {mode : Mode} {W maxOrder : Nat} {bytes : List (List Bool)} (h8 : ∀ b ∈ bytes, b.length = 8)
    {t : Tables} (ht : tablesNew = some t) {p0 p : Predictor} (h0 : predNew t mode W maxOrder = some p0)
    {fs : List Nat} (h : calls t mode p0 (bytes.flatMap byteCalls) = some (fs, p)) :
    compress mode W maxOrder bytes = encode (bitEvents fs bytes.flatten) := by
  rw [compress, ht, ob_some, h0, ob_some, pack_eq bytes _ h8 h, encode]

/-! ## Theorems -/

section
variable {mode : Mode} {W maxOrder : Nat} (hW0 : 0 < W) (hW : W ≤ 2 ^ 31) (hM : maxOrder ≤ 8191)
include hW0 hW hM

/-- **C88 (large files).** Whenever a file of up to 2^35 bytes has been compressed, in any mode, the compressed form consists of
bytes and is decompressed to the file; data that follows in the stream is left unread. -/
theorem C88_files (bytes : List (List Bool)) (h8 : ∀ b ∈ bytes, b.length = 8) (hn : bytes.length ≤ 2 ^ 35) {out : List Nat}
    (hc : compress mode W maxOrder bytes = some out) (trail : List Nat) :
    (∀ b ∈ out, b < 256) ∧ decompress mode W maxOrder (out ++ trail) bytes.length = some (bytes, trail) := by
  obtain ⟨t, ht⟩ := C52_tables
  obtain ⟨p0, h0⟩ := C44_new ht mode hW0 hW hM
  obtain ⟨fs, p, h1, h2, h3⟩ := C44_file ht mode hW0 hW hM h0 bytes h8 hn
  obtain ⟨r1, -, r3⟩ := bytes_run bytes h8 h1
  rw [compress_encode h8 ht h0 h1] at hc
  obtain ⟨e2, d, e3, e4⟩ := C88_round_trip (bitEvents fs bytes.flatten) (bitEvents_valid h3) hc trail
  rw [bitEvents_value r1] at e3
  refine ⟨e2, ?_⟩
  unfold decode at e3
  unfold decompress
  cases hd : Decoder.new (out ++ trail) with
  | none => rw [hd] at e3; cases e3
  | some d0 =>
    rw [hd, ob_some] at e3
    rw [ht, ob_some, h0, ob_some, ob_some, r3 _ _ e3, ob_some, ← e4]

/-- **C88 (large files, prefix).** The compressed forms of two different files of the same size of up to 2^35 bytes: none is equal
to the other or the beginning of the other. -/
theorem C88_prefix (x y : List (List Bool)) (hx : ∀ b ∈ x, b.length = 8) (hy : ∀ b ∈ y, b.length = 8)
    (hn : x.length ≤ 2 ^ 35) (hl : y.length = x.length) (hne : x ≠ y) {out out' : List Nat}
    (h1 : compress mode W maxOrder x = some out) (h2 : compress mode W maxOrder y = some out') : ¬ out <+: out' := by
  rintro ⟨z, rfl⟩
  have e1 := (C88_files hW0 hW hM x hx hn h1 z).2
  have e2 := (C88_files hW0 hW hM y hy (by omega) h2 []).2
  rw [List.append_nil, hl, e1] at e2
  exact hne (Prod.mk.inj (Option.some.inj e2)).1

/-- **C88 (large files, size).** Whenever a file of up to 2^35 bytes has been compressed, its size is what the program estimates, up
to the rounding of C54. -/
theorem C88_estimate (bytes : List (List Bool)) (h8 : ∀ b ∈ bytes, b.length = 8) (hn : bytes.length ≤ 2 ^ 35)
    {t : Tables} (ht : tablesNew = some t) {p0 p : Predictor} (h0 : predNew t mode W maxOrder = some p0)
    {fs : List Nat} (h : calls t mode p0 (bytes.flatMap byteCalls) = some (fs, p)) {out : List Nat}
    (hc : compress mode W maxOrder bytes = some out) :
    8 * ((out.length : ℝ) - 4) ≤ estimate fs bytes.flatten + loss fs bytes.flatten ∧
      estimate fs bytes.flatten - gain fs bytes.flatten - 31 ≤ 8 * ((out.length : ℝ) - 4) := by
  obtain ⟨fs', p', h1, h2, h3⟩ := C44_file ht mode hW0 hW hM h0 bytes h8 hn
  rw [h] at h1
  obtain ⟨rfl, rfl⟩ := Prod.mk.inj (Option.some.inj h1)
  rw [compress_encode h8 ht h0 h] at hc
  obtain ⟨-, e2, e3⟩ := C88_size (bitEvents fs bytes.flatten) (bitEvents_valid h3) hc
  obtain ⟨c1, c2⟩ := content_share (bits := bytes.flatten) h3
  rw [c1] at e3
  rw [c2] at e2
  exact ⟨e3, e2⟩

end

/-- even odds for all contexts -/
theorem even_list : IsList (fun _ => some (1 / 2 : ℝ)) ∧ listCount (fun _ => some (1 / 2 : ℝ)) 65536 = 65536 ∧
    ∀ order (x : List (List Bool)), fileAllowance order (fun _ => some (1 / 2 : ℝ)) x = 73 / 40 * (8 * x.length) := by
  refine ⟨?_, ?_, ?_⟩
  · intro c q hq
    obtain rfl := Option.some.inj hq
    norm_num
  · unfold listCount
    exact (List.countP_eq_length.mpr (by simp)).trans List.length_range
  · intro order x
    unfold fileAllowance
    rw [Finset.sum_congr rfl (g := fun _ => (73 / 40 : ℝ)), Finset.sum_const, Finset.card_range, nsmul_eq_mul]
    · push_cast
      ring
    · intro i _
      have hc : ∀ b, chanceOf (1 / 2 : ℝ) b = 1 / 2 := by
        intro b
        unfold chanceOf
        cases b <;> norm_num
      unfold allowance
      dsimp only
      rw [hc, if_pos (by norm_num), show (1 / 2 : ℝ) = 2⁻¹ by norm_num, Real.logb_inv, Real.logb_self_eq_one (by norm_num)]
      norm_num

/-- **C88 (a billion bytes).** In the mode of the program every file of up to a billion bytes is compressed without failure, is
restored exactly, and grows at most to about twice its size and 66.4 million bytes. -/
theorem C88_billion {W maxOrder : Nat} (hW0 : 0 < W) (hW : W ≤ 2 ^ 31) (hM : maxOrder ≤ 8191)
    (bytes : List (List Bool)) (h8 : ∀ b ∈ bytes, b.length = 8) (hn : bytes.length ≤ 1000000000) (trail : List Nat) :
    ∃ out, compress .light W maxOrder bytes = some out ∧ (∀ b ∈ out, b < 256) ∧
      decompress .light W maxOrder (out ++ trail) bytes.length = some (bytes, trail) ∧
      (out.length : ℝ) ≤ 66400000 + 201 / 100 * bytes.length := by
  obtain ⟨t, ht⟩ := C52_tables
  obtain ⟨p0, h0⟩ := C44_new ht .light hW0 hW hM
  obtain ⟨fs, p, h1, h2, h3⟩ := C44_file ht .light hW0 hW hM h0 bytes h8 (by omega)
  have hsum : estimate fs bytes.flatten + loss fs bytes.flatten ≤ 8 * (66399996 + 201 / 100 * bytes.length) := by
    obtain ⟨l1, l2, l3⟩ := even_list
    obtain ⟨cost, k1, k2, k3⟩ := list_price ht hW0 hW hM h0 bytes h8 (by omega) h1 _ _ _ l1 l1 l1
    rw [l2, l3, l3, l3] at k1
    have hl : (0 : ℝ) ≤ bytes.length := Nat.cast_nonneg _
    push_cast at k1
    norm_num at k1 k2 k3 ⊢
    linarith
  have hem : 8 * (emitted (bitEvents fs bytes.flatten) : ℝ) ≤ 8 * (66399996 + 201 / 100 * bytes.length) := by
    have := (bits_emitted (bitEvents fs bytes.flatten) (bitEvents_valid h3)).2
    rw [(content_share (bits := bytes.flatten) h3).1] at this
    exact this.trans hsum
  have hlen : emitted (bitEvents fs bytes.flatten) + 5 < 2 ^ 31 := by
    have hr : (bytes.length : ℝ) ≤ 1000000000 := by exact_mod_cast hn
    have : (emitted (bitEvents fs bytes.flatten) : ℝ) ≤ 2076399996 := by linarith
    have : emitted (bitEvents fs bytes.flatten) ≤ 2076399996 := by exact_mod_cast this
    omega
  obtain ⟨out, e1, e2, -⟩ := C03_length (bitEvents fs bytes.flatten) (bitEvents_valid h3) hlen
  have hc : compress .light W maxOrder bytes = some out := by rw [compress_encode h8 ht h0 h1, e1]
  obtain ⟨k1, k2⟩ := C88_files hW0 hW hM bytes h8 (by omega) hc trail
  refine ⟨out, hc, k1, k2, ?_⟩
  rw [e2]
  push_cast
  linarith

/-- **C88 (size of large files).** The bound of C78 on the compressed size for files of up to a billion bytes: 2024 bits for each
entry of three lists of probabilities, and ten percent more than the average of the allowances by the lists. -/
theorem C88_lists {W maxOrder : Nat} (hW0 : 0 < W) (hW : W ≤ 2 ^ 31) (hM : maxOrder ≤ 8191)
    (bytes : List (List Bool)) (h8 : ∀ b ∈ bytes, b.length = 8) (hn : bytes.length ≤ 1000000000)
    (list1 list2 list3 : Nat → Option ℝ) (l1 : IsList list1) (l2 : IsList list2) (l3 : IsList list3) :
    ∃ out, compress .light W maxOrder bytes = some out ∧ 8 * ((out.length : ℝ) - 4) ≤
      2024 * (listCount list1 65536 + 2 * listCount list2 65536 + listCount list3 65536) +
      11 / 10 * ((fileAllowance 1 list1 bytes + 2 * fileAllowance 2 list2 bytes + fileAllowance 3 list3 bytes) / 4) +
      8 * bytes.length / 2 ^ 19 := by
  obtain ⟨out, hc, -⟩ := C88_billion hW0 hW hM bytes h8 hn []
  refine ⟨out, hc, ?_⟩
  obtain ⟨t, ht⟩ := C52_tables
  obtain ⟨p0, h0⟩ := C44_new ht .light hW0 hW hM
  obtain ⟨fs, p, h, -⟩ := C44_file ht .light hW0 hW hM h0 bytes h8 (by omega)
  obtain ⟨e2, -⟩ := C88_estimate hW0 hW hM bytes h8 (by omega) ht h0 h hc
  obtain ⟨cost, h1, h2, h3⟩ := list_price ht hW0 hW hM h0 bytes h8 (by omega) h list1 list2 list3 l1 l2 l3
  have hl : (0 : ℝ) ≤ bytes.length := Nat.cast_nonneg _
  linarith

/-- half a billion letters `a` -/
example : ∃ out, compress .light 10000000 20 (List.replicate 500000000 letterA) = some out ∧
    decompress .light 10000000 20 (out ++ [1, 2]) 500000000 = some (List.replicate 500000000 letterA, [1, 2]) := by
  have h := C88_billion (W := 10000000) (maxOrder := 20) (by norm_num) (by norm_num) (by norm_num) (List.replicate 500000000 letterA)
    (fun b hb => by rw [(List.mem_replicate.mp hb).2]; rfl) (by rw [List.length_replicate]; norm_num) [1, 2]
  rw [List.length_replicate] at h
  obtain ⟨out, h1, -, h2, -⟩ := h
  exact ⟨out, h1, h2⟩

end Verif.Pred
