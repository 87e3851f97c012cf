import Verif.Pred.LongProps
import Verif.Pred.OrderProps
import Verif.Coding.LargeProps

/-!
# C91: large files: order, damage, limits and sizes

The statements of C73, C77, C78, C83 and C87 for files of up to 2^35 bytes. The bounds on the size also show that the encoder
finishes whenever the bound is below 2 GiB.
-/

namespace Verif.Pred

open Verif Verif.Coding Verif.Mix

section
variable {mode : Mode} {W maxOrder : Nat} (hW0 : 0 < W) (hW : W ≤ 2 ^ 31) (hM : maxOrder ≤ 8191)
include hW0 hW hM

/-- **C91 (order of files).** Compression preserves the order of files of up to 2^35 bytes: the smaller of two files never has the
greater compressed form, and it has the smaller one unless it is a prefix of the other file. -/
theorem C91_files (bytes bytes' : List (List Bool)) (h8 : ∀ b ∈ bytes, b.length = 8) (h8' : ∀ b ∈ bytes', b.length = 8)
    (hn : bytes.length ≤ 2 ^ 35) (hn' : bytes'.length ≤ 2 ^ 35) (h : bytes < bytes') {out out' : List Nat}
    (he : compress mode W maxOrder bytes = some out) (he' : compress mode W maxOrder bytes' = some out') :
    ¬ out' < out ∧ (¬ bytes <+: bytes' → out < out') := by
  obtain ⟨t, ht⟩ := C52_tables
  obtain ⟨p0, h0⟩ := C44_new ht mode hW0 hW hM
  obtain ⟨fs, p, h1, -, h3⟩ := C44_file ht mode hW0 hW hM h0 bytes h8 hn
  obtain ⟨fs', p', h1', -, h3'⟩ := C44_file ht mode hW0 hW hM h0 bytes' h8' hn'
  rw [compress_encode h8 ht h0 h1] at he
  rw [compress_encode h8' ht h0 h1'] at he'
  rcases bytes_below bytes bytes' h8 h8' h h1 h1' with ⟨i1, more, i2⟩ | i
  · rw [← i2] at he'
    exact ⟨(C91_order_prefix _ more (by rw [i2]; exact bitEvents_valid h3') he he').1, fun hp => absurd i1 hp⟩
  · have l := C91_order_events i (bitEvents_valid h3) (bitEvents_valid h3') he he'
    exact ⟨List.lt_asymm l, fun _ => l⟩

/-- **C91 (sorting).** Files of the same size of up to 2^35 bytes are in the same order before and after compression. -/
theorem C91_same_size (bytes bytes' : List (List Bool)) (h8 : ∀ b ∈ bytes, b.length = 8) (h8' : ∀ b ∈ bytes', b.length = 8)
    (hn : bytes.length ≤ 2 ^ 35) (hl : bytes'.length = bytes.length) {out out' : List Nat}
    (he : compress mode W maxOrder bytes = some out) (he' : compress mode W maxOrder bytes' = some out') :
    out < out' ↔ bytes < bytes' := by
  have key : ∀ {x y : List (List Bool)} {o o' : List Nat}, (∀ b ∈ x, b.length = 8) → (∀ b ∈ y, b.length = 8) →
      x.length ≤ 2 ^ 35 → y.length = x.length → x < y → compress mode W maxOrder x = some o →
      compress mode W maxOrder y = some o' → o < o' := by
    intro x y o o' a1 a2 a3 a4 a5 a6 a7
    refine (C91_files hW0 hW hM x y a1 a2 a3 (by omega) a5 a6 a7).2 fun hp => ?_
    rw [hp.eq_of_length a4.symm] at a5
    exact List.lt_irrefl _ a5
  constructor
  · intro h
    by_contra hc
    rcases List.le_iff_lt_or_eq.mp (List.not_lt.mp hc) with h1 | rfl
    · exact List.lt_asymm h (key h8' h8 (by omega) hl.symm h1 he' he)
    · rw [he] at he'
      obtain rfl := Option.some.inj he'
      exact List.lt_irrefl _ h
  · exact fun h => key h8 h8' hn hl h he he'

/-- **C91 (truncation).** The compressed form of a file of up to 2^35 bytes that lacks its last byte, or more, makes the
decompressor panic; it is never decompressed to something else. -/
theorem C91_truncated (bytes : List (List Bool)) (h8 : ∀ b ∈ bytes, b.length = 8) (hn : bytes.length ≤ 2 ^ 35)
    {out : List Nat} (h : compress mode W maxOrder bytes = some out) (k : Nat) (hk : k < out.length) :
    decompress mode W maxOrder (out.take k) bytes.length = none := by
  have h2 := (C88_files hW0 hW hM bytes h8 hn h []).2
  rw [List.append_nil] at h2
  cases hd : decompress mode W maxOrder (out.take k) bytes.length with
  | none => rfl
  | some r =>
    obtain ⟨bs, rest⟩ := r
    have := C73_prefix mode hW0 hW hM _ _ _ _ hd (out.drop k)
    rw [List.take_append_drop, h2, Option.some.injEq, Prod.mk.injEq] at this
    have := congrArg List.length this.2
    simp only [List.length_nil, List.length_append, List.length_drop] at this
    omega

/-- **C91 (growth).** In every mode a compressed file has at least four bytes and at most 24 bytes for each byte of the file, and
four more. -/
theorem C91_growth (x : List (List Bool)) (h8 : ∀ b ∈ x, b.length = 8) (hn : x.length ≤ 2 ^ 35) {out : List Nat}
    (h : compress mode W maxOrder x = some out) : 4 ≤ out.length ∧ out.length ≤ 4 + 24 * x.length := by
  obtain ⟨e2, e3⟩ := C88_files hW0 hW hM x h8 hn h (List.replicate (4 + 24 * x.length) 0)
  have e4 := (C88_files hW0 hW hM x h8 hn h []).2
  constructor
  · rw [List.append_nil] at e4
    unfold decompress at e4
    obtain ⟨t, -, e4⟩ := Option.bind_eq_some_iff.mp e4
    obtain ⟨p, -, e4⟩ := Option.bind_eq_some_iff.mp e4
    obtain ⟨d, e5, -⟩ := Option.bind_eq_some_iff.mp e4
    exact decoder_four e5
  · obtain ⟨bytes, rest, f1, -, -, f2⟩ := C73_any_stream mode hW0 hW hM (out ++ List.replicate (4 + 24 * x.length) 0) (by
      intro b hb
      rcases List.mem_append.mp hb with hb | hb
      · exact e2 b hb
      · rw [List.eq_of_mem_replicate hb]
        decide) x.length hn (by rw [List.length_append, List.length_replicate]; omega)
    rw [e3] at f1
    obtain ⟨-, rfl⟩ := Prod.mk.inj (Option.some.inj f1)
    rw [List.length_append] at f2
    omega

/-- **C91 (Kraft).** For any set of files of the same size of up to 2^35 bytes that are compressed, the probabilities `256^-size` of
their compressed forms add up to at most one. -/
theorem C91_kraft {n : Nat} (hn : n ≤ 2 ^ 35) (S : Finset (List (List Bool))) (hS : S ⊆ allFiles n)
    (hc : ∀ x ∈ S, (compress mode W maxOrder x).isSome) :
    ∑ x ∈ S, (1 / 256 : ℝ) ^ packedSize mode W maxOrder x ≤ 1 := by
  classical
  let word : List (List Bool) → List (Fin 256) := fun x =>
    ((compress mode W maxOrder x).getD []).map (Fin.ofNat 256)
  have back : ∀ x ∈ S, ∀ trail : List (Fin 256), decompress mode W maxOrder ((word x ++ trail).map Fin.val) n =
      some (x, trail.map Fin.val) := by
    intro x hx trail
    obtain ⟨hl, h8⟩ := mem_allFiles.mp (hS hx)
    obtain ⟨out, e1⟩ := Option.isSome_iff_exists.mp (hc x hx)
    obtain ⟨e2, e3⟩ := C88_files hW0 hW hM x h8 (by omega) e1 (trail.map Fin.val)
    have hw : (word x).map Fin.val = out := by
      change (((compress mode W maxOrder x).getD []).map (Fin.ofNat 256)).map Fin.val = out
      rw [e1, Option.getD_some, List.map_map]
      conv_rhs => rw [← List.map_id out]
      apply List.map_congr_left
      intro b hb
      exact Nat.mod_eq_of_lt (e2 b hb)
    rw [List.map_append, hw, ← hl]
    exact e3
  have inj : Set.InjOn word S := by
    intro x hx y hy hxy
    have h1 := back x hx []
    have h2 := back y hy []
    change word x = word y at hxy
    rw [hxy, h2] at h1
    exact (Prod.mk.inj (Option.some.inj h1)).1.symm
  have hnil : ∀ x ∈ S, word x ≠ [] := by
    intro x hx h
    have h1 := back x hx []
    rw [h, List.append_nil, List.map_nil] at h1
    unfold decompress at h1
    obtain ⟨t, -, h1⟩ := Option.bind_eq_some_iff.mp h1
    obtain ⟨p, -, h1⟩ := Option.bind_eq_some_iff.mp h1
    obtain ⟨d, h3, -⟩ := Option.bind_eq_some_iff.mp h1
    cases h3
  have ud : InformationTheory.UniquelyDecodable ((S.image word : Finset (List (Fin 256))) : Set (List (Fin 256))) := by
    intro L1
    induction L1 with
    | nil =>
      intro L2 _ h2 e
      cases L2 with
      | nil => rfl
      | cons w L2 =>
        obtain ⟨y, hy, rfl⟩ := Finset.mem_image.mp (Finset.mem_coe.mp (h2 w (by simp)))
        rw [List.flatten_nil, List.flatten_cons] at e
        exact absurd (List.append_eq_nil_iff.mp e.symm).1 (hnil y hy)
    | cons v L1 ih =>
      intro L2 h1 h2 e
      obtain ⟨x, hx, rfl⟩ := Finset.mem_image.mp (Finset.mem_coe.mp (h1 v (by simp)))
      cases L2 with
      | nil =>
        rw [List.flatten_nil, List.flatten_cons] at e
        exact absurd (List.append_eq_nil_iff.mp e).1 (hnil x hx)
      | cons w L2 =>
        obtain ⟨y, hy, rfl⟩ := Finset.mem_image.mp (Finset.mem_coe.mp (h2 w (by simp)))
        rw [List.flatten_cons, List.flatten_cons] at e
        have b1 := back x hx L1.flatten
        have b2 := back y hy L2.flatten
        rw [e, b2] at b1
        obtain ⟨rfl, -⟩ := Prod.mk.inj (Option.some.inj b1)
        rw [ih L2 (fun u hu => h1 u (by simp [hu])) (fun u hu => h2 u (by simp [hu])) (List.append_cancel_left e)]
  have key := InformationTheory.kraft_mcmillan_inequality ud
  rw [Finset.sum_image inj] at key
  refine le_trans (le_of_eq ?_) key
  apply Finset.sum_congr rfl
  intro x _
  rw [Fintype.card_fin]
  change _ = _ ^ (((compress mode W maxOrder x).getD []).map (Fin.ofNat 256)).length
  rw [List.length_map]
  norm_num [packedSize]

/-- **C91 (entropy).** Draw files of the same size of up to 2^35 bytes by chance from a set of files that are compressed. The mean size
of the compressed form in bits is at least the entropy of the distribution. -/
theorem C91_entropy {n : Nat} (hn : n ≤ 2 ^ 35) (S : Finset (List (List Bool))) (hS : S ⊆ allFiles n)
    (hc : ∀ x ∈ S, (compress mode W maxOrder x).isSome) (p : List (List Bool) → ℝ) (hp : ∀ x ∈ S, 0 ≤ p x)
    (h1 : ∑ x ∈ S, p x = 1) :
    ∑ x ∈ S, p x * -Real.logb 2 (p x) ≤ ∑ x ∈ S, p x * (8 * packedSize mode W maxOrder x) := by
  have key := C91_kraft hW0 hW hM hn S hS hc
  have hlog2 : 0 < Real.log 2 := Real.log_pos (by norm_num)
  have step : ∀ x ∈ S, (p x * -Real.logb 2 (p x) - p x * (8 * packedSize mode W maxOrder x)) * Real.log 2 ≤
      (1 / 256 : ℝ) ^ packedSize mode W maxOrder x - p x := by
    intro x hx
    generalize packedSize mode W maxOrder x = s
    rcases (hp x hx).eq_or_lt with h0 | h0
    · rw [← h0]
      simp
    · have hq : (0 : ℝ) < (1 / 256) ^ s := by positivity
      have hl := Real.log_le_sub_one_of_pos (div_pos hq h0)
      rw [Real.log_div hq.ne' h0.ne', Real.log_pow, show (1 / 256 : ℝ) = (2 ^ 8)⁻¹ by norm_num, Real.log_inv, Real.log_pow] at hl
      have hm := mul_le_mul_of_nonneg_left hl h0.le
      rw [mul_sub, mul_sub, mul_div_cancel₀ _ h0.ne', mul_one] at hm
      rw [Real.logb, sub_mul]
      have e : p x * -(Real.log (p x) / Real.log 2) * Real.log 2 = -(p x * Real.log (p x)) := by
        field_simp
      rw [e, show (1 / 256 : ℝ) = (2 ^ 8)⁻¹ by norm_num]
      push_cast at hm
      linarith
  have hs := Finset.sum_le_sum step
  rw [← Finset.sum_mul, Finset.sum_sub_distrib, Finset.sum_sub_distrib, h1] at hs
  have : (∑ x ∈ S, p x * -Real.logb 2 (p x) - ∑ x ∈ S, p x * (8 * packedSize mode W maxOrder x)) * Real.log 2 ≤ 0 := by
    linarith
  have := nonpos_of_mul_nonpos_left this hlog2
  linarith

/-- **C91 (few).** At most `256^m` files of a size of up to 2^35 bytes have a compressed form of at most `m` bytes. -/
theorem C91_few {n : Nat} (hn : n ≤ 2 ^ 35) (m : Nat) :
    ((allFiles n).filter fun x => ∃ out, compress mode W maxOrder x = some out ∧ out.length ≤ m).card ≤ 256 ^ m := by
  classical
  have key := C91_kraft hW0 hW hM hn ((allFiles n).filter fun x => ∃ out, compress mode W maxOrder x = some out ∧ out.length ≤ m)
    (Finset.filter_subset _ _) (fun x hx => by
      obtain ⟨out, h, -⟩ := (Finset.mem_filter.mp hx).2
      rw [h]; rfl)
  have h2 : ((allFiles n).filter fun x => ∃ out, compress mode W maxOrder x = some out ∧ out.length ≤ m).card •
      (1 / 256 : ℝ) ^ m ≤ 1 := by
    refine le_trans (Finset.card_nsmul_le_sum _ _ _ fun x hx => ?_) key
    obtain ⟨out, h, hl⟩ := (Finset.mem_filter.mp hx).2
    refine pow_le_pow_of_le_one (by norm_num) (by norm_num) ?_
    rw [packedSize, h]
    exact hl
  rw [nsmul_eq_mul, one_div, inv_pow, ← div_eq_mul_inv, div_le_one (by positivity)] at h2
  exact_mod_cast h2

/-- a file whose estimate and loss leave room for it in 2 GiB is compressed -/
theorem compress_fits (bytes : List (List Bool)) (h8 : ∀ b ∈ bytes, b.length = 8) (hn : bytes.length ≤ 2 ^ 35)
    {t : Tables} (ht : tablesNew = some t) {p0 p : Predictor} (h0 : predNew t mode W maxOrder = some p0)
    {fs : List Nat} (h : calls t mode p0 (bytes.flatMap byteCalls) = some (fs, p)) {bound : ℝ}
    (hb : estimate fs bytes.flatten + loss fs bytes.flatten ≤ bound) (hs : bound < 8 * (2 ^ 31 - 5)) :
    ∃ out, compress mode W maxOrder bytes = some out ∧ 8 * ((out.length : ℝ) - 4) ≤ bound := by
  obtain ⟨fs', p', h1, -, h3⟩ := C44_file ht mode hW0 hW hM h0 bytes h8 hn
  rw [h] at h1
  obtain ⟨rfl, rfl⟩ := Prod.mk.inj (Option.some.inj h1)
  have hem : 8 * (emitted (bitEvents fs bytes.flatten) : ℝ) ≤ bound := by
    have := (bits_emitted (bitEvents fs bytes.flatten) (bitEvents_valid h3)).2
    rw [(content_share (bits := bytes.flatten) h3).1] at this
    exact this.trans hb
  have hlen : emitted (bitEvents fs bytes.flatten) + 5 < 2 ^ 31 := by
    have : (emitted (bitEvents fs bytes.flatten) : ℝ) < 2 ^ 31 - 5 := by linarith
    have : ((emitted (bitEvents fs bytes.flatten) + 5 : Nat) : ℝ) < ((2 ^ 31 : Nat) : ℝ) := by push_cast; linarith
    exact_mod_cast this
  obtain ⟨out, e1, e2, -⟩ := C03_length (bitEvents fs bytes.flatten) (bitEvents_valid h3) hlen
  refine ⟨out, by rw [compress_encode h8 ht h0 h, e1], ?_⟩
  rw [e2]
  push_cast
  linarith

end

/-! ## Sizes in the mode of the program -/

theorem guessCount_le (guess : Nat → Option Bool) (n : Nat) : guessCount guess n ≤ n := by
  unfold guessCount
  exact List.countP_le_length.trans (by rw [List.length_range])

section
variable {W maxOrder : Nat} (hW0 : 0 < W) (hW : W ≤ 2 ^ 31) (hM : maxOrder ≤ 8191)
include hW0 hW hM

/-- **C91 (guesses).** The bound of C77 for files of up to 2^35 bytes: if 2024 bits for each guess, 11 bits for each bit not named and
one bit for every 2^19 bits of the file leave room in 2 GiB, then the file is compressed to at most that size. -/
theorem C91_guesses (bytes : List (List Bool)) (h8 : ∀ b ∈ bytes, b.length = 8) (hn : bytes.length ≤ 2 ^ 35)
    (guess1 guess2 guess3 : Nat → Option Bool)
    (hs : 2024 * (guessCount guess1 65536 + 2 * guessCount guess2 65536 + guessCount guess3 65536) +
      11 * (unguessed 1 guess1 bytes + 2 * unguessed 2 guess2 bytes + unguessed 3 guess3 bytes) +
      8 * bytes.length / 2 ^ 19 < (8 * (2 ^ 31 - 5) : ℝ)) :
    ∃ out, compress .light W maxOrder bytes = some out ∧ 8 * ((out.length : ℝ) - 4) ≤
      2024 * (guessCount guess1 65536 + 2 * guessCount guess2 65536 + guessCount guess3 65536) +
      11 * (unguessed 1 guess1 bytes + 2 * unguessed 2 guess2 bytes + unguessed 3 guess3 bytes) +
      8 * bytes.length / 2 ^ 19 := by
  obtain ⟨t, ht⟩ := C52_tables
  obtain ⟨p0, h0⟩ := C44_new ht .light hW0 hW hM
  obtain ⟨fs, p, h, -⟩ := C44_file ht .light hW0 hW hM h0 bytes h8 hn
  refine compress_fits hW0 hW hM bytes h8 hn ht h0 h ?_ hs
  obtain ⟨total, h1, h2, h3⟩ := file_price ht hW0 hW hM h0 bytes h8 hn h guess1 guess2 guess3
  have m1 : (0 : ℝ) ≤ unguessed 1 guess1 bytes := Nat.cast_nonneg _
  have m2 : (0 : ℝ) ≤ unguessed 2 guess2 bytes := Nat.cast_nonneg _
  have m3 : (0 : ℝ) ≤ unguessed 3 guess3 bytes := Nat.cast_nonneg _
  have hl : (0 : ℝ) ≤ bytes.length := Nat.cast_nonneg _
  linarith

/-- **C91 (rule).** A file of up to 2^35 bytes in which the same context is never followed by different bits, for the contexts of order
1, 2 and 3, is always compressed, to at most 2024 bits for each different context and one bit for every 2^19 bits of the file. -/
theorem C91_determined (bytes : List (List Bool)) (h8 : ∀ b ∈ bytes, b.length = 8) (hn : bytes.length ≤ 2 ^ 35)
    (h1 : Determined 1 bytes) (h2 : Determined 2 bytes) (h3 : Determined 3 bytes) :
    ∃ out, compress .light W maxOrder bytes = some out ∧ 8 * ((out.length : ℝ) - 4) ≤
      2024 * (contextsSeen 1 bytes + 2 * contextsSeen 2 bytes + contextsSeen 3 bytes) + 8 * bytes.length / 2 ^ 19 := by
  have hz : ∀ k, Determined k bytes → unguessed k (firstGuess (8 * bytes.length) (contextOf k bytes)
      fun i => bytes.flatten.getD i false) bytes = 0 := by
    intro k hk
    unfold unguessed
    rw [List.countP_eq_zero]
    intro i hi
    rw [firstGuess_right hk (List.mem_range.mp hi)]
    simp
  have hc : ∀ k, (guessCount (firstGuess (8 * bytes.length) (contextOf k bytes)
      fun i => bytes.flatten.getD i false) 65536 : ℝ) ≤ contextsSeen k bytes := fun k =>
    Nat.cast_le.mpr (firstGuess_count _ _ _ _)
  have hg : ∀ k, (guessCount (firstGuess (8 * bytes.length) (contextOf k bytes)
      fun i => bytes.flatten.getD i false) 65536 : ℝ) ≤ 65536 := fun k => by
    exact_mod_cast guessCount_le _ 65536
  have hr : (bytes.length : ℝ) ≤ 2 ^ 35 := by exact_mod_cast hn
  have g1 := hg 1
  have g2 := hg 2
  have g3 := hg 3
  obtain ⟨out, e1, e2⟩ := C91_guesses hW0 hW hM bytes h8 hn
    (firstGuess (8 * bytes.length) (contextOf 1 bytes) fun i => bytes.flatten.getD i false)
    (firstGuess (8 * bytes.length) (contextOf 2 bytes) fun i => bytes.flatten.getD i false)
    (firstGuess (8 * bytes.length) (contextOf 3 bytes) fun i => bytes.flatten.getD i false)
    (by
      rw [hz 1 h1, hz 2 h2, hz 3 h3]
      push_cast
      linarith)
  rw [hz 1 h1, hz 2 h2, hz 3 h3] at e2
  refine ⟨out, e1, e2.trans ?_⟩
  have c1 := hc 1
  have c2 := hc 2
  have c3 := hc 3
  push_cast
  linarith

/-- **C91 (repetition).** A file of up to 2^35 bytes that repeats one byte is always compressed, to at most 8188 bytes, plus one byte for
every 524288 bytes of the file. -/
theorem C91_repeat {b : List Bool} (hb : b.length = 8) {n : Nat} (hn : n ≤ 2 ^ 35) :
    ∃ out, compress .light W maxOrder (List.replicate n b) = some out ∧ out.length ≤ 8188 + n / 524288 := by
  have c1 : (guessCount (repeatGuess 1 b) 65536 : ℝ) ≤ 8 := by exact_mod_cast repeatGuess_count 1 b
  have c2 : (guessCount (repeatGuess 2 b) 65536 : ℝ) ≤ 8 := by exact_mod_cast repeatGuess_count 2 b
  have c3 : (guessCount (repeatGuess 3 b) 65536 : ℝ) ≤ 8 := by exact_mod_cast repeatGuess_count 3 b
  have u1 : (unguessed 1 (repeatGuess 1 b) (List.replicate n b) : ℝ) ≤ 8 := by
    exact_mod_cast repeat_unguessed (o := 1) (by omega) (by omega) hb n
  have u2 : (unguessed 2 (repeatGuess 2 b) (List.replicate n b) : ℝ) ≤ 16 := by
    exact_mod_cast repeat_unguessed (o := 2) (by omega) (by omega) hb n
  have u3 : (unguessed 3 (repeatGuess 3 b) (List.replicate n b) : ℝ) ≤ 24 := by
    exact_mod_cast repeat_unguessed (o := 3) (by omega) (by omega) hb n
  have hr : (n : ℝ) ≤ 2 ^ 35 := by exact_mod_cast hn
  obtain ⟨out, e1, e2⟩ := C91_guesses hW0 hW hM (List.replicate n b)
    (fun c hc => by rw [(List.mem_replicate.mp hc).2, hb]) (by rw [List.length_replicate]; exact hn)
    (repeatGuess 1 b) (repeatGuess 2 b) (repeatGuess 3 b) (by
      rw [List.length_replicate]
      linarith)
  refine ⟨out, e1, ?_⟩
  rw [List.length_replicate] at e2
  have hreal : (out.length : ℝ) ≤ 8188 + n / 524288 := by
    have : (8 : ℝ) * n / 2 ^ 19 = 8 * (n / 524288) := by ring
    linarith
  have hnat : 524288 * out.length ≤ 524288 * 8188 + n := by
    have h : (524288 : ℝ) * out.length ≤ 524288 * 8188 + n := by
      have : (524288 : ℝ) * (n / 524288) = n := by field_simp
      linarith
    exact_mod_cast h
  omega

/-- **C91 (lists of probabilities).** The bound of C78 for files of up to 2^35 bytes: if it leaves room in 2 GiB, then the file is
compressed to at most that size. -/
theorem C91_lists (bytes : List (List Bool)) (h8 : ∀ b ∈ bytes, b.length = 8) (hn : bytes.length ≤ 2 ^ 35)
    (list1 list2 list3 : Nat → Option ℝ) (l1 : IsList list1) (l2 : IsList list2) (l3 : IsList list3)
    (hs : 2024 * (listCount list1 65536 + 2 * listCount list2 65536 + listCount list3 65536) +
      11 / 10 * ((fileAllowance 1 list1 bytes + 2 * fileAllowance 2 list2 bytes + fileAllowance 3 list3 bytes) / 4) +
      8 * bytes.length / 2 ^ 19 < (8 * (2 ^ 31 - 5) : ℝ)) :
    ∃ out, compress .light W maxOrder bytes = some out ∧ 8 * ((out.length : ℝ) - 4) ≤
      2024 * (listCount list1 65536 + 2 * listCount list2 65536 + listCount list3 65536) +
      11 / 10 * ((fileAllowance 1 list1 bytes + 2 * fileAllowance 2 list2 bytes + fileAllowance 3 list3 bytes) / 4) +
      8 * bytes.length / 2 ^ 19 := by
  obtain ⟨t, ht⟩ := C52_tables
  obtain ⟨p0, h0⟩ := C44_new ht .light hW0 hW hM
  obtain ⟨fs, p, h, -⟩ := C44_file ht .light hW0 hW hM h0 bytes h8 hn
  refine compress_fits hW0 hW hM bytes h8 hn ht h0 h ?_ hs
  obtain ⟨cost, h1, h2, h3⟩ := list_price ht hW0 hW hM h0 bytes h8 hn h list1 list2 list3 l1 l2 l3
  have hl : (0 : ℝ) ≤ bytes.length := Nat.cast_nonneg _
  linarith

/-- **C91 (ideal code length).** The bound of C78 for files of up to a billion bytes: whatever fixed probabilities the contexts of
order 1, 2 and 3 are given, as long as no bit of the file had less than one chance in 32, the compressed size is at most 2024 bits
for each different context of the file plus three times the average of the ideal code lengths, order 2 counted twice. -/
theorem C91_ideal (bytes : List (List Bool)) (h8 : ∀ b ∈ bytes, b.length = 8) (hn : bytes.length ≤ 1000000000)
    (q1 q2 q3 : Nat → ℝ) (l1 : ∀ c, 0 ≤ q1 c ∧ q1 c ≤ 1) (l2 : ∀ c, 0 ≤ q2 c ∧ q2 c ≤ 1) (l3 : ∀ c, 0 ≤ q3 c ∧ q3 c ≤ 1)
    (e1 : Expected 1 q1 bytes) (e2 : Expected 2 q2 bytes) (e3 : Expected 3 q3 bytes) :
    ∃ out, compress .light W maxOrder bytes = some out ∧ 8 * ((out.length : ℝ) - 4) ≤
      2024 * (contextsSeen 1 bytes + 2 * contextsSeen 2 bytes + contextsSeen 3 bytes) +
      3 * ((fileIdeal 1 q1 bytes + 2 * fileIdeal 2 q2 bytes + fileIdeal 3 q3 bytes) / 4) +
      8 * bytes.length / 2 ^ 19 := by
  obtain ⟨out, o1, o2⟩ := C88_lists hW0 hW hM bytes h8 hn (seenList 1 q1 bytes) (seenList 2 q2 bytes)
    (seenList 3 q3 bytes) (seen_list 1 q1 bytes l1) (seen_list 2 q2 bytes l2) (seen_list 3 q3 bytes l3)
  refine ⟨out, o1, o2.trans ?_⟩
  have c1 : (listCount (seenList 1 q1 bytes) 65536 : ℝ) ≤ contextsSeen 1 bytes := Nat.cast_le.mpr (seenList_count _ _ _ _)
  have c2 : (listCount (seenList 2 q2 bytes) 65536 : ℝ) ≤ contextsSeen 2 bytes := Nat.cast_le.mpr (seenList_count _ _ _ _)
  have c3 : (listCount (seenList 3 q3 bytes) 65536 : ℝ) ≤ contextsSeen 3 bytes := Nat.cast_le.mpr (seenList_count _ _ _ _)
  obtain ⟨a1, b1⟩ := seen_allowance 1 q1 bytes l1 e1
  obtain ⟨a2, b2⟩ := seen_allowance 2 q2 bytes l2 e2
  obtain ⟨a3, b3⟩ := seen_allowance 3 q3 bytes l3 e3
  linarith

/-- **C91 (two letters).** A file of up to 8 billion letters `a` and `b`, in any order, is compressed to little more than a quarter:
at most 72870 bytes plus 251 bytes for every thousand letters. -/
theorem C91_letters (bytes : List (List Bool)) (h : ∀ b ∈ bytes, b = letterA ∨ b = letterB) (hn : bytes.length ≤ 8000000000) :
    ∃ out, compress .light W maxOrder bytes = some out ∧ (out.length : ℝ) ≤ 72870 + 251 / 1000 * bytes.length := by
  obtain ⟨c1, c2, c3⟩ := letterList_count
  have d1 : (listCount (letterList 1) 65536 : ℝ) ≤ 27 := by exact_mod_cast c1
  have d2 : (listCount (letterList 2) 65536 : ℝ) ≤ 63 := by exact_mod_cast c2
  have d3 : (listCount (letterList 3) 65536 : ℝ) ≤ 135 := by exact_mod_cast c3
  have hl : (0 : ℝ) ≤ bytes.length := Nat.cast_nonneg _
  have hr : (bytes.length : ℝ) ≤ 8000000000 := by exact_mod_cast hn
  obtain ⟨out, o1, o2⟩ := C91_lists hW0 hW hM bytes (fun b hb => by rcases h b hb with rfl | rfl <;> rfl) (by omega)
    (letterList 1) (letterList 2) (letterList 3) (letterList_isList 1) (letterList_isList 2) (letterList_isList 3) (by
      rw [letters_file (by omega) (by omega) h, letters_file (by omega) (by omega) h, letters_file (by omega) (by omega) h]
      linarith)
  refine ⟨out, o1, ?_⟩
  rw [letters_file (by omega) (by omega) h, letters_file (by omega) (by omega) h, letters_file (by omega) (by omega) h] at o2
  linarith

/-- **C91 (mean).** The mean size of the compressed forms of all files of `n` bytes is at least `n` bytes, and at most one file in
`256^k` shrinks by `k` bytes or more, up to a billion bytes. -/
theorem C91_mean {n : Nat} (hn : n ≤ 1000000000) :
    n * 256 ^ n ≤ ∑ x ∈ allFiles n, packedSize .light W maxOrder x ∧
    ∀ k ≤ n, ((allFiles n).filter fun x => packedSize .light W maxOrder x + k ≤ n).card * 256 ^ k ≤ (allFiles n).card := by
  classical
  have hc : ∀ x ∈ allFiles n, (compress .light W maxOrder x).isSome := by
    intro x hx
    obtain ⟨hl, h8⟩ := mem_allFiles.mp hx
    obtain ⟨out, h, -⟩ := C88_billion hW0 hW hM x h8 (by omega) []
    rw [h]; rfl
  constructor
  · have hc0 : (0 : ℝ) < 256 ^ n := by positivity
    have h := C91_entropy hW0 hW hM (n := n) (by omega) (allFiles n) (Finset.Subset.refl _) hc (fun _ => (256 ^ n : ℝ)⁻¹)
      (fun _ _ => by positivity) (by
        rw [Finset.sum_const, card_allFiles, nsmul_eq_mul]
        push_cast
        exact mul_inv_cancel₀ hc0.ne')
    have hl : Real.logb 2 (256 ^ n : ℝ)⁻¹ = -(8 * n) := by
      rw [Real.logb_inv, show (256 : ℝ) = 2 ^ 8 by norm_num, ← pow_mul, Real.logb_pow, Real.logb_self_eq_one (by norm_num)]
      push_cast
      ring
    rw [Finset.sum_const, card_allFiles, hl, ← Finset.mul_sum, ← Finset.mul_sum, nsmul_eq_mul, neg_neg] at h
    push_cast at h
    rw [← mul_assoc, mul_inv_cancel₀ hc0.ne', one_mul, ← div_eq_inv_mul, le_div_iff₀ hc0] at h
    have h2 : ((n * 256 ^ n : ℕ) : ℝ) ≤ ((∑ x ∈ allFiles n, packedSize .light W maxOrder x : ℕ) : ℝ) := by
      push_cast
      linarith
    exact_mod_cast h2
  · intro k hk
    have h := C91_few (mode := .light) hW0 hW hM (n := n) (by omega) (n - k)
    rw [card_allFiles, show n = (n - k) + k by omega, pow_add, show (n - k) + k = n by omega]
    refine Nat.mul_le_mul_right _ (le_trans (Finset.card_le_card ?_) h)
    intro x hx
    rw [Finset.mem_filter] at hx ⊢
    refine ⟨hx.1, ?_⟩
    obtain ⟨out, ho⟩ := Option.isSome_iff_exists.mp (hc x hx.1)
    have h2 := hx.2
    rw [packedSize, ho, Option.getD_some] at h2
    exact ⟨out, ho, by omega⟩

end

/-- thirty billion letters `a`: at most 65409 bytes are left, and no proper part of them is decompressed -/
example : ∃ out, compress .light 10000000 20 (List.replicate 30000000000 letterA) = some out ∧ out.length ≤ 65409 ∧
    ∀ k < out.length, decompress .light 10000000 20 (out.take k) 30000000000 = none := by
  obtain ⟨out, h1, h2⟩ := C91_repeat (W := 10000000) (maxOrder := 20) (by omega) (by omega) (by omega)
    (b := letterA) rfl (n := 30000000000) (by omega)
  refine ⟨out, h1, h2.trans (by norm_num), fun k hk => ?_⟩
  have h := C91_truncated (mode := .light) (W := 10000000) (maxOrder := 20) (by omega) (by omega) (by omega) _
    (fun c hc => by rw [(List.mem_replicate.mp hc).2]; rfl) (by rw [List.length_replicate]; norm_num) h1 k hk
  rw [List.length_replicate] at h
  exact h

/-- thirty billion letters `a` and thirty billion letters `b` -/
example : ∃ out out', compress .light 10000000 20 (List.replicate 30000000000 letterA) = some out ∧
    compress .light 10000000 20 (List.replicate 30000000000 letterB) = some out' ∧ out < out' := by
  obtain ⟨out, h1, -⟩ := C91_repeat (W := 10000000) (maxOrder := 20) (by omega) (by omega) (by omega)
    (b := letterA) rfl (n := 30000000000) (by omega)
  obtain ⟨out', h1', -⟩ := C91_repeat (W := 10000000) (maxOrder := 20) (by omega) (by omega) (by omega)
    (b := letterB) rfl (n := 30000000000) (by omega)
  refine ⟨out, out', h1, h1', (C91_same_size (mode := .light) (by omega) (by omega) (by omega) _ _
    (fun c hc => by rw [(List.mem_replicate.mp hc).2]; rfl) (fun c hc => by rw [(List.mem_replicate.mp hc).2]; rfl)
    (by rw [List.length_replicate]; norm_num) (by rw [List.length_replicate, List.length_replicate]) h1 h1').mpr ?_⟩
  rw [show (30000000000 : Nat) = 29999999999 + 1 by norm_num, List.replicate_succ, List.replicate_succ]
  exact List.Lex.rel (by decide)

end Verif.Pred
