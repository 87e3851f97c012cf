import Verif.Pred.LearnRun

/-! # C77: compressing does nearly as well as any list of guesses -/

namespace Verif.Pred

open Verif Verif.Mix Verif.Util Verif.Bits

attribute [local irreducible] Verif.Lut.squashTable Verif.Lut.stretchTable

/-- the estimate and the loss of a file together with any guesses -/
theorem file_price {t : Tables} (ht : tablesNew = some t) {W maxOrder : Nat} (hW0 : 0 < W)
    (hW : W ≤ 2 ^ 31) (hM : maxOrder ≤ 8191) {p0 p : Predictor} (h0 : predNew t .light W maxOrder = some p0)
    (bytes : List (List Bool)) (h8 : ∀ b ∈ bytes, b.length = 8) (hn : bytes.length ≤ 2 ^ 35) {fs : List Nat}
    (h : calls t .light p0 (bytes.flatMap byteCalls) = some (fs, p)) (guess1 guess2 guess3 : Nat → Option Bool) :
    ∃ total : ℝ, total ≤ 1840 * (guessCount guess1 65536 + 2 * guessCount guess2 65536 + guessCount guess3 65536) +
        19 / 2 * (unguessed 1 guess1 bytes + 2 * unguessed 2 guess2 bytes + unguessed 3 guess3 bytes) +
        8 * bytes.length / 2 ^ 24 ∧
      estimate fs bytes.flatten ≤ 21 / 20 * total + 8 * bytes.length * (258 / 2 ^ 29) ∧
      loss fs bytes.flatten ≤ 1 / 20 * total + 8 * bytes.length * (258 / 2 ^ 29) := by
  obtain ⟨cost, k1, k2, k3⟩ := payers_price ht hW0 hW hM h0 bytes h8 hn h ⟨guessPayer guess1, guessPayer guess2, guessPayer guess3⟩
  refine ⟨cost, k1.trans ?_, k2, k3⟩
  dsimp only
  rw [guess_charge, guess_charge, guess_charge]
  have q1 := potential_new (fb := 0) (by omega) guess1 65536
  have q2 := potential_new (fb := 0) (by omega) guess2 65536
  have q3 := potential_new (fb := 0) (by omega) guess3 65536
  unfold potential at q1 q2 q3
  rw [show 24 * 2 ^ 0 + 1 = 25 by norm_num, show (115 : ℝ) * 2 ^ 0 = 115 by norm_num] at q1 q2 q3
  change 64 * (total (guessWorth guess1) _ _ _ / 4 + total (guessWorth guess2) _ _ _ / 2 +
    total (guessWorth guess3) _ _ _ / 4) + _ + _ ≤ _
  linarith

/-- **C77 (size).** Compressing with the program's last stage costs little more than coding with a list of guesses. Let
each of three lists name a bit for some of the contexts of order 1, 2 and 3. Then the program's estimate is at most 1932
bits for each guess, counted twice in the second list, plus 10 bits for each bit of the file that a list does not name
correctly, counted twice for the second list, plus a millionth of a bit for each bit of the file. -/
theorem C77_estimate {t : Tables} (ht : tablesNew = some t) {W maxOrder : Nat} (hW0 : 0 < W)
    (hW : W ≤ 2 ^ 31) (hM : maxOrder ≤ 8191) {p0 p : Predictor} (h0 : predNew t .light W maxOrder = some p0)
    (bytes : List (List Bool)) (h8 : ∀ b ∈ bytes, b.length = 8) (hn : bytes.length ≤ 2 ^ 35) {fs : List Nat}
    (h : calls t .light p0 (bytes.flatMap byteCalls) = some (fs, p)) (guess1 guess2 guess3 : Nat → Option Bool) :
    estimate fs bytes.flatten ≤
      1932 * (guessCount guess1 65536 + 2 * guessCount guess2 65536 + guessCount guess3 65536) +
      10 * (unguessed 1 guess1 bytes + 2 * unguessed 2 guess2 bytes + unguessed 3 guess3 bytes) +
      8 * bytes.length / 2 ^ 20 := by
  obtain ⟨total, h1, h2, -⟩ := file_price ht hW0 hW hM h0 bytes h8 hn h guess1 guess2 guess3
  have m1 : (0 : ℝ) ≤ unguessed 1 guess1 bytes := Nat.cast_nonneg _
  have m2 : (0 : ℝ) ≤ unguessed 2 guess2 bytes := Nat.cast_nonneg _
  have m3 : (0 : ℝ) ≤ unguessed 3 guess3 bytes := Nat.cast_nonneg _
  have hl : (0 : ℝ) ≤ bytes.length := Nat.cast_nonneg _
  linarith

/-- **C77 (compressed form).** The same for the real size of the compressed file, with 2024 bits for each guess and 11 bits
for each bit not named. -/
theorem C77_compressed {W maxOrder : Nat} (hW0 : 0 < W) (hW : W ≤ 2 ^ 31) (hM : maxOrder ≤ 8191)
    (bytes : List (List Bool)) (h8 : ∀ b ∈ bytes, b.length = 8) (hn : bytes.length ≤ 87500000)
    (guess1 guess2 guess3 : Nat → Option Bool) :
    ∃ out, compress .light W maxOrder bytes = some out ∧ 8 * ((out.length : ℝ) - 4) ≤
      2024 * (guessCount guess1 65536 + 2 * guessCount guess2 65536 + guessCount guess3 65536) +
      11 * (unguessed 1 guess1 bytes + 2 * unguessed 2 guess2 bytes + unguessed 3 guess3 bytes) +
      8 * bytes.length / 2 ^ 19 := by
  obtain ⟨t, ht⟩ := C52_tables
  obtain ⟨p0, h0⟩ := C44_new ht .light hW0 hW hM
  obtain ⟨fs, p, h, -⟩ := C44_file ht .light hW0 hW hM h0 bytes h8 (by omega)
  obtain ⟨out, e1, e2, -⟩ := C54_estimate .light hW0 hW hM bytes h8 hn ht h0 h
  refine ⟨out, e1, ?_⟩
  obtain ⟨total, h1, h2, h3⟩ := file_price ht hW0 hW hM h0 bytes h8 (by omega) h guess1 guess2 guess3
  have m1 : (0 : ℝ) ≤ unguessed 1 guess1 bytes := Nat.cast_nonneg _
  have m2 : (0 : ℝ) ≤ unguessed 2 guess2 bytes := Nat.cast_nonneg _
  have m3 : (0 : ℝ) ≤ unguessed 3 guess3 bytes := Nat.cast_nonneg _
  have hl : (0 : ℝ) ≤ bytes.length := Nat.cast_nonneg _
  linarith

/-! ## Files that follow a rule -/

/-- the guess that is right wherever it can be -/
def firstGuess (n : Nat) (ctx : Nat → Nat) (bit : Nat → Bool) (c : Nat) : Option Bool :=
  ((List.range n).find? fun i => ctx i = c).map bit

theorem firstGuess_count (n : Nat) (ctx : Nat → Nat) (bit : Nat → Bool) (contexts : Nat) :
    guessCount (firstGuess n ctx bit) contexts ≤ ((List.range n).map ctx).dedup.length := by
  unfold guessCount
  rw [List.countP_eq_length_filter]
  refine List.Subperm.length_le (List.Nodup.subperm (List.Nodup.filter _ List.nodup_range) fun c hc => ?_)
  have h := (List.mem_filter.mp hc).2
  unfold firstGuess at h
  rw [Option.isSome_map, List.find?_isSome] at h
  obtain ⟨i, hi, he⟩ := h
  rw [List.mem_dedup, List.mem_map]
  exact ⟨i, hi, of_decide_eq_true he⟩

theorem firstGuess_right {n : Nat} {ctx : Nat → Nat} {bit : Nat → Bool}
    (h : ∀ i j, i < n → j < n → ctx i = ctx j → bit i = bit j) {i : Nat} (hi : i < n) :
    firstGuess n ctx bit (ctx i) = some (bit i) := by
  unfold firstGuess
  cases hf : (List.range n).find? fun j => ctx j = ctx i with
  | none =>
    have := List.find?_eq_none.mp hf i (List.mem_range.mpr hi)
    simp at this
  | some j =>
    rw [Option.map_some]
    exact congrArg some (h j i (List.mem_range.mp (List.mem_of_find?_eq_some hf)) hi
      (of_decide_eq_true (List.find?_some (p := fun j => decide (ctx j = ctx i)) hf)))

/-- **C77 (rule).** If in a file the same context is never followed by different bits, for the contexts of order 1, 2 and
3, then its compressed size depends on the number of different contexts only, up to one bit for every 2^19 bits of the
file. -/
theorem C77_determined {W maxOrder : Nat} (hW0 : 0 < W) (hW : W ≤ 2 ^ 31) (hM : maxOrder ≤ 8191)
    (bytes : List (List Bool)) (h8 : ∀ b ∈ bytes, b.length = 8) (hn : bytes.length ≤ 87500000)
    (h1 : Determined 1 bytes) (h2 : Determined 2 bytes) (h3 : Determined 3 bytes) :
    ∃ out, compress .light W maxOrder bytes = some out ∧ 8 * ((out.length : ℝ) - 4) ≤
      2024 * (contextsSeen 1 bytes + 2 * contextsSeen 2 bytes + contextsSeen 3 bytes) + 8 * bytes.length / 2 ^ 19 := by
  have hz : ∀ k, Determined k bytes → unguessed k (firstGuess (8 * bytes.length) (contextOf k bytes)
      fun i => bytes.flatten.getD i false) bytes = 0 := by
    intro k hk
    unfold unguessed
    rw [List.countP_eq_zero]
    intro i hi
    rw [firstGuess_right hk (List.mem_range.mp hi)]
    simp
  have hc : ∀ k, (guessCount (firstGuess (8 * bytes.length) (contextOf k bytes)
      fun i => bytes.flatten.getD i false) 65536 : ℝ) ≤ contextsSeen k bytes := fun k =>
    Nat.cast_le.mpr (firstGuess_count _ _ _ _)
  obtain ⟨out, e1, e2⟩ := C77_compressed hW0 hW hM bytes h8 hn
    (firstGuess (8 * bytes.length) (contextOf 1 bytes) fun i => bytes.flatten.getD i false)
    (firstGuess (8 * bytes.length) (contextOf 2 bytes) fun i => bytes.flatten.getD i false)
    (firstGuess (8 * bytes.length) (contextOf 3 bytes) fun i => bytes.flatten.getD i false)
  rw [hz 1 h1, hz 2 h2, hz 3 h3] at e2
  refine ⟨out, e1, e2.trans ?_⟩
  have c1 := hc 1
  have c2 := hc 2
  have c3 := hc 3
  push_cast
  linarith

/-! ## A byte repeated -/

/-- the contexts within a byte after three equal bytes -/
def repeatContext (order : Nat) (b : List Bool) (j : Nat) : Nat := contextHash order [b, b, b] (b.take j)

/-- all bytes -/
def allBytes : Nat → List (List Bool)
  | 0 => [[]]
  | n + 1 => (allBytes n).flatMap fun b => [false :: b, true :: b]

theorem mem_allBytes : ∀ (b : List Bool), b ∈ allBytes b.length := by
  intro b
  induction b with
  | nil => exact List.mem_singleton.mpr rfl
  | cons x b ih =>
    rw [List.length_cons, allBytes, List.mem_flatMap]
    exact ⟨b, ih, by cases x <;> simp⟩

/-- within a byte that is repeated, no context is followed by different bits -/
theorem repeat_determined : ∀ b ∈ allBytes 8, ∀ o ∈ [1, 2, 3], ∀ i ∈ List.range 8, ∀ j ∈ List.range 8,
    repeatContext o b i = repeatContext o b j → b.getD i false = b.getD j false := by
  decide +kernel

theorem prevByte_repeat {b : List Bool} {k o : Nat} (h1 : 1 ≤ o) (h2 : o ≤ k) : prevByte o (List.replicate k b) = val b := by
  unfold prevByte
  rw [List.length_replicate, if_pos h2, List.getD_eq_getElem?_getD, List.getElem?_replicate, if_pos (by omega)]
  rfl

theorem contextHash_repeat {b part : List Bool} {k o : Nat} (h1 : 1 ≤ o) (h2 : o ≤ 3) (h3 : o ≤ k) :
    contextHash o (List.replicate k b) part = contextHash o [b, b, b] part := by
  have e : [b, b, b] = List.replicate 3 b := rfl
  rw [e]
  rcases (by omega : o = 1 ∨ o = 2 ∨ o = 3) with rfl | rfl | rfl
  · rw [hash_one, hash_one, prevByte_repeat (by omega) h3, prevByte_repeat (by omega) (by omega)]
  · rw [hash_two, hash_two, prevByte_repeat (by omega) h3, prevByte_repeat (by omega) (by omega),
      prevByte_repeat (by omega) (by omega), prevByte_repeat (by omega) (by omega)]
  · rw [hash_three, hash_three, prevByte_repeat (by omega) h3, prevByte_repeat (by omega) (by omega),
      prevByte_repeat (by omega) (by omega), prevByte_repeat (by omega) (by omega), prevByte_repeat (by omega) (by omega),
      prevByte_repeat (by omega) (by omega)]

/-- guesses for a byte that is repeated -/
def repeatGuess (o : Nat) (b : List Bool) : Nat → Option Bool := firstGuess 8 (repeatContext o b) fun j => b.getD j false

theorem repeatGuess_count (o : Nat) (b : List Bool) : guessCount (repeatGuess o b) 65536 ≤ 8 := by
  refine (firstGuess_count _ _ _ _).trans ((List.Sublist.length_le (List.dedup_sublist _)).trans ?_)
  rw [List.length_map, List.length_range]

/-- only the first bytes are not named -/
theorem repeat_unguessed {o : Nat} (h1 : 1 ≤ o) (h2 : o ≤ 3) {b : List Bool} (hb : b.length = 8) (n : Nat) :
    unguessed o (repeatGuess o b) (List.replicate n b) ≤ 8 * o := by
  have h8 : ∀ c ∈ List.replicate n b, c.length = 8 := by
    intro c hc
    rw [(List.mem_replicate.mp hc).2, hb]
  have hdet : ∀ i j, i < 8 → j < 8 → repeatContext o b i = repeatContext o b j → b.getD i false = b.getD j false := by
    intro i j hi hj
    refine repeat_determined b ?_ o ?_ i (List.mem_range.mpr hi) j (List.mem_range.mpr hj)
    · have := mem_allBytes b
      rw [hb] at this
      exact this
    · rcases (by omega : o = 1 ∨ o = 2 ∨ o = 3) with rfl | rfl | rfl <;> simp
  unfold unguessed
  rw [List.countP_eq_length_filter]
  have hsub : ((List.range (8 * (List.replicate n b).length)).filter fun i =>
      decide (repeatGuess o b (contextOf o (List.replicate n b) i) ≠ some ((List.replicate n b).flatten.getD i false))) ⊆
      List.range (8 * o) := by
    intro i hi
    obtain ⟨hi1, hi2⟩ := List.mem_filter.mp hi
    have hi1 := List.mem_range.mp hi1
    have hi2 := of_decide_eq_true hi2
    rw [List.mem_range]
    by_contra hc
    rw [List.length_replicate] at hi1
    refine hi2 ?_
    have hget : (List.replicate n b).getD (i / 8) [] = b := by
      rw [List.getD_eq_getElem?_getD, List.getElem?_replicate, if_pos (by omega)]
      rfl
    have hbit : (List.replicate n b).flatten.getD i false = b.getD (i % 8) false := by
      have := flatten_bit (List.replicate n b) h8 (k := i / 8) (j := i % 8) (by omega)
      rw [hget, show 8 * (i / 8) + i % 8 = i by omega] at this
      exact this
    have hctx : contextOf o (List.replicate n b) i = repeatContext o b (i % 8) := by
      unfold contextOf repeatContext
      rw [hget, List.take_replicate, contextHash_repeat h1 h2 (by rw [Nat.min_def]; split <;> omega)]
    rw [hbit, hctx]
    exact firstGuess_right hdet (by omega)
  have := (List.Nodup.subperm (List.Nodup.filter _ List.nodup_range) hsub).length_le
  rw [List.length_range] at this
  exact this

/-- **C77 (repetition).** A file that repeats one byte is compressed to at most 8188 bytes, plus one byte for every 524288
bytes of the file. -/
theorem C77_repeat {W maxOrder : Nat} (hW0 : 0 < W) (hW : W ≤ 2 ^ 31) (hM : maxOrder ≤ 8191)
    {b : List Bool} (hb : b.length = 8) {n : Nat} (hn : n ≤ 87500000) :
    ∃ out, compress .light W maxOrder (List.replicate n b) = some out ∧ out.length ≤ 8188 + n / 524288 := by
  obtain ⟨out, e1, e2⟩ := C77_compressed hW0 hW hM (List.replicate n b)
    (fun c hc => by rw [(List.mem_replicate.mp hc).2, hb]) (by rw [List.length_replicate]; exact hn)
    (repeatGuess 1 b) (repeatGuess 2 b) (repeatGuess 3 b)
  refine ⟨out, e1, ?_⟩
  have c1 : (guessCount (repeatGuess 1 b) 65536 : ℝ) ≤ 8 := by exact_mod_cast repeatGuess_count 1 b
  have c2 : (guessCount (repeatGuess 2 b) 65536 : ℝ) ≤ 8 := by exact_mod_cast repeatGuess_count 2 b
  have c3 : (guessCount (repeatGuess 3 b) 65536 : ℝ) ≤ 8 := by exact_mod_cast repeatGuess_count 3 b
  have u1 : (unguessed 1 (repeatGuess 1 b) (List.replicate n b) : ℝ) ≤ 8 := by
    exact_mod_cast repeat_unguessed (o := 1) (by omega) (by omega) hb n
  have u2 : (unguessed 2 (repeatGuess 2 b) (List.replicate n b) : ℝ) ≤ 16 := by
    exact_mod_cast repeat_unguessed (o := 2) (by omega) (by omega) hb n
  have u3 : (unguessed 3 (repeatGuess 3 b) (List.replicate n b) : ℝ) ≤ 24 := by
    exact_mod_cast repeat_unguessed (o := 3) (by omega) (by omega) hb n
  rw [List.length_replicate] at e2
  have hreal : (out.length : ℝ) ≤ 8188 + n / 524288 := by
    have : (8 : ℝ) * n / 2 ^ 19 = 8 * (n / 524288) := by ring
    linarith
  have hnat : 524288 * out.length ≤ 524288 * 8188 + n := by
    have h : (524288 : ℝ) * out.length ≤ 524288 * 8188 + n := by
      have : (524288 : ℝ) * (n / 524288) = n := by field_simp
      linarith
    exact_mod_cast h
  omega

/-- the letter `a`, repeated 80 million times: at most 8340 bytes are left -/
example : ∃ out, compress .light 10000000 20 (List.replicate 80000000 [false, true, true, false, false, false, false, true]) =
    some out ∧ out.length ≤ 8340 := by
  obtain ⟨out, h1, h2⟩ := C77_repeat (W := 10000000) (maxOrder := 20) (by omega) (by omega) (by omega)
    (b := [false, true, true, false, false, false, false, true]) rfl (n := 80000000) (by omega)
  exact ⟨out, h1, h2.trans (by norm_num)⟩

/-- the text `abab` -/
def abab : List (List Bool) :=
  [[false, true, true, false, false, false, false, true], [false, true, true, false, false, false, true, false],
    [false, true, true, false, false, false, false, true], [false, true, true, false, false, false, true, false]]

/-- a file that follows a rule from its first bit on, with 24 contexts of the first order -/
example : Determined 1 abab ∧ Determined 2 abab ∧ Determined 3 abab ∧ contextsSeen 1 abab = 24 := by
  have h : ∀ k ∈ [1, 2, 3], ∀ i ∈ List.range 32, ∀ j ∈ List.range 32, contextOf k abab i = contextOf k abab j →
      abab.flatten.getD i false = abab.flatten.getD j false := by decide +kernel
  have h' : ∀ k ∈ [1, 2, 3], Determined k abab := fun k hk i j hi hj =>
    h k hk i (List.mem_range.mpr hi) j (List.mem_range.mpr hj)
  exact ⟨h' 1 (by simp), h' 2 (by simp), h' 3 (by simp), by decide +kernel⟩

/-- without guesses, every bit of a file counts as not named -/
example : unguessed 1 (fun _ => none) abab = 32 ∧ guessCount (fun _ => none) 65536 = 0 := by
  constructor
  · decide +kernel
  · unfold guessCount
    rw [List.countP_eq_zero]
    simp

end Verif.Pred
