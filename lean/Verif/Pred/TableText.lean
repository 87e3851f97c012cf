import Verif.Pred.ReportText
import Verif.Pred.TableProps

/-! # The text of the statistics (C86) -/

namespace Verif.Pred

open Verif Verif.Coding Verif.Float Verif.Fixed Verif.Tree Verif.Text

/-! ## Model -/

/-- `PredictionStatisticsType` (`src/predictor/stats.rs:22-27`) -/
inductive StatType
  | totalCost
  | contextLength
  | byContext
  | bySymbol

/-- the line of a class (`src/predictor/stats.rs:127-132`) -/
def contextLineText (near : ℚ → ℕ) (x : ℕ × ℕ × Num × Num × Num) : List Char :=
  "order ".toList ++ dec x.1 ++ ", unary ".toList ++ dec x.2.1 ++ ", count ".toList ++ numText near 10 2 x.2.2.1 ++
  ", cost ".toList ++ numText near 10 2 x.2.2.2.1 ++ ", avg occur ".toList ++ numText near 8 3 x.2.2.2.2 ++ "\n".toList

/-- `print_symbol` (`src/predictor/stats.rs:142-144`) -/
def cellText (near : ℚ → ℕ) (x : ℕ × Char × ℕ × Num) : List Char :=
  padLeft 2 (hex x.1) ++ " ".toList ++ [x.2.1] ++ " ".toList ++ padLeft 10 (dec x.2.2.1) ++ " ".toList ++ numText near 13 2 x.2.2.2

/-- a row of the table by symbols (`src/predictor/stats.rs:148-155`) -/
def rowText (near : ℚ → ℕ) (row : List (ℕ × Char × ℕ × Num)) : List Char :=
  "  ".toList ++ (row.zipIdx.flatMap fun x => (if 0 < x.2 then " | ".toList else []) ++ cellText near x.1) ++ "\n".toList

/-- one round of the loop of `print_state` (`src/predictor/stats.rs:102-115`) -/
def stateText (near : ℚ → ℕ) (s : Stats) : StatType → Option (List Char)
  | .totalCost => do
    let c ← statsLutCost s
    some ("\n".toList ++ line "Total cost (computed using LUTs): " (numText near 0 2 c) " bytes")
  | .contextLength => do
    let c ← statsContextLength s
    some ("\n".toList ++ line "Average context length = " (numText near 15 3 c) " bytes")
  | .byContext => do
    let rows ← contextLines s
    some ("\n".toList ++ line "Occurrences and costs by context type:" [] "" ++ rows.flatMap (contextLineText near))
  | .bySymbol => do
    let rows ← symbolRows s
    some ("\n".toList ++ line "Occurrences and costs by symbol value:" [] "" ++ rows.flatMap (rowText near))

/-- `print_state` (`src/predictor/stats.rs:100-117`) -/
def printState (near : ℚ → ℕ) (s : Stats) (types : List StatType) : Option (List Char) := do
  let texts ← types.mapM (stateText near s)
  some texts.flatten

/-! ## Specification -/

/-- a line for a class with `n` bits, which cost `c / 2048` bits, and `occ` occurrences of the longest context -/
def ClassShows (l : List Char) (o u n : ℕ) (c : ℤ) (occ : ℕ) : Prop :=
  ∃ count cost : ℚ, |count - (n : ℚ) / 8| ≤ 1 / 200 ∧ |cost - (c : ℚ) / 16384| ≤ (c : ℚ) / 16384 / 2 ^ 53 + 1 / 200 ∧
    ((n = 0 ∧ numbers l = [(o : ℚ), (u : ℚ), count, cost] ∧ ∃ pre, l = pre ++ "NaN".toList) ∨
      ∃ mean : ℚ, n ≠ 0 ∧ numbers l = [(o : ℚ), (u : ℚ), count, cost, mean] ∧ |mean - (occ : ℚ) / n| ≤ 1 / 1999)

/-- 29 characters for a value between 0 and 127 that occurred `n` times at a cost of `c / 2048` bits: two hexadecimal digits,
the character if it can be printed, the count in ten columns and the cost in bytes in thirteen -/
def CellShows (l : List Char) (code n : ℕ) (c : ℤ) : Prop :=
  ∃ count cost : List Char, ∃ v : ℚ,
    l = [if code < 16 then ' ' else Nat.digitChar (code / 16), Nat.digitChar (code % 16), ' ',
      if 32 ≤ code ∧ code < 127 then Char.ofNat code else ' ', ' '] ++ count ++ [' '] ++ cost ∧
    count.length = 10 ∧ numbers count = [(n : ℚ)] ∧ cost.length = 13 ∧ numbers cost = [v] ∧
    |v - (c : ℚ) / 16384| ≤ (c : ℚ) / 16384 / 2 ^ 53 + 1 / 200

/-! ## Lemmas -/

theorem lines_nl (b : List Char) : lines ("\n".toList ++ b) = [] :: lines b := by
  rw [show "\n".toList = ([] : List Char) ++ '\n' :: [] by decide +kernel, List.append_assoc]
  exact lines_cons (by simp) b

/-- lines one after the other -/
theorem lines_flatMap {α : Type} (f g : α → List Char) (l : List α) (h : ∀ a ∈ l, f a = g a ++ "\n".toList ∧ ∀ c ∈ g a, c ≠ '\n')
    (b : List Char) : lines (l.flatMap f ++ b) = l.map g ++ lines b := by
  induction l with
  | nil => rfl
  | cons a l ih =>
    obtain ⟨h1, h2⟩ := h a (by simp)
    rw [List.flatMap_cons, h1, List.append_assoc, List.append_assoc,
      show "\n".toList ++ (l.flatMap f ++ b) = '\n' :: (l.flatMap f ++ b) by
        rw [show "\n".toList = ['\n'] by decide +kernel]; rfl,
      lines_cons h2, ih fun x hx => h x (by simp [hx])]
    rfl

/-- the line of a class without the line feed -/
def classLine (near : ℚ → ℕ) (x : ℕ × ℕ × Num × Num × Num) : List Char :=
  "order ".toList ++ dec x.1 ++ ", unary ".toList ++ dec x.2.1 ++ ", count ".toList ++ numText near 10 2 x.2.2.1 ++
  ", cost ".toList ++ numText near 10 2 x.2.2.2.1 ++ ", avg occur ".toList ++ numText near 8 3 x.2.2.2.2

theorem classLine_ok (near : ℚ → ℕ) (x : ℕ × ℕ × Num × Num × Num) :
    contextLineText near x = classLine near x ++ "\n".toList ∧ ∀ c ∈ classLine near x, c ≠ '\n' := by
  refine ⟨rfl, ?_⟩
  intro c hc
  unfold classLine at hc
  simp only [List.mem_append] at hc
  have hs : ∀ s ∈ ["order ", ", unary ", ", count ", ", cost ", ", avg occur "], ∀ c ∈ s.toList, c ≠ '\n' := by decide +kernel
  rcases hc with ((((((((hc | hc) | hc) | hc) | hc) | hc) | hc) | hc) | hc) | hc
  · exact hs "order " (by simp) c hc
  · exact not_newline dec_gap c hc
  · exact hs ", unary " (by simp) c hc
  · exact not_newline dec_gap c hc
  · exact hs ", count " (by simp) c hc
  · exact numText_ne c hc
  · exact hs ", cost " (by simp) c hc
  · exact numText_ne c hc
  · exact hs ", avg occur " (by simp) c hc
  · exact numText_ne c hc

theorem numbers_class (near : ℚ → ℕ) (x : ℕ × ℕ × Num × Num × Num) : numbers (classLine near x) =
    (x.1 : ℚ) :: (x.2.1 : ℚ) :: (shown near 2 x.2.2.1 ++ shown near 2 x.2.2.2.1 ++ shown near 3 x.2.2.2.2) := by
  have step : ∀ (l : String) (x y : List Char), l.toList.getLast?.any isGap = true → numbers l.toList = [] →
      y.head?.any isGap = true → numbers (l.toList ++ (x ++ y)) = numbers x ++ numbers y := fun l x y h1 h2 h3 => by
    rw [numbers_left h1, h2, List.nil_append, numbers_right x h3]
  unfold classLine
  simp only [List.append_assoc]
  rw [step "order " _ _ (by decide +kernel) (by decide +kernel) rfl,
    step ", unary " _ _ (by decide +kernel) (by decide +kernel) rfl,
    step ", count " _ _ (by decide +kernel) (by decide +kernel) rfl,
    step ", cost " _ _ (by decide +kernel) (by decide +kernel) rfl,
    numbers_left (a := ", avg occur ".toList) (by decide +kernel),
    show numbers ", avg occur ".toList = [] by decide +kernel]
  rw [numbers_dec, numbers_dec, numbers_numText near _ (by decide), numbers_numText near _ (by decide),
    numbers_numText near _ (by decide)]
  rfl

theorem shown_rat {near : ℚ → ℕ} (hnear : Text.Nearest near) (p : ℕ) {q t b : ℚ} (hq : 0 ≤ q) (h : |q - t| ≤ b) :
    |(near (q * 10 ^ p) : ℚ) / 10 ^ p - t| ≤ b + 1 / (2 * 10 ^ p) := by
  have h1 := fixed_near hnear p hq
  have := abs_sub_le ((near (q * 10 ^ p) : ℚ) / 10 ^ p) q t
  linarith

theorem hex_cell : ∀ code < 128, padLeft 2 (hex code) =
    [if code < 16 then ' ' else Nat.digitChar (code / 16), Nat.digitChar (code % 16)] := by decide +kernel

theorem cell_shows {near : ℚ → ℕ} (hnear : Text.Nearest near) {s : Stats} {code : ℕ} (hcode : code < 128)
    {x : ℕ × Char × ℕ × Num} (hx : CellOk s code x) {n : ℕ} {c : ℤ} (hn : s.symbolCounts[code]? = some n)
    (hc : s.symbolCosts[code]? = some c) (hn' : n < 10 ^ 10) (hc' : c < 16384 * 9 * 10 ^ 9) :
    CellShows (cellText near x) code n c ∧ (cellText near x).length = 29 := by
  obtain ⟨k, ch, n', y⟩ := x
  obtain ⟨rfl, e2, e3, c', v, e4, e5, e6⟩ := hx
  dsimp only at e2 e3 e4 e5 e6 hcode hn hc ⊢
  rw [hn] at e3
  rw [hc] at e4
  obtain rfl := Option.some.inj e3
  obtain rfl := Option.some.inj e4
  have hc0 : (0 : ℚ) ≤ c := by
    have := (abs_nonneg _).trans e6
    by_contra h
    have : (c : ℚ) / 16384 / 2 ^ 53 < 0 := by
      rw [div_div]
      exact div_neg_of_neg_of_pos (by linarith) (by norm_num)
    linarith
  have hcq : (c : ℚ) ≤ 16384 * 9 * 10 ^ 9 := by exact_mod_cast hc'.le
  obtain ⟨z1, z2⟩ := abs_le.mp e6
  have hv0 : 0 ≤ v := by linarith
  have hv := shown_rat hnear 2 hv0 e6
  have hlen : (padLeft 10 (dec n)).length = 10 := pad_length (by decide) hn'
  have hu : near (v * 10 ^ 2) < 10 ^ (10 + 2) := by
    have h1 := (abs_le.mp (hnear (v * 10 ^ 2) (by positivity))).2
    have h2 : ((near (v * 10 ^ 2) : ℕ) : ℚ) < ((10 ^ (10 + 2) : ℕ) : ℚ) := by
      push_cast
      generalize ((near (v * 10 ^ 2) : ℕ) : ℚ) = w at h1 ⊢
      norm_num at h1 ⊢
      linarith
    exact_mod_cast h2
  have hlen2 : (numText near 13 2 y).length = 13 := by
    rw [e5, numText, show 13 = 10 + 1 + 2 from rfl, pad_fixed near 10 (p := 2) (by decide), List.length_append, List.length_cons, decimals_length (by decide)
      (Nat.mod_lt _ (by positivity)), pad_length (by decide) (by
        rw [Nat.div_lt_iff_lt_mul (by positivity), ← pow_add]
        exact hu)]
  have hsp : " ".toList = [' '] := by decide +kernel
  have htext : cellText near (k, ch, n, y) = [if k < 16 then ' ' else Nat.digitChar (k / 16), Nat.digitChar (k % 16), ' ',
      if 32 ≤ k ∧ k < 127 then Char.ofNat k else ' ', ' '] ++ padLeft 10 (dec n) ++ [' '] ++ numText near 13 2 y := by
    unfold cellText
    dsimp only
    rw [hex_cell k hcode, hsp, e2]
    rfl
  refine ⟨⟨padLeft 10 (dec n), numText near 13 2 y, (near (v * 10 ^ 2) : ℚ) / 10 ^ 2, htext, hlen, ?_, hlen2, ?_, ?_⟩, ?_⟩
  · rw [numbers_pad, numbers_dec]
  · rw [numbers_numText near _ (by decide), e5]
    rfl
  · norm_num at hv ⊢
    exact hv
  · rw [htext, List.length_append, List.length_append, List.length_append, hlen, hlen2]
    rfl

theorem cell_ne (near : ℚ → ℕ) {s : Stats} {code : ℕ} (hcode : code < 128) {x : ℕ × Char × ℕ × Num} (hx : CellOk s code x) :
    ∀ c ∈ cellText near x, c ≠ '\n' := by
  obtain ⟨k, ch, n, y⟩ := x
  obtain ⟨rfl, e2, -, -⟩ := hx
  dsimp only at e2 hcode
  have hsp : " ".toList = [' '] := by decide +kernel
  have h1 : ∀ k < 128, ∀ c ∈ padLeft 2 (hex k), c ≠ '\n' := by decide +kernel
  have h2 : ∀ k < 128, (if 32 ≤ k ∧ k < 127 then Char.ofNat k else ' ') ≠ '\n' := by decide +kernel
  intro c hc
  unfold cellText at hc
  dsimp only at hc
  rw [hsp] at hc
  simp only [List.mem_append, List.mem_singleton] at hc
  rcases hc with (((((hc | rfl) | rfl) | rfl) | hc) | rfl) | hc
  · exact h1 k hcode c hc
  · decide
  · rw [e2]
    exact h2 k hcode
  · decide
  · exact pad_ne (not_newline dec_gap) c hc
  · decide
  · exact numText_ne c hc

/-- a row without the line feed -/
def rowLine (near : ℚ → ℕ) (row : List (ℕ × Char × ℕ × Num)) : List Char :=
  "  ".toList ++ (row.zipIdx.flatMap fun x => (if 0 < x.2 then " | ".toList else []) ++ cellText near x.1)

theorem rowLine_four (near : ℚ → ℕ) (a b c d : ℕ × Char × ℕ × Num) : rowLine near [a, b, c, d] =
    "  ".toList ++ (cellText near a ++ (" | ".toList ++ (cellText near b ++ (" | ".toList ++ (cellText near c ++
      (" | ".toList ++ cellText near d)))))) := by
  unfold rowLine
  simp [List.zipIdx_cons]

theorem slice {l a b c : List Char} {k m : ℕ} (e : l = a ++ (b ++ c)) (ha : a.length = k) (hb : b.length = m) :
    (l.drop k).take m = b := by
  rw [e, ← ha, List.drop_left, ← hb, List.take_left]

theorem printState_cons (near : ℚ → ℕ) (s : Stats) (x : StatType) (l : List StatType) :
    printState near s (x :: l) = (stateText near s x).bind fun a => (printState near s l).map (a ++ ·) := by
  unfold printState
  rw [List.mapM_cons]
  cases stateText near s x with
  | none => rfl
  | some a =>
    rw [ob_some]
    cases l.mapM (stateText near s) with
    | none => rfl
    | some b => rfl

theorem printState_one (near : ℚ → ℕ) (s : Stats) (x : StatType) : printState near s [x] = stateText near s x := by
  rw [printState_cons]
  cases stateText near s x with
  | none => rfl
  | some a =>
    change some (a ++ []) = _
    rw [List.append_nil]

section

variable {t : Tables} (ht : tablesNew = some t) (mode : Mode) {W maxOrder : Nat} (hW0 : 0 < W) (hW : W ≤ 2 ^ 31)
  (hM : maxOrder ≤ 8191) {p0 : Predictor} (h0 : predNew t mode W maxOrder = some p0) (cs : List Call)
  (hn : cs.length ≤ 2 ^ 40) {fs : List Nat} {p : Predictor} (h : calls t mode p0 cs = some (fs, p)) {near : ℚ → ℕ}

include ht hW0 hW hM h0 hn h

/-- **C86 (symbols).** After any run the table by symbol values is printed as an empty line, a title and 32 lines. If the counts
of the symbols of a line are below `10^10` and their costs below `9 * 10^9` bytes, the line has four cells of 29 characters,
separated by bars; the cell in line `i` and column `j` shows the symbol `i + 32 j`. -/
theorem C86_symbols (hnear : Text.Nearest near) : ∃ text ls, printState near p.stats [.bySymbol] = some text ∧
    lines text = [] :: "Occurrences and costs by symbol value:".toList :: ls ++ [[]] ∧ ls.length = 32 ∧
    ∀ i < 32, (∀ j < 4, (∀ n, p.stats.symbolCounts[i + 32 * j]? = some n → n < 10 ^ 10) ∧
        ∀ c, p.stats.symbolCosts[i + 32 * j]? = some c → c < 16384 * 9 * 10 ^ 9) →
      ∃ l, ls[i]? = some l ∧ l.length = 127 ∧ l.take 2 = "  ".toList ∧
        (∀ j < 3, (l.drop (31 + 32 * j)).take 3 = " | ".toList) ∧
        ∀ j < 4, ∃ n c, p.stats.symbolCounts[i + 32 * j]? = some n ∧ p.stats.symbolCosts[i + 32 * j]? = some c ∧
          CellShows ((l.drop (2 + 32 * j)).take 29) (i + 32 * j) n c := by
  obtain ⟨rows, r1, r2, r3, r4, -⟩ := C75_symbols ht mode hW0 hW hM h0 cs hn h
  have hfour : ∀ i < 32, ∃ a b c d, rows[i]? = some [a, b, c, d] ∧ CellOk p.stats (i + 32 * 0) a ∧ CellOk p.stats (i + 32 * 1) b ∧
      CellOk p.stats (i + 32 * 2) c ∧ CellOk p.stats (i + 32 * 3) d := by
    intro i hi
    obtain ⟨row, a, e, ea, ka⟩ := r4 i hi 0 (by decide)
    obtain ⟨row1, b, e1, eb, kb⟩ := r4 i hi 1 (by decide)
    obtain ⟨row2, c, e2, ec, kc⟩ := r4 i hi 2 (by decide)
    obtain ⟨row3, d, e3, ed, kd⟩ := r4 i hi 3 (by decide)
    rw [e] at e1 e2 e3
    obtain rfl := Option.some.inj e1
    obtain rfl := Option.some.inj e2
    obtain rfl := Option.some.inj e3
    have hl := r3 row (List.mem_of_getElem? e)
    match row, hl with
    | [a', b', c', d'], _ =>
      obtain rfl : a' = a := Option.some.inj ea
      obtain rfl : b' = b := Option.some.inj eb
      obtain rfl : c' = c := Option.some.inj ec
      obtain rfl : d' = d := Option.some.inj ed
      exact ⟨a', b', c', d', e, ka, kb, kc, kd⟩
  have hsp : ∀ c ∈ "  ".toList, c ≠ '\n' := by decide +kernel
  have hbar : ∀ c ∈ " | ".toList, c ≠ '\n' := by decide +kernel
  have hrow : ∀ row ∈ rows, rowText near row = rowLine near row ++ "\n".toList ∧ ∀ c ∈ rowLine near row, c ≠ '\n' := by
    intro row hr
    refine ⟨rfl, ?_⟩
    obtain ⟨i, hi⟩ := List.getElem?_of_mem hr
    have hi' := (List.getElem?_eq_some_iff.mp hi).1
    rw [r2] at hi'
    obtain ⟨a, b, c, d, e, ka, kb, kc, kd⟩ := hfour i hi'
    rw [hi] at e
    obtain rfl := Option.some.inj e
    rw [rowLine_four]
    intro x hx
    simp only [List.mem_append] at hx
    rcases hx with hx | hx | hx | hx | hx | hx | hx | hx
    · exact hsp x hx
    · exact cell_ne near (by omega) ka x hx
    · exact hbar x hx
    · exact cell_ne near (by omega) kb x hx
    · exact hbar x hx
    · exact cell_ne near (by omega) kc x hx
    · exact hbar x hx
    · exact cell_ne near (by omega) kd x hx
  refine ⟨"\n".toList ++ line "Occurrences and costs by symbol value:" [] "" ++ rows.flatMap (rowText near),
    rows.map (rowLine near), ?_, ?_, ?_, ?_⟩
  · rw [printState_one, stateText, r1]
    rfl
  · rw [List.append_assoc, lines_nl,
      lines_line (by decide +kernel) (by decide) (by decide +kernel), ← List.append_nil (rows.flatMap _),
      lines_flatMap _ _ _ hrow]
    rfl
  · rw [List.length_map, r2]
  · intro i hi hsmall
    obtain ⟨a, b, c, d, e, ka, kb, kc, kd⟩ := hfour i hi
    have sh : ∀ j < 4, ∀ {x}, CellOk p.stats (i + 32 * j) x → (∃ n c, p.stats.symbolCounts[i + 32 * j]? = some n ∧
        p.stats.symbolCosts[i + 32 * j]? = some c ∧ CellShows (cellText near x) (i + 32 * j) n c) ∧ (cellText near x).length = 29 := by
      intro j hj x hx
      obtain ⟨c, v, hc, -⟩ := hx.cost
      obtain ⟨s1, s2⟩ := cell_shows hnear (by omega) hx hx.count hc ((hsmall j hj).1 _ hx.count) ((hsmall j hj).2 _ hc)
      exact ⟨⟨_, c, hx.count, hc, s1⟩, s2⟩
    obtain ⟨a1, a2⟩ := sh 0 (by decide) ka
    obtain ⟨b1, b2⟩ := sh 1 (by decide) kb
    obtain ⟨c1, c2⟩ := sh 2 (by decide) kc
    obtain ⟨d1, d2⟩ := sh 3 (by decide) kd
    have l2 : "  ".toList.length = 2 := by decide +kernel
    have l3 : " | ".toList.length = 3 := by decide +kernel
    refine ⟨_, by rw [List.getElem?_map, e]; rfl, ?_, ?_, ?_, ?_⟩
    · rw [rowLine_four]
      simp only [List.length_append, a2, b2, c2, d2, l2, l3]
    · rw [rowLine_four, ← l2, List.take_left]
    · intro j hj
      rw [rowLine_four]
      generalize "  ".toList = s2 at *
      generalize " | ".toList = s3 at *
      interval_cases j
      · exact slice (a := s2 ++ cellText near a) (by simp only [List.append_assoc]; rfl) (by simp only [List.length_append, l2, a2]) l3
      · exact slice (a := s2 ++ cellText near a ++ s3 ++ cellText near b) (by simp only [List.append_assoc]; rfl)
          (by simp only [List.length_append, l2, l3, a2, b2]) l3
      · exact slice (a := s2 ++ cellText near a ++ s3 ++ cellText near b ++ s3 ++ cellText near c)
          (by simp only [List.append_assoc]; rfl) (by simp only [List.length_append, l2, l3, a2, b2, c2]) l3
    · intro j hj
      rw [rowLine_four]
      generalize "  ".toList = s2 at *
      generalize " | ".toList = s3 at *
      interval_cases j
      · rw [slice (a := s2) (b := cellText near a) rfl l2 a2]
        exact a1
      · rw [slice (a := s2 ++ cellText near a ++ s3) (b := cellText near b) (by simp only [List.append_assoc]; rfl)
          (by simp only [List.length_append, l2, l3, a2]) b2]
        exact b1
      · rw [slice (a := s2 ++ cellText near a ++ s3 ++ cellText near b ++ s3) (b := cellText near c)
          (by simp only [List.append_assoc]; rfl) (by simp only [List.length_append, l2, l3, a2, b2]) c2]
        exact c1
      · rw [slice (a := s2 ++ cellText near a ++ s3 ++ cellText near b ++ s3 ++ cellText near c ++ s3) (b := cellText near d) (c := [])
          (by simp only [List.append_assoc, List.append_nil]) (by simp only [List.length_append, l2, l3, a2, b2, c2]) d2]
        exact d1

/-- **C86 (context types).** After any run the table by context types is printed if the maximal order is at least 4, as an empty
line, a title and 25 lines; line `5 o + u` shows the class with order `o` and `u` unary contexts. With a smaller maximal order
printing it panics, whatever is printed with it. -/
theorem C86_contexts (hnear : Text.Nearest near) : (maxOrder < 4 → ∀ types, .byContext ∈ types → printState near p.stats types = none) ∧
    (4 ≤ maxOrder → ∃ text ls, printState near p.stats [.byContext] = some text ∧
      lines text = [] :: "Occurrences and costs by context type:".toList :: ls ++ [[]] ∧ ls.length = 25 ∧
      ∀ o ≤ 4, ∀ u ≤ 4, ∃ l n c occ, ls[o * 5 + u]? = some l ∧ p.stats.orderCounts[o * 5 + u]? = some n ∧
        p.stats.orderCosts[o * 5 + u]? = some c ∧ p.stats.occurrences[o * 5 + u]? = some occ ∧ ClassShows l o u n c occ) := by
  obtain ⟨r0, r1⟩ := C75_contexts ht mode hW0 hW hM h0 cs hn h
  refine ⟨?_, ?_⟩
  · intro hm types
    induction types with
    | nil => intro hx; cases hx
    | cons x l ih =>
      intro hx
      rw [printState_cons]
      rcases List.mem_cons.mp hx with rfl | hx
      · rw [stateText, r0 hm]
        rfl
      · rw [ih hx]
        cases stateText near p.stats x <;> rfl
  · intro hm
    obtain ⟨rows, e1, e2, e3⟩ := r1 hm
    refine ⟨"\n".toList ++ line "Occurrences and costs by context type:" [] "" ++ rows.flatMap (contextLineText near),
      rows.map (classLine near), ?_, ?_, ?_, ?_⟩
    · rw [printState_one, stateText, e1]
      rfl
    · rw [List.append_assoc, lines_nl,
        lines_line (by decide +kernel) (by decide) (by decide +kernel), ← List.append_nil (rows.flatMap _),
        lines_flatMap _ _ _ fun x _ => classLine_ok near x]
      rfl
    · rw [List.length_map, e2]
    · intro o ho u hu
      obtain ⟨n, c, occ, v, a, g1, g2, g3, g4, g5, g6, g7⟩ := e3 o ho u hu
      refine ⟨_, n, c, occ, by rw [List.getElem?_map, g1]; rfl, g2, g3, g4, ?_⟩
      have hc0 : (0 : ℚ) ≤ c := by
        have := (abs_nonneg _).trans g5
        by_contra h
        have : (c : ℚ) / 16384 / 2 ^ 53 < 0 := by
          rw [div_div]
          exact div_neg_of_neg_of_pos (by linarith) (by norm_num)
        linarith
      have hv0 : 0 ≤ v := by
        have := (abs_le.mp g5).1
        linarith
      have hcount := shown_rat hnear 2 (q := (n : ℚ) / 8) (t := (n : ℚ) / 8) (b := 0) (by positivity) (by simp)
      have hcost := shown_rat hnear 2 hv0 g5
      refine ⟨(near ((n : ℚ) / 8 * 10 ^ 2) : ℚ) / 10 ^ 2, (near (v * 10 ^ 2) : ℚ) / 10 ^ 2, ?_, ?_, ?_⟩
      · rw [zero_add] at hcount
        exact hcount.trans (by norm_num)
      · exact hcost.trans (by norm_num)
      · by_cases hn0 : n = 0
        · left
          refine ⟨hn0, ?_, ?_⟩
          · rw [numbers_class, g6 hn0]
            rfl
          · rw [g6 hn0]
            exact ⟨_, by
              unfold classLine
              rw [show numText near 8 3 (o, u, Num.fin ((n : ℚ) / 8), Num.fin v, Num.nan).2.2.2.2 = "     ".toList ++ "NaN".toList from
                (by decide +kernel : padLeft 8 ['N', 'a', 'N'] = "     ".toList ++ "NaN".toList), ← List.append_assoc]⟩
        · right
          obtain ⟨w, rfl, hw, hw1⟩ := g7 hn0
          have hpos : (0 : ℚ) ≤ (occ : ℚ) / n := by positivity
          have hsm := nearest_small hw hw1.le hpos
          have hw0 : 0 ≤ w := by
            by_contra hneg
            have h1 := hw.2 0 (by simpa using isF64_int (m := 0) (k := 0) (by norm_num) (by norm_num) (by norm_num))
            rw [abs_of_nonpos (by linarith), abs_of_nonpos (by linarith)] at h1
            linarith
          have := shown_rat hnear 3 hw0 hsm
          refine ⟨(near (w * 10 ^ 3) : ℚ) / 10 ^ 3, hn0, ?_, this.trans (by norm_num)⟩
          rw [numbers_class]
          rfl

end

/-- **C86 (several).** What is printed for a list of statistics is what is printed for each of them, one after the other. -/
theorem C86_several (near : ℚ → ℕ) (s : Stats) (a b : List StatType) : printState near s (a ++ b) =
    (printState near s a).bind fun x => (printState near s b).map (x ++ ·) := by
  induction a with
  | nil =>
    change printState near s b = (printState near s b).map ([] ++ ·)
    cases printState near s b <;> rfl
  | cons x a ih =>
    rw [List.cons_append, printState_cons, printState_cons, ih]
    cases stateText near s x with
    | none => rfl
    | some u =>
      cases printState near s a with
      | none => rfl
      | some v =>
        cases printState near s b with
        | none => rfl
        | some w =>
          change some (u ++ (v ++ w)) = some (u ++ v ++ w)
          rw [List.append_assoc]

/-- **C86 (report).** The report of the program ends with the average context length and the total cost, as printed for the
statistics of the run. -/
theorem C86_report (near : ℚ → ℕ) {e : Platform} {bytes : List (List Bool)} {r : Report}
    (h : estimateCompression e (bytes.map some) = some r) : ∃ t p0 fs p text front, tablesNew = some t ∧
      predNew t .light 10000000 20 = some p0 ∧ calls t .light p0 (bytes.flatMap byteCalls) = some (fs, p) ∧
      printState near p.stats [.contextLength, .totalCost] = some text ∧ reportText near r = front ++ text := by
  unfold estimateCompression at h
  obtain ⟨t, e1, h⟩ := Option.bind_eq_some_iff.mp h
  obtain ⟨p0, e2, h⟩ := Option.bind_eq_some_iff.mp h
  obtain ⟨i, e3, h⟩ := Option.bind_eq_some_iff.mp h
  rw [mapM_map_some, ob_some] at h
  obtain ⟨⟨fs, p⟩, e4, h⟩ := Option.bind_eq_some_iff.mp h
  dsimp only at h
  obtain ⟨T, -, h⟩ := Option.bind_eq_some_iff.mp h
  obtain ⟨n, -, h⟩ := Option.bind_eq_some_iff.mp h
  obtain ⟨D, -, h⟩ := Option.bind_eq_some_iff.mp h
  obtain ⟨n', -, h⟩ := Option.bind_eq_some_iff.mp h
  obtain ⟨n8, -, h⟩ := Option.bind_eq_some_iff.mp h
  obtain ⟨n8', -, h⟩ := Option.bind_eq_some_iff.mp h
  obtain ⟨cl, e5, h⟩ := Option.bind_eq_some_iff.mp h
  obtain ⟨lc, e6, h⟩ := Option.bind_eq_some_iff.mp h
  obtain rfl := Option.some.inj h
  have hl : line "" [] "" = "\n".toList := by decide +kernel
  refine ⟨t, p0, fs, p, ("\n".toList ++ line "Average context length = " (numText near 15 3 cl) " bytes") ++
    ("\n".toList ++ line "Total cost (computed using LUTs): " (numText near 0 2 lc) " bytes"), ?_⟩
  have hfront : ∀ a b c d x : List Char, ∃ front, x ++ a ++ b ++ c ++ d = front ++ (a ++ b ++ (c ++ d)) := fun a b c d x =>
    ⟨x, by simp only [List.append_assoc]⟩
  obtain ⟨front, hf⟩ := hfront (line "" [] "") (line "Average context length = " (numText near 15 3 cl) " bytes") (line "" [] "")
    (line "Total cost (computed using LUTs): " (numText near 0 2 lc) " bytes") _
  refine ⟨front, e1, e2, e4, ?_, ?_⟩
  · rw [printState_cons, printState_one, stateText, stateText, e5, e6]
    rfl
  · rw [← hl]
    exact hf

/-- the table by context type after the creation of a predictor with maximal order 4: its first line -/
example : (printState upwards (statsNew 4) [.byContext]).map (fun t => (lines t)[2]?) =
    some (some ("order 0, unary 0, count ".toList ++ "      0.00, cost       0.00, avg occur      NaN".toList)) := by decide +kernel

/-- a row of the table by symbols -/
example : (printState upwards { statsNew 4 with symbolCounts := (List.replicate 256 0).set 65 12, symbolCosts := (List.replicate 256 0).set 65 61440 }
    [.bySymbol]).map (fun t => ((lines t)[3]?.map fun l => (l.drop 66).take 29)) =
    some (some "41 A         12          3.75".toList) := by decide +kernel

end Verif.Pred
