import Verif.Float.Print
import Verif.Pred.ReportProps
import Mathlib.Tactic.IntervalCases

/-! # The text of the report (C84) -/

namespace Verif.Pred

open Verif Verif.Coding Verif.Float Verif.Fixed Verif.Tree Verif.Text

/-! ## Model -/

/-- `{:w.p}` of a number; without a width `w` is 0 -/
def numText (near : ℚ → ℕ) (w p : ℕ) : Num → List Char
  | .fin q => padLeft w (fixed near p q)
  | .inf => padLeft w ['i', 'n', 'f']
  | .nan => padLeft w ['N', 'a', 'N']

/-- one line printed by `println!` -/
def line (label : String) (field : List Char) (unit : String) : List Char := label.toList ++ field ++ unit.toList ++ ['\n']

/-- what `estimate_compression` prints (`src/main.rs:83-92`, and `print_state` for the two statistics of
`src/main.rs:94-99`: `src/predictor/stats.rs:102-110`) -/
def reportText (near : ℚ → ℕ) (r : Report) : List Char :=
  line "initialization         = " (numText near 15 3 (.fin r.initialization)) " seconds" ++
  line "total duration         = " (numText near 15 3 (.fin r.totalDuration)) " seconds" ++
  line "speed                  = " (numText near 15 3 r.nsPerByte) " ns per byte" ++
  line "speed                  = " (numText near 15 3 r.bytesPerSecond) " bytes per second" ++
  line "                       :  |  |  |  |   |" [] "" ++
  line "total cost in bytes    = " (numText near 15 3 r.costInBytes) "" ++
  line "total cost in bits     = " (numText near 15 3 (.fin r.costInBits)) "" ++
  line "input length           = " (padLeft 11 (dec r.inputLength)) " bytes" ++
  line "average cost           = " (numText near 17 5 r.averageCost) " bpb" ++
  line "compression ratio      = " (numText near 15 3 r.ratio) " : 1" ++
  line "" [] "" ++
  line "Average context length = " (numText near 15 3 r.contextLength) " bytes" ++
  line "" [] "" ++
  line "Total cost (computed using LUTs): " (numText near 0 2 r.lutCost) " bytes"

/-- the text printed by `main` (`src/main.rs:29-34`) -/
def mainText (near : ℚ → ℕ) (e : Platform) (args : List String) (fs : String → Option (List (Option (List Bool)))) :
    Option (List Char) := (mainRun e args fs).map (reportText near)

/-! ## Specification -/

/-- the multiple of `10^-p` shown for a number, if it is one -/
def shown (near : ℚ → ℕ) (p : ℕ) : Num → List ℚ
  | .fin q => [(near (q * 10 ^ p) : ℚ) / 10 ^ p]
  | _ => []

/-- the whole number `v` stands in a line with its units in column 35 -/
def WholeAt (l : List Char) (v : ℕ) : Prop :=
  ∀ k ≤ 10, l[35 - k]? = some (if k = 0 ∨ 10 ^ k ≤ v then Nat.digitChar (v / 10 ^ k % 10) else ' ')

/-- the number `u / 10^p` stands in a line with its point in column 36 -/
def PointAt (l : List Char) (p u : ℕ) : Prop :=
  WholeAt l (u / 10 ^ p) ∧ l[36]? = some '.' ∧ ∀ j < p, l[37 + j]? = some (Nat.digitChar (u / 10 ^ (p - 1 - j) % 10))

/-! ## Lemmas -/

theorem numbers_numText (near : ℚ → ℕ) (w : ℕ) {p : ℕ} (hp : 0 < p) (x : Num) :
    numbers (numText near w p x) = shown near p x := by
  cases x with
  | fin q => rw [numText, numbers_pad, numbers_fixed near hp, shown]
  | inf => exact (numbers_pad w _).trans (by decide +kernel : numbers ['i', 'n', 'f'] = [])
  | nan => exact (numbers_pad w _).trans (by decide +kernel : numbers ['N', 'a', 'N'] = [])

theorem numbers_line {label unit : String} {field : List Char} (h1 : label.toList.getLast?.any isGap = true)
    (h2 : (unit.toList ++ ['\n']).head?.any isGap = true) (rest : List Char) : numbers (line label field unit ++ rest) =
      numbers label.toList ++ numbers field ++ numbers (unit.toList ++ ['\n']) ++ numbers rest := by
  rw [numbers_left (by rw [line, List.getLast?_concat]; rfl), line, List.append_assoc, numbers_right _ h2,
    numbers_left h1]

/-- the numbers in the printed text -/
theorem numbers_report (near : ℚ → ℕ) (r : Report) : numbers (reportText near r) =
    shown near 3 (.fin r.initialization) ++ shown near 3 (.fin r.totalDuration) ++ shown near 3 r.nsPerByte ++
    shown near 3 r.bytesPerSecond ++ shown near 3 r.costInBytes ++ shown near 3 (.fin r.costInBits) ++
    [(r.inputLength : ℚ)] ++ shown near 5 r.averageCost ++ shown near 3 r.ratio ++ [1] ++ shown near 3 r.contextLength ++
    shown near 2 r.lutCost := by
  have h0 : ∀ l : String, l.toList.getLast?.any isGap = true → ∀ (near w p) (hp : 0 < p) (x : Num) (u : String),
      (u.toList ++ ['\n']).head?.any isGap = true → numbers l.toList = [] → numbers (u.toList ++ ['\n']) = [] → ∀ rest,
      numbers (line l (numText near w p x) u ++ rest) = shown near p x ++ numbers rest := by
    intro l hl near w p hp x u hu h1 h2 rest
    rw [numbers_line hl hu, h1, h2, numbers_numText near w hp, List.append_nil, List.nil_append]
  have hblank : ∀ rest, numbers (line "" [] "" ++ rest) = numbers rest := by
    intro rest
    exact (numbers_left (a := line "" [] "") (by decide) rest).trans (by
      rw [show numbers (line "" [] "") = [] by decide +kernel, List.nil_append])
  have hruler : ∀ rest, numbers (line "                       :  |  |  |  |   |" [] "" ++ rest) = numbers rest := by
    intro rest
    refine (numbers_left (a := line "                       :  |  |  |  |   |" [] "") (by decide +kernel) rest).trans ?_
    rw [show numbers (line "                       :  |  |  |  |   |" [] "") = [] by decide +kernel, List.nil_append]
  have hlen : ∀ rest, numbers (line "input length           = " (padLeft 11 (dec r.inputLength)) " bytes" ++ rest) =
      [(r.inputLength : ℚ)] ++ numbers rest := by
    intro rest
    rw [numbers_line (by decide +kernel) (by decide +kernel), numbers_pad, numbers_dec,
      show numbers ("input length           = ").toList = [] by decide +kernel,
      show numbers ((" bytes").toList ++ ['\n']) = [] by decide +kernel, List.append_nil, List.nil_append]
  have hratio : ∀ rest, numbers (line "compression ratio      = " (numText near 15 3 r.ratio) " : 1" ++ rest) =
      shown near 3 r.ratio ++ [1] ++ numbers rest := by
    intro rest
    rw [numbers_line (by decide +kernel) (by decide +kernel), numbers_numText near 15 (by decide),
      show numbers ("compression ratio      = ").toList = [] by decide +kernel,
      show numbers ((" : 1").toList ++ ['\n']) = [1] by decide +kernel, List.nil_append]
  rw [reportText, ← List.append_nil (_ ++ line "Total cost (computed using LUTs): " _ _)]
  simp only [List.append_assoc]
  rw [h0 "initialization         = " (by decide +kernel) near 15 3 (by decide) _ " seconds" (by decide +kernel) (by decide +kernel)
      (by decide +kernel),
    h0 "total duration         = " (by decide +kernel) near 15 3 (by decide) _ " seconds" (by decide +kernel) (by decide +kernel)
      (by decide +kernel),
    h0 "speed                  = " (by decide +kernel) near 15 3 (by decide) _ " ns per byte" (by decide +kernel)
      (by decide +kernel) (by decide +kernel),
    h0 "speed                  = " (by decide +kernel) near 15 3 (by decide) _ " bytes per second" (by decide +kernel)
      (by decide +kernel) (by decide +kernel),
    hruler,
    h0 "total cost in bytes    = " (by decide +kernel) near 15 3 (by decide) _ "" (by decide +kernel) (by decide +kernel)
      (by decide +kernel),
    h0 "total cost in bits     = " (by decide +kernel) near 15 3 (by decide) _ "" (by decide +kernel) (by decide +kernel)
      (by decide +kernel),
    hlen,
    h0 "average cost           = " (by decide +kernel) near 17 5 (by decide) _ " bpb" (by decide +kernel) (by decide +kernel)
      (by decide +kernel),
    hratio, hblank,
    h0 "Average context length = " (by decide +kernel) near 15 3 (by decide) _ " bytes" (by decide +kernel) (by decide +kernel)
      (by decide +kernel), hblank,
    h0 "Total cost (computed using LUTs): " (by decide +kernel) near 0 2 (by decide) _ " bytes" (by decide +kernel)
      (by decide +kernel) (by decide +kernel), numbers_nil]
  simp only [List.append_assoc, List.append_nil]

theorem pad_ne {w : ℕ} {a : List Char} (h : ∀ c ∈ a, c ≠ '\n') : ∀ c ∈ padLeft w a, c ≠ '\n' := by
  intro c hc
  rw [padLeft, List.mem_append] at hc
  rcases hc with hc | hc
  · rw [List.eq_of_mem_replicate hc]
    decide
  · exact h c hc

theorem not_newline {a : List Char} (h : ∀ c ∈ a, isGap c = false) : ∀ c ∈ a, c ≠ '\n' := by
  rintro c hc rfl
  exact absurd (h _ hc) (by decide)

theorem numText_ne {near : ℚ → ℕ} {w p : ℕ} {x : Num} : ∀ c ∈ numText near w p x, c ≠ '\n' := by
  cases x with
  | fin q => exact pad_ne (not_newline fixed_gap)
  | inf => exact pad_ne (by decide)
  | nan => exact pad_ne (by decide)

theorem lines_line {label unit : String} {field : List Char} (h1 : ∀ c ∈ label.toList, c ≠ '\n')
    (h2 : ∀ c ∈ field, c ≠ '\n') (h3 : ∀ c ∈ unit.toList, c ≠ '\n') (rest : List Char) :
    lines (line label field unit ++ rest) = (label.toList ++ field ++ unit.toList) :: lines rest := by
  rw [line, List.append_assoc, List.singleton_append, lines_cons]
  intro c hc
  rw [List.mem_append, List.mem_append] at hc
  rcases hc with (hc | hc) | hc
  · exact h1 c hc
  · exact h2 c hc
  · exact h3 c hc

/-- the lines of the printed text; the last, empty one follows the last line feed -/
theorem lines_report (near : ℚ → ℕ) (r : Report) : lines (reportText near r) =
    [("initialization         = ").toList ++ numText near 15 3 (.fin r.initialization) ++ (" seconds").toList,
    ("total duration         = ").toList ++ numText near 15 3 (.fin r.totalDuration) ++ (" seconds").toList,
    ("speed                  = ").toList ++ numText near 15 3 r.nsPerByte ++ (" ns per byte").toList,
    ("speed                  = ").toList ++ numText near 15 3 r.bytesPerSecond ++ (" bytes per second").toList,
    ("                       :  |  |  |  |   |").toList ++ [] ++ ("").toList,
    ("total cost in bytes    = ").toList ++ numText near 15 3 r.costInBytes ++ ("").toList,
    ("total cost in bits     = ").toList ++ numText near 15 3 (.fin r.costInBits) ++ ("").toList,
    ("input length           = ").toList ++ padLeft 11 (dec r.inputLength) ++ (" bytes").toList,
    ("average cost           = ").toList ++ numText near 17 5 r.averageCost ++ (" bpb").toList,
    ("compression ratio      = ").toList ++ numText near 15 3 r.ratio ++ (" : 1").toList,
    ("").toList ++ [] ++ ("").toList,
    ("Average context length = ").toList ++ numText near 15 3 r.contextLength ++ (" bytes").toList,
    ("").toList ++ [] ++ ("").toList,
    ("Total cost (computed using LUTs): ").toList ++ numText near 0 2 r.lutCost ++ (" bytes").toList,
    []] := by
  have hd : ∀ c ∈ padLeft 11 (dec r.inputLength), c ≠ '\n' := pad_ne (not_newline dec_gap)
  rw [reportText, ← List.append_nil (_ ++ line "Total cost (computed using LUTs): " _ _)]
  simp only [List.append_assoc (as := line _ _ _)]
  rw [lines_line (by decide +kernel) numText_ne (by decide +kernel), lines_line (by decide +kernel) numText_ne (by decide +kernel),
    lines_line (by decide +kernel) numText_ne (by decide +kernel), lines_line (by decide +kernel) numText_ne (by decide +kernel),
    lines_line (by decide +kernel) (by decide) (by decide +kernel), lines_line (by decide +kernel) numText_ne (by decide +kernel),
    lines_line (by decide +kernel) numText_ne (by decide +kernel), lines_line (by decide +kernel) hd (by decide +kernel),
    lines_line (by decide +kernel) numText_ne (by decide +kernel), lines_line (by decide +kernel) numText_ne (by decide +kernel),
    lines_line (by decide +kernel) (by decide) (by decide +kernel), lines_line (by decide +kernel) numText_ne (by decide +kernel),
    lines_line (by decide +kernel) (by decide) (by decide +kernel), lines_line (by decide +kernel) numText_ne (by decide +kernel)]
  rfl

theorem whole_at {label : List Char} (hl : label.length = 25) {v : ℕ} (hv : v < 10 ^ 11) (rest : List Char) :
    WholeAt (label ++ padLeft 11 (dec v) ++ rest) v := by
  intro k hk
  have hp := pad_length (by decide) hv
  rw [List.append_assoc, List.getElem?_append_right (by omega), List.getElem?_append_left (by omega), hl,
    show 35 - k - 25 = 11 - 1 - k by omega]
  exact pad_column hv (by omega)

theorem point_at {label : List Char} (hl : label.length = 25) {near : ℚ → ℕ} {w p : ℕ} (hw : w = 11 + 1 + p) (hp : 0 < p) {q : ℚ}
    (hv : near (q * 10 ^ p) < 10 ^ (11 + p)) (rest : List Char) :
    PointAt (label ++ numText near w p (.fin q) ++ rest) p (near (q * 10 ^ p)) := by
  subst hw
  generalize hu : near (q * 10 ^ p) = u at hv
  have h10 : 0 < 10 ^ p := by positivity
  have hv' : u / 10 ^ p < 10 ^ 11 := by
    rw [Nat.div_lt_iff_lt_mul h10, ← pow_add]
    exact hv
  have hm : u % 10 ^ p < 10 ^ p := Nat.mod_lt _ h10
  have hlen := pad_length (by decide) hv'
  have hdl := decimals_length hp hm
  rw [numText, pad_fixed near 11 hp, hu, ← List.append_assoc, List.append_assoc]
  refine ⟨whole_at hl hv' _, ?_, ?_⟩
  · rw [List.getElem?_append_right (by rw [List.length_append]; omega), List.length_append, hl, hlen]
    rfl
  · intro j hj
    rw [List.getElem?_append_right (by rw [List.length_append]; omega), List.length_append, hl, hlen,
      show 37 + j - (25 + 11) = j + 1 by omega, List.cons_append, List.getElem?_cons_succ,
      List.getElem?_append_left (by omega), show j = p - 1 - (p - 1 - j) by omega, decimals_column hm (by omega),
      show p - 1 - (p - 1 - (p - 1 - j)) = p - 1 - j by omega]
    congr 2
    have he : 10 ^ p = 10 ^ (p - 1 - j) * 10 ^ (j + 1) := by
      rw [← pow_add]
      congr 1
      omega
    rw [he, Nat.mod_mul_right_div_self, Nat.mod_mod_of_dvd]
    exact dvd_pow_self 10 (by omega)

/-! ## Theorems -/

/-- **C84 (columns).** The report is printed as a table. In every line but the last, a number below `10^11` has its point in
column 36, a whole number its units in column 35, and the ruler in the fifth line has its bars exactly at the columns of the
units, the thousands, the millions, the thousand millions and the third decimal. -/
theorem C84_columns (near : ℚ → ℕ) (r : Report) :
    (∀ x ∈ [(0, 3, Num.fin r.initialization), (1, 3, .fin r.totalDuration), (2, 3, r.nsPerByte), (3, 3, r.bytesPerSecond),
        (5, 3, r.costInBytes), (6, 3, .fin r.costInBits), (8, 5, r.averageCost), (9, 3, r.ratio), (11, 3, r.contextLength)],
      ∀ q, x.2.2 = .fin q → near (q * 10 ^ x.2.1) < 10 ^ (11 + x.2.1) →
        ∃ l, (lines (reportText near r))[x.1]? = some l ∧ PointAt l x.2.1 (near (q * 10 ^ x.2.1))) ∧
    (r.inputLength < 10 ^ 11 → ∃ l, (lines (reportText near r))[7]? = some l ∧ WholeAt l r.inputLength ∧ l[36]? = some ' ') ∧
    ∃ l, (lines (reportText near r))[4]? = some l ∧ ∀ c, l[c]? = some '|' ↔ c = 39 ∨ ∃ k ≤ 3, c = 35 - 3 * k := by
  rw [lines_report]
  refine ⟨?_, ?_, _, rfl, ?_⟩
  · intro x hx q hq hv
    simp only [List.mem_cons, List.not_mem_nil, or_false] at hx
    rcases hx with rfl | rfl | rfl | rfl | rfl | rfl | rfl | rfl | rfl <;> dsimp only at hq hv ⊢ <;> rw [hq] <;>
      exact ⟨_, rfl, point_at (by decide +kernel) rfl (by decide) hv _⟩
  · intro h
    refine ⟨_, rfl, whole_at (by decide +kernel) h _, ?_⟩
    rw [List.getElem?_append_right, List.length_append, pad_length (by decide) h]
    · decide +kernel
    · rw [List.length_append, pad_length (by decide) h]
      decide +kernel
  · intro c
    by_cases hc : c < 40
    · interval_cases c <;> decide +kernel
    · have hl : (("                       :  |  |  |  |   |").toList ++ [] ++ ("").toList).length = 40 := by decide +kernel
      rw [List.getElem?_eq_none (by rw [hl]; omega)]
      constructor
      · intro h
        cases h
      · rintro (rfl | ⟨k, hk, rfl⟩) <;> omega

theorem shown_near {near : ℚ → ℕ} (hnear : Nearest near) (p : ℕ) {x : Num} {q : ℚ} (hx : x = .fin q) {t b : ℝ} (hq : 0 ≤ q)
    (h : |(q : ℝ) - t| ≤ b) : ∃ v : ℚ, shown near p x = [v] ∧ |(v : ℝ) - t| ≤ b + 1 / (2 * 10 ^ p) := by
  subst hx
  refine ⟨_, rfl, ?_⟩
  have h1 := fixed_near hnear p hq
  have h2 : |(((near (q * 10 ^ p) : ℚ) / 10 ^ p : ℚ) : ℝ) - q| ≤ 1 / (2 * 10 ^ p) := by
    have : ((|(near (q * 10 ^ p) : ℚ) / 10 ^ p - q| : ℚ) : ℝ) ≤ ((1 / (2 * 10 ^ p) : ℚ) : ℝ) := by exact_mod_cast h1
    push_cast at this ⊢
    exact this
  have := abs_sub_le ((((near (q * 10 ^ p) : ℚ) / 10 ^ p : ℚ) : ℝ)) q t
  linarith

/-- a moderate `f64` nearest to a number -/
theorem nearest_small {x w : ℚ} (h : NearestF64 x w) (h1 : w ≤ 1024) (hx : 0 ≤ x) : |w - x| ≤ 1 / 2 ^ 24 := by
  have hx1 : x ≤ 1025 := by
    by_contra hc
    have h2 := h.2 1025 (by simpa using isF64_int (m := 1025) (k := 0) (by norm_num) (by norm_num) (by norm_num))
    rw [abs_of_neg (by linarith), abs_of_neg (by linarith)] at h2
    linarith
  have h3 := Int.floor_le (x * 2 ^ 24)
  have h4 := Int.lt_floor_add_one (x * 2 ^ 24)
  have h5 : (0 : ℤ) ≤ ⌊x * 2 ^ 24⌋ := Int.floor_nonneg.mpr (by positivity)
  have h6 : ⌊x * 2 ^ 24⌋ < 2 ^ 53 := by
    have : (⌊x * 2 ^ 24⌋ : ℚ) < 2 ^ 53 := by linarith
    exact_mod_cast this
  refine (h.2 _ (isF64_int (m := ⌊x * 2 ^ 24⌋) (k := -24) (by rw [abs_of_nonneg h5]; omega) (by norm_num) (by norm_num))).trans ?_
  generalize (⌊x * 2 ^ 24⌋ : ℚ) = m at h3 h4 ⊢
  rw [show ((2 : ℚ) ^ (-24 : ℤ)) = 1 / 2 ^ 24 by norm_num, abs_le]
  constructor <;> linarith

section

variable (e : Platform) (hc : e.ClockOk) {d : ℝ} (hlg : LogWithin e.log2 d) (hd : 0 ≤ d) (hd8 : d ≤ 1 / 8)
  (bytes : List (List Bool)) (h8 : ∀ b ∈ bytes, b.length = 8) (hn : bytes.length ≤ 2 ^ 35) {r : Report}
  (hr : estimateCompression e (bytes.map some) = some r) {near : ℚ → ℕ} (hnear : Nearest near)

include hc hlg hd hd8 h8 hn hr

/-- **C84 (text).** For a file that is not empty, if time has passed, the printed text contains exactly twelve numbers: the
seconds of the initialization and in total, the nanoseconds per byte and the bytes per second, the cost in bytes and in bits,
the exact length of the file, the cost per byte, the ratio and the 1 it is compared to, the average context length and the
cost computed using lookup tables. Each differs from the true quantity by at most the error of the computation and half a
unit of the last decimal printed. -/
theorem C84_text (hnear : Nearest near) (h0 : bytes ≠ []) (ht : e.start < e.finished) {E E' : ℝ} (hE : Content bytes E)
    (hE' : ChargedContent bytes E') :
    ∃ t0 t1 ns bps cb c a q cl lc : ℚ,
      numbers (reportText near r) = [t0, t1, ns, bps, cb, c, (bytes.length : ℚ), a, q, 1, cl, lc] ∧
      (let T0 : ℝ := ((e.initialized - e.start : ℕ) : ℝ) / 1000000000
       let T : ℝ := ((e.finished - e.start : ℕ) : ℝ) / 1000000000
       let n : ℝ := bytes.length
       |(t0 : ℝ) - T0| ≤ T0 / 2 ^ 51 + 1 / 2000 ∧
       |(t1 : ℝ) - T| ≤ T / 2 ^ 51 + 1 / 2000 ∧
       |(ns : ℝ) - T * 1000000000 / n| ≤ T * 1000000000 / n / 2 ^ 50 + 1 / 2000 ∧
       |(bps : ℝ) - n / T| ≤ n / T / 2 ^ 50 + 1 / 2000 ∧
       |(cb : ℝ) - E / 8| ≤ (2 * d + 8 * n / 2 ^ 52) * (E / 8) + 1 / 2000 ∧
       |(c : ℝ) - E| ≤ (2 * d + 8 * n / 2 ^ 52) * E + 1 / 2000 ∧
       |(a : ℝ) - E / n| ≤ (2 * d + (8 * n + 1) / 2 ^ 52) * (E / n) + 1 / 200000 ∧
       |(q : ℝ) - 8 * n / E| ≤ (4 * d + (16 * n + 1) / 2 ^ 52) * (8 * n / E) + 1 / 2000 ∧
       |(cl : ℝ) - contextSum bytes / (8 * n)| ≤ 1 / 1999 ∧
       |(lc : ℝ) - E' / 8| ≤ n / 1023 + 1 / 200) := by
  obtain ⟨c1, c2, c3, c4, ⟨a, ca1, ca2⟩, q, cq1, cq2⟩ := C74_costs e hc hlg hd hd8 bytes h8 hn hr h0 hE
  obtain ⟨l, hl, hl0, hl1⟩ := C74_lut_cost e hc hlg hd hd8 bytes h8 hn hr hE'
  obtain ⟨w, hw, hwn, hw0, hw1⟩ := C74_context_length e hc hlg hd hd8 bytes h8 hn hr h0
  obtain ⟨x1, x2, x3, -⟩ := C74_times e hc hlg hd hd8 bytes h8 hn hr
  obtain ⟨⟨s, hs, hs1⟩, u, hu, hu1⟩ := x3 h0 ht
  have hN : (0 : ℝ) < bytes.length := by exact_mod_cast List.length_pos_iff.mpr h0
  have hN2 : (bytes.length : ℝ) ≤ 2 ^ 35 := by exact_mod_cast hn
  have real : ∀ {x y b : ℚ}, |x - y| ≤ b → |(x : ℝ) - (y : ℝ)| ≤ (b : ℝ) := by
    intro x y b h
    have : ((|x - y| : ℚ) : ℝ) ≤ (b : ℝ) := by exact_mod_cast h
    push_cast at this
    exact this
  have pos : ∀ {x y : ℚ} {k : ℕ}, 0 ≤ y → |x - y| ≤ y / 2 ^ k → 0 ≤ x := by
    intro x y k hy h
    have h1 := (abs_le.mp h).1
    have : y / 2 ^ k ≤ y := div_le_self hy (one_le_pow₀ (by norm_num))
    linarith
  have pos' : ∀ {x : ℚ} {y f : ℝ}, 0 ≤ y → f ≤ 1 → |(x : ℝ) - y| ≤ f * y → 0 ≤ x := by
    intro x y f hy hf h
    have h1 := (abs_le.mp h).1
    have : f * y ≤ 1 * y := mul_le_mul_of_nonneg_right hf hy
    have : (0 : ℝ) ≤ x := by linarith
    exact_mod_cast this
  have hf : 2 * d + 8 * (bytes.length : ℝ) / 2 ^ 52 ≤ 1 := by linarith
  have p0 := pos (k := 51) (by positivity) x1
  have p1 := pos (k := 51) (by positivity) x2
  have p2 := pos (k := 50) (by positivity) hs1
  have p3 := pos (k := 50) (by positivity) hu1
  have p4 := pos' c2.le hf c3
  have p5 : 0 ≤ r.costInBits / 8 := by positivity
  have p6 := pos' (by positivity) (by linarith) ca2
  have p7 := pos' (by positivity) (by linarith) cq2
  have c5 : |((r.costInBits / 8 : ℚ) : ℝ) - E / 8| ≤ (2 * d + 8 * bytes.length / 2 ^ 52) * (E / 8) := by
    rw [show ((r.costInBits / 8 : ℚ) : ℝ) - E / 8 = ((r.costInBits : ℝ) - E) / 8 by push_cast; ring, abs_div,
      abs_of_pos (by norm_num : (0 : ℝ) < 8)]
    linarith
  obtain ⟨t0, g0, k0⟩ := shown_near hnear 3 (x := .fin r.initialization) rfl p0 (real x1)
  obtain ⟨t1, g1, k1⟩ := shown_near hnear 3 (x := .fin r.totalDuration) rfl p1 (real x2)
  obtain ⟨t2, g2, k2⟩ := shown_near hnear 3 hs p2 (real hs1)
  obtain ⟨t3, g3, k3⟩ := shown_near hnear 3 hu p3 (real hu1)
  obtain ⟨t4, g4, k4⟩ := shown_near hnear 3 c4 p5 c5
  obtain ⟨t5, g5, k5⟩ := shown_near hnear 3 (x := .fin r.costInBits) rfl p4 c3
  obtain ⟨t6, g6, k6⟩ := shown_near hnear 5 ca1 p6 ca2
  obtain ⟨t7, g7, k7⟩ := shown_near hnear 3 cq1 p7 cq2
  obtain ⟨t8, g8, k8⟩ := shown_near hnear 3 hw hw0 (real (nearest_small hwn (hw1.trans (by norm_num)) (by positivity)))
  obtain ⟨t9, g9, k9⟩ := shown_near hnear 2 hl hl0 (t := E' / 8) (b := bytes.length / 1023) (by
    rw [show (l : ℝ) - E' / 8 = (8 * (l : ℝ) - E') / 8 by ring, abs_div, abs_of_pos (by norm_num : (0 : ℝ) < 8)]
    linarith)
  refine ⟨t0, t1, t2, t3, t4, t5, t6, t7, t8, t9, ?_, ?_⟩
  · rw [numbers_report, g0, g1, g2, g3, g4, g5, g6, g7, g8, g9, c1]
    rfl
  · dsimp only
    push_cast at k0 k1 k2 k3 k8
    rw [div_mul_cancel₀ _ (by norm_num : (1000000000 : ℝ) ≠ 0)]
    norm_num at k0 k1 k2 k3 k4 k5 k6 k7 k8 k9 ⊢
    refine ⟨k0, k1, k2, k3, k4, k5, k6, k7, ?_, k9⟩
    linarith

/-- **C84 (empty file).** For an empty file the length and the costs are printed as 0; `NaN` stands in place of the cost per
byte, the ratio and the average context length, and ends where a number would end. -/
theorem C84_empty (hnear : Nearest near) (h0 : bytes = []) : ∃ ls, lines (reportText near r) = ls ∧
    ls[5]? = some ("total cost in bytes    =           0.000").toList ∧
    ls[6]? = some ("total cost in bits     =           0.000").toList ∧
    ls[7]? = some ("input length           =           0 bytes").toList ∧
    ls[8]? = some ("average cost           =               NaN bpb").toList ∧
    ls[9]? = some ("compression ratio      =             NaN : 1").toList ∧
    ls[11]? = some ("Average context length =             NaN bytes").toList ∧
    ls[13]? = some ("Total cost (computed using LUTs): 0.00 bytes").toList := by
  obtain ⟨h1, h2, h3, h4, h5, h6, h7⟩ := C74_empty e hc hlg hd hd8 bytes h8 hn hr h0
  have hz : near 0 = 0 := by
    have h := hnear 0 le_rfl
    rw [sub_zero, abs_of_nonneg (Nat.cast_nonneg _)] at h
    by_contra hne
    have : (1 : ℚ) ≤ near 0 := by exact_mod_cast Nat.one_le_iff_ne_zero.mpr hne
    linarith
  have hf : ∀ w p, numText near w p (.fin 0) = numText (fun _ => 0) w p (.fin 0) := by
    intro w p
    dsimp only [numText, fixed]
    rw [zero_mul, hz]
  have hnan : ∀ w p, numText near w p .nan = numText (fun _ => 0) w p .nan := fun _ _ => rfl
  refine ⟨_, rfl, ?_⟩
  rw [lines_report, h1, h2, h3, h4, h5, h6, h7]
  refine ⟨?_, ?_, ?_, ?_, ?_, ?_, ?_⟩ <;> simp only [hf, hnan] <;> exact congrArg some (by decide +kernel)

end

/-! ## Examples -/

/-- a report -/
def sampleReport : Report where
  initialization := 1 / 8
  totalDuration := 25 / 2
  nsPerByte := .fin (1250 / 3)
  bytesPerSecond := .fin 2400000
  costInBytes := .fin (4000000 + 1 / 8)
  costInBits := 32000001
  inputLength := 30000000
  averageCost := .fin (32000001 / 30000000)
  ratio := .fin (240000000 / 32000001)
  contextLength := .fin (85 / 16)
  lutCost := .fin 4001234

/-- its text -/
example : reportText upwards sampleReport =
    "initialization         =           0.125 seconds\n".toList ++
    "total duration         =          12.500 seconds\n".toList ++
    "speed                  =         416.667 ns per byte\n".toList ++
    "speed                  =     2400000.000 bytes per second\n".toList ++
    "                       :  |  |  |  |   |\n".toList ++
    "total cost in bytes    =     4000000.125\n".toList ++
    "total cost in bits     =    32000001.000\n".toList ++
    "input length           =    30000000 bytes\n".toList ++
    "average cost           =           1.06667 bpb\n".toList ++
    "compression ratio      =           7.500 : 1\n".toList ++
    "\n".toList ++
    "Average context length =           5.313 bytes\n".toList ++
    "\n".toList ++
    "Total cost (computed using LUTs): 4001234.00 bytes\n".toList := by decide +kernel

/-- the numbers read in it -/
example : numbers (reportText upwards sampleReport) = [1 / 8, 25 / 2, 416667 / 1000, 2400000, 32000001 / 8, 32000001, 30000000,
    106667 / 100000, 15 / 2, 1, 5313 / 1000, 4001234] := by decide +kernel

/-- platforms that meet the hypotheses of `C84_text` exist, and the program prints a text on them for the file with the two
bytes `"ab"`, and none without an argument -/
example : ∃ e : Platform, e.ClockOk ∧ e.start < e.finished ∧ LogWithin e.log2 (1 / 2 ^ 52) ∧ Text.Nearest upwards ∧
    (let ab := [some [false, true, true, false, false, false, false, true], some [false, true, true, false, false, false, true, false]]
     let fs := fun n => if n = "ab" then some ab else none
     (mainText upwards e ["demixer", "ab"] fs).isSome = true ∧ mainText upwards e ["demixer"] fs = none) := by
  obtain ⟨lg, hlg⟩ := log_exists
  refine ⟨⟨lg, 1000, 2000, 5000000⟩, ⟨by norm_num, by norm_num, by norm_num, by norm_num⟩, by norm_num, hlg, upwards_nearest, ?_⟩
  intro ab fs
  have key := fun args => C74_finishes ⟨lg, 1000, 2000, 5000000⟩ (by norm_num) (by norm_num) hlg (by norm_num) (by norm_num) args fs (by
    intro name file h
    simp only [fs] at h
    split_ifs at h; obtain rfl := Option.some.inj h; simp [ab])
  refine ⟨?_, rfl⟩
  rw [mainText, Option.isSome_map]
  exact (key _).mpr ⟨⟨"ab", ab, rfl, by simp [fs], by simp [ab]⟩, by norm_num, by norm_num⟩

end Verif.Pred
