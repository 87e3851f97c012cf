import Verif.Text
import Mathlib.Data.Rat.Floor
import Mathlib.Tactic

/-!
# Printing numbers with a fixed number of decimals

`{:w.p}` of a float prints the decimal number with `p` decimals that is nearest to it, filled with spaces from the left up to
`w` characters. Which of two equally near ones is printed depends on the version of the standard library, so `near`, the
rounding to a whole number, is a parameter.
-/

namespace Verif.Text

/-! ## Model -/

/-- fills with spaces from the left, as the width of a format does for numbers -/
def padLeft (w : ℕ) (l : List Char) : List Char := List.replicate (w - l.length) ' ' ++ l

/-- `{:.p}` of a finite nonnegative `f64`, for `p` not zero -/
def fixed (near : ℚ → ℕ) (p : ℕ) (q : ℚ) : List Char :=
  let n := near (q * 10 ^ p)
  dec (n / 10 ^ p) ++ '.' :: (List.replicate (p - (dec (n % 10 ^ p)).length) '0' ++ dec (n % 10 ^ p))

/-- `{:.p}` of a finite `f64` -/
def fixedInt (near : ℚ → ℕ) (p : ℕ) (q : ℚ) : List Char :=
  if q < 0 then '-' :: fixed near p (-q) else fixed near p q

/-! ## Specification -/

/-- rounding to a nearest whole number -/
def Nearest (near : ℚ → ℕ) : Prop := ∀ q : ℚ, 0 ≤ q → |(near q : ℚ) - q| ≤ 1 / 2

/-- the value of an unsigned decimal number, with or without decimals -/
def readDecimal (l : List Char) : Option ℚ :=
  let whole := l.takeWhile Char.isDigit
  let rest := l.dropWhile Char.isDigit
  if whole = [] then none
  else if rest = [] then some (Nat.ofDigitChars 10 whole 0)
  else if rest.headD ' ' = '.' ∧ rest.tail ≠ [] ∧ rest.tail.all Char.isDigit = true then
    some ((Nat.ofDigitChars 10 (whole ++ rest.tail) 0 : ℕ) / 10 ^ rest.tail.length)
  else none

/-- the value of a decimal number, with or without sign and decimals -/
def readNumber (l : List Char) : Option ℚ :=
  if l.head? = some '-' then (readDecimal l.tail).map fun q => -q else readDecimal l

/-- what separates the words of a text -/
def isGap (c : Char) : Bool := c = ' ' || c = '\n' || c = ','

/-- the parts of a text between certain characters; the first part continues `word` -/
def partsFrom (gap : Char → Bool) : List Char → List Char → List (List Char)
  | word, [] => [word]
  | word, c :: l => if gap c then word :: partsFrom gap [] l else partsFrom gap (word ++ [c]) l

/-- the numbers a reader finds in a text: the words that are decimal numbers, in order -/
def numbers (l : List Char) : List ℚ := (partsFrom isGap [] l).filterMap readNumber

/-- the lines of a text -/
def lines (l : List Char) : List (List Char) := partsFrom (· = '\n') [] l

/-! ## Lemmas -/

theorem partsFrom_gap {gap : Char → Bool} {c : Char} (hc : gap c = true) : ∀ (a word b : List Char),
    partsFrom gap word (a ++ c :: b) = partsFrom gap word a ++ partsFrom gap [] b
  | [], word, b => by simp [partsFrom, hc]
  | d :: a, word, b => by
    rw [List.cons_append, partsFrom, partsFrom]
    split
    · rw [partsFrom_gap hc a [] b, List.cons_append]
    · exact partsFrom_gap hc a (word ++ [d]) b

theorem partsFrom_solid {gap : Char → Bool} : ∀ (a word : List Char), (∀ c ∈ a, gap c = false) →
    partsFrom gap word a = [word ++ a]
  | [], word, _ => by simp [partsFrom]
  | d :: a, word, h => by
    rw [partsFrom, if_neg (by rw [h d (by simp)]; decide), partsFrom_solid a _ fun c hc => h c (by simp [hc])]
    simp

/-- a gap separates the numbers before it from those after it -/
theorem numbers_gap {c : Char} (hc : isGap c = true) (a b : List Char) : numbers (a ++ c :: b) = numbers a ++ numbers b := by
  rw [numbers, partsFrom_gap hc, List.filterMap_append]
  rfl

theorem numbers_solid {a : List Char} (h : ∀ c ∈ a, isGap c = false) : numbers a = (readNumber a).toList := by
  rw [numbers, partsFrom_solid a [] h, List.nil_append, List.filterMap_cons, List.filterMap_nil]
  cases readNumber a <;> rfl

theorem readNumber_of {a : List Char} {q : ℚ} (h : readDecimal a = some q) : readNumber a = some q := by
  rw [readNumber, if_neg, h]
  intro hm
  cases a with
  | nil => cases hm
  | cons c t =>
    obtain rfl : c = '-' := by simpa using hm
    unfold readDecimal at h
    dsimp only at h
    rw [List.takeWhile_cons_of_neg (by decide), if_pos rfl] at h
    cases h

theorem readNumber_neg {a : List Char} {q : ℚ} (h : readDecimal a = some q) : readNumber ('-' :: a) = some (-q) := by
  rw [readNumber, if_pos (by simp), List.tail_cons, h]
  rfl

/-- the first line of a text -/
theorem lines_cons {a : List Char} (h : ∀ c ∈ a, c ≠ '\n') (b : List Char) : lines (a ++ '\n' :: b) = a :: lines b := by
  rw [lines, partsFrom_gap (by decide), partsFrom_solid a [] (fun c hc => by simp [h c hc])]
  rfl

theorem numbers_nil : numbers [] = [] := rfl

theorem numbers_spaces : ∀ (k : ℕ) (a : List Char), numbers (List.replicate k ' ' ++ a) = numbers a
  | 0, _ => rfl
  | k + 1, a => by
    rw [List.replicate_succ, List.cons_append, show ' ' :: (List.replicate k ' ' ++ a) = [] ++ ' ' :: (List.replicate k ' ' ++ a) from rfl,
      numbers_gap (by decide), numbers_nil, List.nil_append, numbers_spaces k a]

theorem numbers_pad (w : ℕ) (a : List Char) : numbers (padLeft w a) = numbers a := numbers_spaces _ a

theorem dec_gap {n : ℕ} : ∀ c ∈ dec n, isGap c = false := by
  intro c hc
  have h := dec_digit hc
  unfold isGap
  by_contra hn
  simp only [Bool.not_eq_false, Bool.or_eq_true, decide_eq_true_eq] at hn
  rcases hn with (rfl | rfl) | rfl <;> exact absurd h (by decide)

theorem takeWhile_all {p : Char → Bool} {l : List Char} (h : ∀ c ∈ l, p c = true) : l.takeWhile p = l ∧ l.dropWhile p = [] := by
  have h1 := List.takeWhile_append_of_pos (l₂ := []) h
  have h2 := List.dropWhile_append_of_pos (l₂ := []) h
  simpa using And.intro h1 h2

theorem readDecimal_dec (n : ℕ) : readDecimal (dec n) = some (n : ℚ) := by
  unfold readDecimal
  have h : ∀ c ∈ dec n, c.isDigit = true := fun c hc => dec_digit hc
  dsimp only
  rw [(takeWhile_all h).1, (takeWhile_all h).2, if_neg (dec_ne_nil n), if_pos rfl,
    show Nat.ofDigitChars 10 (dec n) 0 = n from Nat.ofDigitChars_ten_toDigits]

theorem numbers_dec (n : ℕ) : numbers (dec n) = [(n : ℚ)] := by
  rw [numbers_solid dec_gap, readNumber_of (readDecimal_dec n)]
  rfl

theorem dec_length {n p : ℕ} (hp : 0 < p) (h : n < 10 ^ p) : (dec n).length ≤ p :=
  (Nat.length_toDigits_le_iff (by decide) hp).mpr h

/-- the decimals of a printed number -/
def decimals (p m : ℕ) : List Char := List.replicate (p - (dec m).length) '0' ++ dec m

theorem decimals_digit {p m : ℕ} : ∀ c ∈ decimals p m, c.isDigit = true := by
  intro c hc
  rcases List.mem_append.mp hc with h | h
  · rw [(List.mem_replicate.mp h).2]
    decide
  · exact dec_digit h

theorem decimals_length {p m : ℕ} (hp : 0 < p) (h : m < 10 ^ p) : (decimals p m).length = p := by
  have := dec_length hp h
  rw [decimals, List.length_append, List.length_replicate]
  omega

theorem decimals_value {p m a : ℕ} (hp : 0 < p) (h : m < 10 ^ p) :
    Nat.ofDigitChars 10 (decimals p m) a = 10 ^ p * a + m := by
  have hl := dec_length hp h
  rw [decimals, Nat.ofDigitChars_append, Nat.ofDigitChars_replicate_zero, Nat.ofDigitChars_eq_ofDigitChars_zero,
    show Nat.ofDigitChars 10 (dec m) 0 = m from Nat.ofDigitChars_ten_toDigits, ← mul_assoc, ← pow_add]
  congr 3
  omega

theorem fixed_eq (near : ℚ → ℕ) (p : ℕ) (q : ℚ) : fixed near p q =
    dec (near (q * 10 ^ p) / 10 ^ p) ++ '.' :: decimals p (near (q * 10 ^ p) % 10 ^ p) := rfl

theorem fixed_gap {near : ℚ → ℕ} {p : ℕ} {q : ℚ} : ∀ c ∈ fixed near p q, isGap c = false := by
  intro c hc
  rw [fixed_eq] at hc
  rcases List.mem_append.mp hc with h | h
  · exact dec_gap c h
  · rcases List.mem_cons.mp h with rfl | h
    · decide
    · have h := decimals_digit c h
      unfold isGap
      by_contra hn
      simp only [Bool.not_eq_false, Bool.or_eq_true, decide_eq_true_eq] at hn
      rcases hn with (rfl | rfl) | rfl <;> exact absurd h (by decide)

theorem readDecimal_fixed (near : ℚ → ℕ) {p : ℕ} (hp : 0 < p) (q : ℚ) :
    readDecimal (fixed near p q) = some ((near (q * 10 ^ p) : ℚ) / 10 ^ p) := by
  rw [fixed_eq]
  generalize near (q * 10 ^ p) = n
  have hm : n % 10 ^ p < 10 ^ p := Nat.mod_lt _ (by positivity)
  have h1 : ∀ c ∈ dec (n / 10 ^ p), c.isDigit = true := fun c hc => dec_digit hc
  have hl := decimals_length hp hm
  unfold readDecimal
  dsimp only
  rw [List.takeWhile_append_of_pos h1, List.dropWhile_append_of_pos h1, List.takeWhile_cons_of_neg (by decide),
    List.dropWhile_cons_of_neg (by decide), List.append_nil, if_neg (dec_ne_nil _), if_neg (List.cons_ne_nil _ _)]
  rw [if_pos ⟨rfl, by
    intro h
    rw [List.tail_cons] at h
    rw [h] at hl
    exact absurd hl (by simp; omega), List.all_eq_true.mpr decimals_digit⟩]
  rw [List.tail_cons, hl, Nat.ofDigitChars_append, show Nat.ofDigitChars 10 (dec (n / 10 ^ p)) 0 = n / 10 ^ p from
    Nat.ofDigitChars_ten_toDigits, decimals_value hp hm, Nat.div_add_mod]

theorem numbers_fixed (near : ℚ → ℕ) {p : ℕ} (hp : 0 < p) (q : ℚ) :
    numbers (fixed near p q) = [(near (q * 10 ^ p) : ℚ) / 10 ^ p] := by
  rw [numbers_solid fixed_gap, readNumber_of (readDecimal_fixed near hp q)]
  rfl

/-- the number printed is within half a unit of the last decimal -/
theorem fixed_near {near : ℚ → ℕ} (hn : Nearest near) (p : ℕ) {q : ℚ} (hq : 0 ≤ q) :
    |(near (q * 10 ^ p) : ℚ) / 10 ^ p - q| ≤ 1 / (2 * 10 ^ p) := by
  have h := hn (q * 10 ^ p) (by positivity)
  have h10 : (0 : ℚ) < 10 ^ p := by positivity
  rw [show (near (q * 10 ^ p) : ℚ) / 10 ^ p - q = ((near (q * 10 ^ p) : ℚ) - q * 10 ^ p) / 10 ^ p by field_simp, abs_div,
    abs_of_pos h10, div_le_div_iff₀ h10 (by positivity)]
  nlinarith

/-- the number shown for a number that may be negative -/
def shownInt (near : ℚ → ℕ) (p : ℕ) (q : ℚ) : ℚ :=
  if q < 0 then -((near (-q * 10 ^ p) : ℚ) / 10 ^ p) else (near (q * 10 ^ p) : ℚ) / 10 ^ p

theorem numbers_fixedInt (near : ℚ → ℕ) {p : ℕ} (hp : 0 < p) (q : ℚ) :
    numbers (fixedInt near p q) = [shownInt near p q] := by
  unfold fixedInt shownInt
  split
  · rw [numbers_solid (by
      intro c hc
      rcases List.mem_cons.mp hc with rfl | hc
      · decide
      · exact fixed_gap c hc), readNumber_neg (readDecimal_fixed near hp _)]
    rfl
  · exact numbers_fixed near hp q

theorem shownInt_near {near : ℚ → ℕ} (hn : Nearest near) (p : ℕ) (q : ℚ) : |shownInt near p q - q| ≤ 1 / (2 * 10 ^ p) := by
  unfold shownInt
  split
  · rename_i h
    have := fixed_near hn p (q := -q) (by linarith)
    rw [← abs_neg]
    convert this using 2
    ring
  · rename_i h
    exact fixed_near hn p (by linarith)

theorem numbers_decInt (n : ℤ) : numbers (decInt n) = [(n : ℚ)] := by
  unfold decInt
  split
  · rename_i h
    rw [numbers_solid (by
      intro c hc
      rcases List.mem_cons.mp hc with rfl | hc
      · decide
      · exact dec_gap c hc), readNumber_neg (readDecimal_dec _)]
    rw [Nat.cast_natAbs, abs_of_neg h, Int.cast_neg, neg_neg]
    rfl
  · rename_i h
    rw [numbers_dec, Nat.cast_natAbs, abs_of_nonneg (by omega)]

/-! ## Columns -/

/-- the digits of a number, counted from the end -/
theorem dec_reverse (n k : ℕ) : (dec n).reverse[k]? =
    if k = 0 ∨ 10 ^ k ≤ n then some (Nat.digitChar (n / 10 ^ k % 10)) else none := by
  induction k generalizing n with
  | zero =>
    rw [if_pos (.inl rfl), pow_zero, Nat.div_one, dec, Nat.toDigits_eq_if (by decide)]
    split
    · rename_i h
      rw [Nat.mod_eq_of_lt h]
      rfl
    · rw [List.reverse_append]
      rfl
  | succ k ih =>
    rw [dec, Nat.toDigits_eq_if (by decide)]
    split
    · rename_i h
      have : 10 ≤ 10 ^ (k + 1) := by
        rw [pow_succ]
        have : 0 < 10 ^ k := by positivity
        omega
      rw [if_neg (by omega)]
      rfl
    · rename_i h
      rw [List.reverse_append, List.reverse_singleton, List.singleton_append, List.getElem?_cons_succ]
      have := ih (n / 10)
      rw [dec] at this
      rw [this, Nat.div_div_eq_div_mul, ← pow_succ']
      congr 1
      have hk : 0 < 10 ^ k := by positivity
      rw [eq_iff_iff, Nat.le_div_iff_mul_le (by decide), ← pow_succ]
      constructor
      · rintro (rfl | h')
        · right
          omega
        · exact .inr h'
      · rintro (h' | h')
        · omega
        · exact .inr h'

/-- the column of each digit of a number padded to a width -/
theorem column (c : Char) {w n k : ℕ} (hn : n < 10 ^ w) (hk : k < w) :
    (List.replicate (w - (dec n).length) c ++ dec n)[w - 1 - k]? =
    some (if k = 0 ∨ 10 ^ k ≤ n then Nat.digitChar (n / 10 ^ k % 10) else c) := by
  have hl : (dec n).length ≤ w := dec_length (by omega) hn
  have hlen : (List.replicate (w - (dec n).length) c ++ dec n).length = w := by
    rw [List.length_append, List.length_replicate]
    omega
  have h1 : (List.replicate (w - (dec n).length) c ++ dec n)[w - 1 - k]? =
      (List.replicate (w - (dec n).length) c ++ dec n).reverse[k]? := by
    rw [List.getElem?_reverse (by omega), hlen]
  rw [h1, List.reverse_append, List.reverse_replicate]
  have hd := dec_reverse n k
  by_cases h : k < (dec n).length
  · rw [List.getElem?_append_left (by rw [List.length_reverse]; exact h), hd]
    split at hd
    · rename_i h2
      rw [if_pos h2, if_pos h2]
    · rw [List.getElem?_eq_none_iff, List.length_reverse] at hd
      omega
  · rw [List.getElem?_append_right (by rw [List.length_reverse]; omega), List.length_reverse,
      List.getElem?_replicate_of_lt (by omega)]
    split at hd
    · have : k < (dec n).reverse.length := (List.getElem?_eq_some_iff.mp hd).1
      rw [List.length_reverse] at this
      omega
    · rename_i h2
      rw [if_neg h2]

theorem pad_column {w n k : ℕ} (hn : n < 10 ^ w) (hk : k < w) : (padLeft w (dec n))[w - 1 - k]? =
    some (if k = 0 ∨ 10 ^ k ≤ n then Nat.digitChar (n / 10 ^ k % 10) else ' ') := column ' ' hn hk

theorem decimals_column {p m k : ℕ} (hm : m < 10 ^ p) (hk : k < p) :
    (decimals p m)[p - 1 - k]? = some (Nat.digitChar (m / 10 ^ k % 10)) := by
  rw [decimals, column '0' hm hk]
  split
  · rfl
  · rename_i h
    rw [Nat.div_eq_of_lt (by omega)]
    rfl

theorem pad_length {w n : ℕ} (hw : 0 < w) (hn : n < 10 ^ w) : (padLeft w (dec n)).length = w := by
  have := dec_length hw hn
  rw [padLeft, List.length_append, List.length_replicate]
  omega

/-- a number with decimals, padded -/
theorem pad_fixed (near : ℚ → ℕ) (w : ℕ) {p : ℕ} (hp : 0 < p) (q : ℚ) : padLeft (w + 1 + p) (fixed near p q) =
    padLeft w (dec (near (q * 10 ^ p) / 10 ^ p)) ++ '.' :: decimals p (near (q * 10 ^ p) % 10 ^ p) := by
  have hl := decimals_length hp (Nat.mod_lt (near (q * 10 ^ p)) (by positivity : 0 < 10 ^ p))
  rw [fixed_eq, padLeft, padLeft, List.append_assoc, List.length_append, List.length_cons, hl]
  congr 2
  omega

/-- a text that ends with a gap -/
theorem numbers_left {a : List Char} (h : a.getLast?.any isGap = true) (b : List Char) :
    numbers (a ++ b) = numbers a ++ numbers b := by
  rcases List.eq_nil_or_concat a with rfl | ⟨a, c, rfl⟩
  · rfl
  · rw [List.concat_eq_append] at h ⊢
    rw [List.getLast?_concat] at h
    rw [List.append_assoc, List.singleton_append, numbers_gap h, numbers_gap h, numbers_nil, List.append_nil]

/-- a text that begins with a gap -/
theorem numbers_right (a : List Char) {b : List Char} (h : b.head?.any isGap = true) :
    numbers (a ++ b) = numbers a ++ numbers b := by
  cases b with
  | nil => rw [List.append_nil, numbers_nil, List.append_nil]
  | cons c b =>
    rw [numbers_gap h]
    congr 1
    exact ((numbers_gap h [] b).trans (by rw [numbers_nil, List.nil_append])).symm

/-! ## Examples -/

/-- rounding ties up -/
def upwards (q : ℚ) : ℕ := ⌊q + 1 / 2⌋₊

theorem upwards_nearest : Nearest upwards := by
  intro q hq
  have h1 := Nat.floor_le (show 0 ≤ q + 1 / 2 by linarith)
  have h2 := Nat.lt_floor_add_one (q + 1 / 2)
  unfold upwards
  rw [abs_le]
  constructor <;> linarith

example : padLeft 8 (fixed upwards 3 (3 / 2)) = "   1.500".toList ∧ fixed upwards 2 (1234567 / 1000) = "1234.57".toList ∧
    fixed upwards 3 (1 / 200) = "0.005".toList := by decide +kernel

example : numbers "cost =   12.5 bytes, 7 of 1e3, -0.25 - 3\n".toList = [25 / 2, 7, -1 / 4, 3] := by decide +kernel

end Verif.Text
