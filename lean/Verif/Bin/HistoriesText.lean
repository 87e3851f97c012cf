import Verif.Bin.HistoriesProps
import Verif.Text

/-!
# C80: the text that `print_histories` prints
-/

namespace Verif.Bin

open Verif Verif.History Verif.Text

/-! ## Model -/

/-- the line of a bit (`print_histories.rs:64-71`) -/
def lineText (bitIndex : Nat) : List Nat → List Char
  | [] => []
  | a :: rest => dec bitIndex ++ [':', ' '] ++ hex a ++ (rest.map fun b => [',', ' '] ++ hex b).flatten ++ ['\n']

/-- the lines of the bits (`print_histories.rs:61-77`) -/
def linesText : List Nat → List (List Nat) → List Char
  | j :: js, l :: ls => lineText j l ++ linesText js ls
  | _, _ => []

/-- the first words of the text of a byte (`print_histories.rs:59`) -/
def byteIntro : List Char := "Processing byte with index: ".toList

/-- the text of a byte (`print_histories.rs:59-78`). `x as char` is the character whose code is `x`. -/
def byteText (i x : Nat) (lines : List (List Nat)) : List Char :=
  byteIntro ++ dec i ++ [',', ' ', Char.ofNat x, '\n'] ++ linesText [7, 6, 5, 4, 3, 2, 1, 0] lines ++
    ['\n']

/-- the text of all bytes from number `i` on (`print_histories.rs:58-79`) -/
def bytesText : Nat → List (Nat × List (List Nat)) → List Char
  | _, [] => []
  | i, (x, lines) :: rest => byteText i x lines ++ bytesText (i + 1) rest

/-- the text printed by `main` (`print_histories.rs:41-51`) -/
def printKindText (hash : HashFn) (luts : Luts) (input : List Nat) (kind : Kind) : Option (List Char) := do
  let out ← printKind hash luts input kind
  some (bytesText 0 out)

/-! ## Specification -/

/-- hexadecimal digits -/
def hexString (n : Nat) : String := String.ofList (Nat.toDigits 16 n)

/-- the line of bit `j` (0 is the first one, which the program numbers 7) -/
def wantedLineText (j : Nat) (line : List Nat) : String :=
  if line = [] then "" else s!"{7 - j}: {", ".intercalate (line.map hexString)}\n"

/-- the text for a file -/
def wantedText (input : List Nat) : String :=
  String.join ((List.range (min 1234 input.length)).map fun i =>
    s!"Processing byte with index: {i}, {Char.ofNat (input.getD i 0)}\n" ++
      String.join ((List.range 8).map fun j => wantedLineText j (wantedLine ((fileBits input).take (8 * i + j)))) ++ "\n")

/-! ## Reading the text -/

theorem hex_small : ∀ n < 256, (∀ c ∈ hex n, c ≠ ',' ∧ c ≠ '\n') ∧
    (hex n).foldl (fun a c => 16 * a + if c.isDigit then c.toNat - 48 else c.toNat - 87) 0 = n := by
  decide +kernel

theorem hex_inj {m n : Nat} (hm : m < 256) (hn : n < 256) (h : hex m = hex n) : m = n := by
  have h1 := (hex_small m hm).2
  have h2 := (hex_small n hn).2
  rw [h] at h1
  omega

/-- the characters of a number -/
def numChar (c : Char) : Bool := c != ',' && c != '\n'

theorem numChar_hex {n : Nat} (hn : n < 256) : ∀ c ∈ hex n, numChar c = true := by
  intro c hc
  obtain ⟨h1, h2⟩ := (hex_small n hn).1 c hc
  simp [numChar, h1, h2]

/-- the numbers of a line after the first -/
theorem rest_inj : ∀ {l l' : List Nat} {r r' : List Char}, (∀ n ∈ l, n < 256) → (∀ n ∈ l', n < 256) →
    (l.map fun b => [',', ' '] ++ hex b).flatten ++ '\n' :: r = (l'.map fun b => [',', ' '] ++ hex b).flatten ++ '\n' :: r' →
    l = l' ∧ r = r' := by
  intro l
  induction l with
  | nil =>
    intro l' r r' _ _ h
    cases l' with
    | nil => exact ⟨rfl, by simpa using h⟩
    | cons a l' => simp at h
  | cons a l ih =>
    intro l' r r' h1 h2 h
    cases l' with
    | nil => simp at h
    | cons b l' =>
      simp only [List.map_cons, List.flatten_cons, List.append_assoc, List.cons_append, List.nil_append, List.cons.injEq,
        true_and] at h
      have key : ∀ (l : List Nat) (r : List Char), ∃ c q, numChar c = false ∧
          (l.map fun b => ',' :: ' ' :: hex b).flatten ++ '\n' :: r = c :: q := by
        intro l r
        cases l with
        | nil => exact ⟨_, _, by decide, rfl⟩
        | cons => exact ⟨_, _, by decide, rfl⟩
      obtain ⟨c, q, hc, e⟩ := key l r
      obtain ⟨c', q', hc', e'⟩ := key l' r'
      rw [e, e'] at h
      obtain ⟨h3, h4⟩ := split_first (numChar_hex (h1 a List.mem_cons_self)) (numChar_hex (h2 b List.mem_cons_self)) hc hc' h
      rw [← e, ← e'] at h4
      obtain ⟨h5, h6⟩ := ih (fun n hn => h1 n (List.mem_cons_of_mem _ hn)) (fun n hn => h2 n (List.mem_cons_of_mem _ hn)) h4
      rw [hex_inj (h1 a List.mem_cons_self) (h2 b List.mem_cons_self) h3, h5]
      exact ⟨rfl, h6⟩

theorem lineText_head {j : Nat} (hj : j < 10) (a : Nat) (l : List Nat) :
    ∃ c q, lineText j (a :: l) = c :: q ∧ dec j = [c] := by
  have h : dec j = [Nat.digitChar j] := by
    unfold dec
    rw [Nat.toDigits_of_lt_base hj]
  refine ⟨Nat.digitChar j, [':', ' '] ++ hex a ++ (l.map fun b => [',', ' '] ++ hex b).flatten ++ ['\n'], ?_, h⟩
  rw [lineText, h]
  rfl

/-- the text of the lines and what follows starts with a line break or the number of one of the bits -/
theorem linesText_head (r : List Char) : ∀ (js : List Nat) (ls : List (List Nat)), (∀ j ∈ js, j < 10) →
    ∃ c q, linesText js ls ++ '\n' :: r = c :: q ∧ (c = '\n' ∨ ∃ j ∈ js, dec j = [c]) := by
  intro js
  induction js with
  | nil => intro ls _; cases ls <;> exact ⟨'\n', r, rfl, .inl rfl⟩
  | cons j js ih =>
    intro ls hj
    cases ls with
    | nil => exact ⟨'\n', r, rfl, .inl rfl⟩
    | cons l ls =>
      cases l with
      | nil =>
        obtain ⟨c, q, h1, h2⟩ := ih ls (fun i hi => hj i (List.mem_cons_of_mem _ hi))
        refine ⟨c, q, ?_, ?_⟩
        · rw [linesText, lineText, List.nil_append]
          exact h1
        · rcases h2 with h2 | ⟨i, hi, h2⟩
          · exact .inl h2
          · exact .inr ⟨i, List.mem_cons_of_mem _ hi, h2⟩
      | cons a l =>
        obtain ⟨c, q, h1, h2⟩ := lineText_head (j := j) (hj j List.mem_cons_self) a l
        refine ⟨c, q ++ linesText js ls ++ '\n' :: r, ?_, .inr ⟨j, List.mem_cons_self, h2⟩⟩
        rw [linesText, h1, List.cons_append, List.cons_append]

theorem linesText_inj : ∀ {js : List Nat} {ls ls' : List (List Nat)} {r r' : List Char}, js.Nodup → (∀ j ∈ js, j < 10) →
    ls.length = js.length → ls'.length = js.length → (∀ l ∈ ls, ∀ n ∈ l, n < 256) → (∀ l ∈ ls', ∀ n ∈ l, n < 256) →
    linesText js ls ++ '\n' :: r = linesText js ls' ++ '\n' :: r' → ls = ls' ∧ r = r' := by
  intro js
  induction js with
  | nil =>
    intro ls ls' r r' _ _ h1 h2 _ _ h
    obtain rfl := List.length_eq_zero_iff.mp h1
    obtain rfl := List.length_eq_zero_iff.mp h2
    exact ⟨rfl, by simpa [linesText] using h⟩
  | cons j js ih =>
    intro ls ls' r r' hd hj h1 h2 hb hb' h
    obtain ⟨hjs, hd⟩ := List.nodup_cons.mp hd
    cases ls with
    | nil => simp at h1
    | cons l ls =>
    cases ls' with
    | nil => simp at h2
    | cons l' ls' =>
      have hj' : ∀ i ∈ js, i < 10 := fun i hi => hj i (List.mem_cons_of_mem _ hi)
      have hl := hb l List.mem_cons_self
      have hl' := hb' l' List.mem_cons_self
      have ih' := fun {r r'} => ih (ls := ls) (ls' := ls') (r := r) (r' := r') hd hj' (by simpa using h1) (by simpa using h2)
        (fun l hl => hb l (List.mem_cons_of_mem _ hl)) (fun l hl => hb' l (List.mem_cons_of_mem _ hl))
      have hne : ∀ (a : Nat) (l : List Nat) (m m' : List (List Nat)) (q q' : List Char),
          lineText j (a :: l) ++ linesText js m ++ '\n' :: q ≠ linesText js m' ++ '\n' :: q' := by
        intro a l m m' q q' he
        obtain ⟨c, t, e, hc⟩ := linesText_head q' js m' hj'
        obtain ⟨c', t', e', hc'⟩ := lineText_head (j := j) (hj j List.mem_cons_self) a l
        rw [e, e', List.cons_append, List.cons_append, List.cons.injEq] at he
        rw [he.1] at hc'
        rcases hc with rfl | ⟨k, hk, hc⟩
        · exact absurd (dec_digit (n := j) (c := '\n') (by rw [hc']; exact List.mem_cons_self)) (by decide)
        · rw [← hc] at hc'
          exact hjs (by rw [dec_inj hc']; exact hk)
      cases l with
      | nil =>
        cases l' with
        | nil =>
          rw [linesText, linesText, lineText, List.nil_append, List.nil_append] at h
          obtain ⟨h3, h4⟩ := ih' h
          rw [h3]
          exact ⟨rfl, h4⟩
        | cons a l' =>
          rw [linesText, lineText, List.nil_append, linesText] at h
          exact absurd h.symm (hne a l' ls' ls r' r)
      | cons a l =>
        cases l' with
        | nil =>
          rw [linesText, linesText, lineText, List.nil_append] at h
          exact absurd h (hne a l ls ls' r r')
        | cons b l' =>
          rw [linesText, linesText, lineText, lineText] at h
          simp only [List.append_assoc] at h
          have h := List.append_cancel_left (List.append_cancel_left h)
          have key : ∀ (l : List Nat) (r : List Char), ∃ c q, numChar c = false ∧
              (l.map fun b => [',', ' '] ++ hex b).flatten ++ '\n' :: r = c :: q := by
            intro l r
            cases l with
            | nil => exact ⟨_, _, by decide, rfl⟩
            | cons => exact ⟨_, _, by decide, rfl⟩
          obtain ⟨c, q, hc, e⟩ := key l (linesText js ls ++ '\n' :: r)
          obtain ⟨c', q', hc', e'⟩ := key l' (linesText js ls' ++ '\n' :: r')
          simp only [List.cons_append, List.nil_append] at h e e'
          rw [e, e'] at h
          obtain ⟨h3, h4⟩ := split_first (numChar_hex (hl a List.mem_cons_self)) (numChar_hex (hl' b List.mem_cons_self)) hc hc' h
          rw [← e, ← e'] at h4
          obtain ⟨h5, h6⟩ := rest_inj (fun n hn => hl n (List.mem_cons_of_mem _ hn))
            (fun n hn => hl' n (List.mem_cons_of_mem _ hn)) h4
          obtain ⟨h7, h8⟩ := ih' h6
          rw [hex_inj (hl a List.mem_cons_self) (hl' b List.mem_cons_self) h3, h5, h7]
          exact ⟨rfl, h8⟩

/-- what can be printed: bytes with eight lines of numbers below 256 each -/
def Fit (d : List (Nat × List (List Nat))) : Prop :=
  ∀ p ∈ d, p.1 < 256 ∧ p.2.length = 8 ∧ ∀ l ∈ p.2, ∀ n ∈ l, n < 256

theorem char_small : ∀ n < 256, (Char.ofNat n).toNat = n := by decide +kernel

theorem bytesText_inj : ∀ {d d' : List (Nat × List (List Nat))} (i : Nat), Fit d → Fit d' → bytesText i d = bytesText i d' →
    d = d' := by
  intro d
  induction d with
  | nil =>
    intro d' i _ _ h
    cases d' with
    | nil => rfl
    | cons p d' => simp [bytesText, byteText] at h
  | cons p d ih =>
    intro d' i hf hf' h
    cases d' with
    | nil => simp [bytesText, byteText] at h
    | cons p' d' =>
      obtain ⟨x, ls⟩ := p
      obtain ⟨x', ls'⟩ := p'
      obtain ⟨f1, f2, f3⟩ := hf _ List.mem_cons_self
      obtain ⟨g1, g2, g3⟩ := hf' _ List.mem_cons_self
      dsimp only at f1 f2 f3 g1 g2 g3
      rw [bytesText, bytesText, byteText, byteText] at h
      simp only [List.append_assoc] at h
      have h := List.append_cancel_left (List.append_cancel_left h)
      simp only [List.cons_append, List.nil_append, List.cons.injEq, true_and] at h
      obtain ⟨h1, h⟩ := h
      obtain ⟨h2, h3⟩ := linesText_inj (by decide) (by decide) f2 g2 f3 g3 h
      have hx : x = x' := by
        have e1 := char_small x f1
        have e2 := char_small x' g1
        rw [h1] at e1
        omega
      rw [hx, h2, ih (i + 1) (fun p hp => hf p (List.mem_cons_of_mem _ hp)) (fun p hp => hf' p (List.mem_cons_of_mem _ hp)) h3]

/-! ## The text of a file -/

theorem bytesText_range (f : Nat → Nat) (g : Nat → List (List Nat)) : ∀ (n i : Nat),
    bytesText i ((List.range n).map fun k => (f k, g k)) = ((List.range n).map fun k => byteText (i + k) (f k) (g k)).flatten := by
  intro n
  induction n generalizing f g with
  | zero => intro i; rfl
  | succ n ih =>
    intro i
    rw [List.range_succ_eq_map, List.map_cons, List.map_map, List.map_cons, List.map_map, bytesText, List.flatten_cons]
    congr 1
    have := ih (fun k => f (k + 1)) (fun k => g (k + 1)) (i + 1)
    change bytesText (i + 1) ((List.range n).map fun k => (f (k + 1), g (k + 1))) = _
    rw [this]
    congr 1
    refine List.map_congr_left fun k _ => ?_
    rw [Function.comp_apply, Nat.succ_eq_add_one, show i + 1 + k = i + (k + 1) by omega]

theorem lineText_eq (j : Nat) (line : List Nat) : lineText (7 - j) line = (wantedLineText j line).toList := by
  cases line with
  | nil => rfl
  | cons a l =>
    unfold wantedLineText
    rw [if_neg (by simp), lineText]
    have key : ∀ a, hex a ++ (l.map fun b => [',', ' '] ++ hex b).flatten =
        (", ".intercalate ((a :: l).map hexString)).toList := by
      induction l with
      | nil => intro a; simp [hexString, hex]
      | cons b l ih =>
        intro a
        have := ih b
        rw [String.toList_intercalate] at this ⊢
        simp only [List.map_cons, List.flatten_cons] at this ⊢
        rw [List.intercalate_cons_cons, ← this]
        simp [hexString, hex]
    have h := key a
    simp only [List.append_assoc] at h ⊢
    simp only [String.toList_append, toString]
    rw [← h]
    simp [dec, Nat.toList_repr]

theorem wantedText_eq (input : List Nat) : bytesText 0 (wanted input) = (wantedText input).toList := by
  unfold wanted wantedText
  rw [bytesText_range, String.toList_join, List.flatMap_map, List.flatMap_def]
  congr 1
  refine List.map_congr_left fun i _ => ?_
  have h1 : ∀ x : Nat, byteIntro ++ dec i ++ [',', ' ', Char.ofNat x, '\n'] =
      (s!"Processing byte with index: {i}, {Char.ofNat x}\n").toList := by
    intro x
    simp only [String.toList_append, toString, Nat.toList_repr]
    unfold byteIntro
    generalize "Processing byte with index: ".toList = u
    simp [dec]
  have h2 : ∀ g : Nat → List Nat, linesText [7, 6, 5, 4, 3, 2, 1, 0] ((List.range 8).map g) =
      (String.join ((List.range 8).map fun j => wantedLineText j (g j))).toList := by
    intro g
    rw [String.toList_join, List.flatMap_map]
    simp only [← lineText_eq]
    rw [show List.range 8 = [0, 1, 2, 3, 4, 5, 6, 7] from rfl]
    simp only [linesText, List.map_cons, List.map_nil, List.flatMap_cons, List.flatMap_nil, Nat.sub_zero, Nat.reduceSub]
  rw [String.toList_append, String.toList_append, byteText, Nat.zero_add, h1, h2]
  rfl

/-- **C80.** For every non-empty file of up to 2^31 bytes, whatever the kind of source and the hash function, the program
prints the text of the specification. -/
theorem C80_text (luts : Luts) (hL : LutsOk luts) (hash : HashFn) (input : List Nat) (h0 : input ≠ [])
    (hn : input.length ≤ 2 ^ 31) (kind : Kind) : printKindText hash luts input kind = some (wantedText input).toList := by
  unfold printKindText
  rw [C68_same_text luts hL hash input h0 hn kind, ob_some, wantedText_eq]

theorem wantedLine_small (hist : List Bool) : ∀ n ∈ wantedLine hist, n < 256 := by
  intro n hn
  obtain ⟨k, -, rfl⟩ := List.mem_map.mp hn
  have h1 := Bits.enc_lt (Bits.lastN 7 (following hist k))
  have h2 : (Bits.lastN 7 (following hist k)).length ≤ 7 := by rw [Bits.lastN_length]; omega
  have := Nat.pow_le_pow_right (n := 2) (by decide) (show (Bits.lastN 7 (following hist k)).length + 1 ≤ 8 by omega)
  omega

theorem wanted_fit {input : List Nat} (h : ∀ x ∈ input, x < 256) : Fit (wanted input) := by
  intro p hp
  obtain ⟨i, hi, rfl⟩ := List.mem_map.mp hp
  rw [List.mem_range] at hi
  refine ⟨?_, by simp, ?_⟩
  · dsimp only
    rw [List.getD_eq_getElem?_getD, List.getElem?_eq_getElem (by omega), Option.getD_some]
    exact h _ (List.getElem_mem _)
  · intro l hl n hn
    obtain ⟨j, -, rfl⟩ := List.mem_map.mp hl
    exact wantedLine_small _ n hn

theorem wanted_fst (input : List Nat) : (wanted input).map Prod.fst = input.take 1234 := by
  unfold wanted
  rw [List.map_map]
  apply List.ext_getElem?
  intro i
  by_cases hi : i < min 1234 input.length
  · rw [List.getElem?_map, List.getElem?_range hi, List.getElem?_take_of_lt (by omega), Option.map_some,
      Function.comp_apply, List.getD_eq_getElem?_getD, List.getElem?_eq_getElem (by omega), Option.getD_some]
  · rw [List.getElem?_eq_none (by simp; omega), List.getElem?_eq_none (by simp; omega)]

theorem wanted_take (input : List Nat) : wanted (input.take 1234) = wanted input := by
  unfold wanted
  rw [List.length_take, min_eq_right (min_le_left _ _)]
  refine List.map_congr_left fun i hi => ?_
  rw [List.mem_range] at hi
  refine Prod.ext ?_ ?_
  · dsimp only
    rw [List.getD_eq_getElem?_getD, List.getElem?_take_of_lt (by omega), List.getD_eq_getElem?_getD]
  · dsimp only
    refine List.map_congr_left fun j hj => ?_
    rw [List.mem_range] at hj
    have hs : fileBits input = fileBits (input.take 1234) ++ fileBits (input.drop 1234) := by
      rw [← fileBits_append, List.take_append_drop]
    rw [hs, List.take_append_of_le_length (by rw [fileBits_length, List.length_take]; omega)]

/-- **C80.** The text for a file depends on its first 1234 bytes only, and they can be read from it (also if some of them
are line breaks). -/
theorem C80_readable {a b : List Nat} (ha : ∀ x ∈ a, x < 256) (hb : ∀ x ∈ b, x < 256) :
    wantedText a = wantedText b ↔ a.take 1234 = b.take 1234 := by
  constructor
  · intro h
    have h := congrArg String.toList h
    rw [← wantedText_eq, ← wantedText_eq] at h
    rw [← wanted_fst, ← wanted_fst, bytesText_inj 0 (wanted_fit ha) (wanted_fit hb) h]
  · intro h
    rw [← String.toList_inj, ← wantedText_eq, ← wantedText_eq, ← wanted_take a, ← wanted_take b, h]

/-- the text for two bytes `A` -/
example : wantedText [65, 65] = "Processing byte with index: 0, A\n\nProcessing byte with index: 1, A\n7: 2\n6: 3\n" ++
    "5: 2\n4: 2\n3: 2\n2: 2\n1: 2\n0: 3\n\n" := by
  decide +kernel

/-- the hypotheses are met -/
example : ∃ luts, LutsOk luts ∧ ∀ kind, printKindText (fun _ _ _ => 0) luts [65, 65] kind = some (wantedText [65, 65]).toList := by
  obtain ⟨luts, h⟩ := luts_exist
  exact ⟨luts, h, C80_text luts h _ _ (by simp) (by simp)⟩

end Verif.Bin
