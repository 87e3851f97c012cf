import Init.Data.Nat.ToString

/-!
# Numbers as printed text

Text is a list of characters. `{}` of an unsigned integer prints its decimal digits without leading zeros, `{:b}` and `{:x}`
the binary and the (lower case) hexadecimal ones. They are the digits of Lean's `Nat.toDigits`.
-/

namespace Verif.Text

/-- `{}` of an unsigned integer (as in `src/history/window.rs:43`) -/
def dec (n : Nat) : List Char := Nat.toDigits 10 n

/-- `{:b}` of an unsigned integer (as in `src/history/tree/node.rs:173`) -/
def bin (n : Nat) : List Char := Nat.toDigits 2 n

/-- `{:x}` of an unsigned integer (as in `src/bin/print_histories.rs:65`) -/
def hex (n : Nat) : List Char := Nat.toDigits 16 n

/-- `{}` of a signed integer (as in `src/history/tree/context.rs:81`) -/
def decInt (n : Int) : List Char := if n < 0 then '-' :: dec n.natAbs else dec n.natAbs

theorem dec_inj {m n : Nat} (h : dec m = dec n) : m = n := by
  have h1 := Nat.ofDigitChars_toDigits (b := 10) (n := m) (by decide) (by decide)
  have h2 := Nat.ofDigitChars_toDigits (b := 10) (n := n) (by decide) (by decide)
  unfold dec at h
  rw [h] at h1
  omega

theorem bin_inj {m n : Nat} (h : bin m = bin n) : m = n := by
  have h1 := Nat.ofDigitChars_toDigits (b := 2) (n := m) (by decide) (by decide)
  have h2 := Nat.ofDigitChars_toDigits (b := 2) (n := n) (by decide) (by decide)
  unfold bin at h
  rw [h] at h1
  omega

theorem dec_digit {n : Nat} {c : Char} (h : c ∈ dec n) : c.isDigit = true :=
  Nat.isDigit_of_mem_toDigits (by decide) (by decide) h

theorem bin_digit {n : Nat} {c : Char} (h : c ∈ bin n) : c.isDigit = true :=
  Nat.isDigit_of_mem_toDigits (by decide) (by decide) h

theorem dec_ne {n : Nat} {c : Char} (hc : c.isDigit = false) : c ∉ dec n := by
  intro h
  rw [dec_digit h] at hc
  cases hc

theorem bin_ne {n : Nat} {c : Char} (hc : c.isDigit = false) : c ∉ bin n := by
  intro h
  rw [bin_digit h] at hc
  cases hc

theorem dec_ne_nil (n : Nat) : dec n ≠ [] := Nat.toDigits_ne_nil

/-- text up to a character that does not occur in it can be read off -/
theorem split_at {c : Char} : ∀ {l l' r r' : List Char}, c ∉ l → c ∉ l' → l ++ c :: r = l' ++ c :: r' → l = l' ∧ r = r' := by
  intro l
  induction l with
  | nil =>
    intro l' r r' _ h2 h
    cases l' with
    | nil => exact ⟨rfl, by simpa using h⟩
    | cons a l' =>
      rw [List.nil_append, List.cons_append, List.cons.injEq] at h
      exact absurd (by rw [h.1]; exact List.mem_cons_self) h2
  | cons a l ih =>
    intro l' r r' h1 h2 h
    cases l' with
    | nil =>
      rw [List.nil_append, List.cons_append, List.cons.injEq] at h
      exact absurd (by rw [h.1]; exact List.mem_cons_self) h1
    | cons b l' =>
      rw [List.cons_append, List.cons_append, List.cons.injEq] at h
      obtain ⟨rfl, h⟩ := h
      obtain ⟨rfl, rfl⟩ := ih (fun h => h1 (List.mem_cons_of_mem _ h)) (fun h => h2 (List.mem_cons_of_mem _ h)) h
      exact ⟨rfl, rfl⟩

/-- text up to the first character of a kind that does not occur in it can be read off -/
theorem split_first {p : Char → Bool} : ∀ {l l' r r' : List Char} {c c' : Char}, (∀ a ∈ l, p a = true) →
    (∀ a ∈ l', p a = true) → p c = false → p c' = false → l ++ c :: r = l' ++ c' :: r' → l = l' ∧ c :: r = c' :: r' := by
  intro l l' r r' c c' h1 h2 h3 h4 h
  have e1 := congrArg (List.takeWhile p) h
  have e2 := congrArg (List.dropWhile p) h
  rw [List.takeWhile_append_of_pos h1, List.takeWhile_append_of_pos h2, List.takeWhile_cons_of_neg (by rw [h3]; simp),
    List.takeWhile_cons_of_neg (by rw [h4]; simp), List.append_nil, List.append_nil] at e1
  rw [List.dropWhile_append_of_pos h1, List.dropWhile_append_of_pos h2, List.dropWhile_cons_of_neg (by rw [h3]; simp),
    List.dropWhile_cons_of_neg (by rw [h4]; simp)] at e2
  exact ⟨e1, e2⟩

theorem decInt_char {n : Int} {c : Char} (h : c ∈ decInt n) : c = '-' ∨ c.isDigit = true := by
  unfold decInt at h
  split at h
  · rcases List.mem_cons.mp h with h | h
    · exact .inl h
    · exact .inr (dec_digit h)
  · exact .inr (dec_digit h)

theorem decInt_inj {m n : Int} (h : decInt m = decInt n) : m = n := by
  unfold decInt at h
  split at h <;> split at h
  · have := dec_inj (List.cons.inj h).2
    omega
  · exact absurd (by rw [← h]; exact List.mem_cons_self) (dec_ne (n := n.natAbs) (c := '-') (by decide))
  · exact absurd (by rw [h]; exact List.mem_cons_self) (dec_ne (n := m.natAbs) (c := '-') (by decide))
  · have := dec_inj h
    omega

example : dec 1234 = ['1', '2', '3', '4'] ∧ dec 0 = ['0'] ∧ bin 10 = ['1', '0', '1', '0'] ∧ hex 254 = ['f', 'e'] ∧
    decInt (-17) = ['-', '1', '7'] := by decide

end Verif.Text
