import Mathlib.Tactic.Ring
import Mathlib.Tactic.Linarith
import Mathlib.Data.List.Induction

/-!
# Bit lists as numbers (specification vocabulary)

Lists of bits, first bit most significant.
-/

namespace Verif.Bits

/-- the number written by a list of bits, first bit most significant -/
def val (l : List Bool) : Nat := l.foldl (fun a b => 2 * a + b.toNat) 0

/-- the bits with a leading one: records the length as well -/
def enc (l : List Bool) : Nat := 2 ^ l.length + val l

/-- the last `k` elements -/
def lastN {α : Type} (k : Nat) (l : List α) : List α := l.drop (l.length - k)

@[simp] theorem val_nil : val [] = 0 := rfl

theorem val_snoc (l : List Bool) (b : Bool) : val (l ++ [b]) = 2 * val l + b.toNat := by
  unfold val; rw [List.foldl_append]; rfl

theorem foldl_val (l : List Bool) : ∀ a : Nat,
    l.foldl (fun a b => 2 * a + b.toNat) a = a * 2 ^ l.length + val l := by
  induction l using List.reverseRecOn with
  | nil => intro a; simp [val]
  | append_singleton l b ih =>
    intro a
    rw [List.foldl_append, ih, val_snoc, List.length_append, List.length_singleton, pow_succ]
    simp only [List.foldl_cons, List.foldl_nil]
    ring

theorem val_append (l m : List Bool) : val (l ++ m) = val l * 2 ^ m.length + val m := by
  unfold val; rw [List.foldl_append]; exact foldl_val m _

theorem val_cons (b : Bool) (l : List Bool) : val (b :: l) = b.toNat * 2 ^ l.length + val l := by
  have := val_append [b] l
  rw [List.singleton_append] at this
  rw [this]; simp [val]

theorem val_lt (l : List Bool) : val l < 2 ^ l.length := by
  induction l using List.reverseRecOn with
  | nil => simp
  | append_singleton l b ih =>
    rw [val_snoc, List.length_append, List.length_singleton, pow_succ]
    cases b <;> simp <;> omega

theorem val_inj : ∀ {l m : List Bool}, l.length = m.length → val l = val m → l = m := by
  intro l
  induction l using List.reverseRecOn with
  | nil =>
    intro m h _
    cases m with
    | nil => rfl
    | cons => simp at h
  | append_singleton l b ih =>
    intro m h hv
    induction m using List.reverseRecOn with
    | nil => simp at h
    | append_singleton m c _ =>
      rw [List.length_append, List.length_append, List.length_singleton, List.length_singleton] at h
      rw [val_snoc, val_snoc] at hv
      have hb : b = c ∧ val l = val m := by
        cases b <;> cases c <;> simp at hv ⊢ <;> omega
      rw [hb.1, ih (by omega) hb.2]

theorem enc_lt (l : List Bool) : enc l < 2 ^ (l.length + 1) := by
  have := val_lt l
  unfold enc
  rw [pow_succ]; omega

theorem enc_snoc (l : List Bool) (b : Bool) : enc (l ++ [b]) = 2 * enc l + b.toNat := by
  unfold enc
  rw [val_snoc, List.length_append, List.length_singleton, pow_succ]; ring

/-- the encoding determines the bits and how many there are -/
theorem enc_inj {l m : List Bool} (h : enc l = enc m) : l = m := by
  have h1 := val_lt l
  have h2 := val_lt m
  have hlen : l.length = m.length := by
    unfold enc at h
    rcases lt_trichotomy l.length m.length with hc | hc | hc
    · have : 2 ^ (l.length + 1) ≤ 2 ^ m.length := Nat.pow_le_pow_right (by norm_num) hc
      rw [pow_succ] at this; omega
    · exact hc
    · have : 2 ^ (m.length + 1) ≤ 2 ^ l.length := Nat.pow_le_pow_right (by norm_num) hc
      rw [pow_succ] at this; omega
  apply val_inj hlen
  unfold enc at h
  rw [hlen] at h
  omega

theorem log2_enc (l : List Bool) : Nat.log2 (enc l) = l.length := by
  have h1 := val_lt l
  rw [Nat.log2_eq_iff (by unfold enc; positivity)]
  constructor
  · unfold enc; omega
  · exact enc_lt l

theorem lastN_length {α : Type} (k : Nat) (l : List α) : (lastN k l).length = min k l.length := by
  unfold lastN; rw [List.length_drop]; omega

theorem lastN_of_le {α : Type} {k : Nat} {l : List α} (h : l.length ≤ k) : lastN k l = l := by
  unfold lastN; rw [Nat.sub_eq_zero_of_le h, List.drop_zero]

theorem lastN_snoc {α : Type} {k : Nat} (l : List α) (b : α) :
    lastN (k + 1) (l ++ [b]) = lastN k l ++ [b] := by
  unfold lastN
  rw [List.length_append, List.length_singleton, show l.length + 1 - (k + 1) = l.length - k by omega,
    List.drop_append_of_le_length (by omega)]

theorem lastN_lastN {α : Type} {j k : Nat} (h : j ≤ k) (l : List α) :
    lastN j (lastN k l) = lastN j l := by
  unfold lastN
  rw [List.drop_drop, List.length_drop]
  congr 1
  omega

theorem val_replicate_false (n : Nat) : val (List.replicate n false) = 0 := by
  induction n with
  | zero => rfl
  | succ n ih => rw [List.replicate_succ, val_cons, ih]; simp

theorem val_replicate_true (n : Nat) : val (List.replicate n true) = 2 ^ n - 1 := by
  induction n with
  | zero => rfl
  | succ n ih =>
    rw [List.replicate_succ, val_cons, ih, List.length_replicate, pow_succ]
    have : 1 ≤ 2 ^ n := Nat.one_le_two_pow
    simp; omega

end Verif.Bits
