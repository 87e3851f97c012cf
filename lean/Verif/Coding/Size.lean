import Verif.Coding.Props
import Mathlib.Analysis.SpecialFunctions.Log.Base

/-! # Size in bits (C03) -/

namespace Verif.Coding

open Verif

theorem prod_pos' : ∀ l : List Nat, (∀ x ∈ l, 0 < x) → 0 < l.prod := by
  intro l
  induction l with
  | nil => intro _; simp
  | cons a l ih =>
    intro h
    rw [List.prod_cons]
    exact Nat.mul_pos (h a (by simp)) (ih fun x hx => h x (by simp [hx]))

/-- information content of a share in bits -/
noncomputable def contentOf (s : Nat × Nat) : ℝ := -Real.logb 2 ((s.1 : ℝ) / s.2)

theorem content_sum {α : Type} (f : α → Nat × Nat) : ∀ l : List α, (∀ a ∈ l, 0 < (f a).1 ∧ 0 < (f a).2) →
    (l.map fun a => contentOf (f a)).sum = Real.logb 2 ((l.map fun a => (f a).2).prod : ℕ) -
      Real.logb 2 ((l.map fun a => (f a).1).prod : ℕ) := by
  intro l
  induction l with
  | nil => intro _; simp
  | cons a l ih =>
    intro h
    obtain ⟨h1, h2⟩ := h a (by simp)
    have hl : ∀ b ∈ l, 0 < (f b).1 ∧ 0 < (f b).2 := fun b hb => h b (by simp [hb])
    have p1 := (prod_pos' (l.map fun a => (f a).1) (by
      intro x hx; obtain ⟨b, hb, rfl⟩ := List.mem_map.mp hx; exact (hl b hb).1))
    have p2 := (prod_pos' (l.map fun a => (f a).2) (by
      intro x hx; obtain ⟨b, hb, rfl⟩ := List.mem_map.mp hx; exact (hl b hb).2))
    rw [List.map_cons, List.sum_cons, ih hl, List.map_cons, List.prod_cons, List.map_cons, List.prod_cons, Nat.cast_mul,
      Nat.cast_mul, Real.logb_mul (by exact_mod_cast h2.ne') (by exact_mod_cast p2.ne'),
      Real.logb_mul (by exact_mod_cast h1.ne') (by exact_mod_cast p1.ne')]
    unfold contentOf
    rw [Real.logb_div (by exact_mod_cast h1.ne') (by exact_mod_cast h2.ne')]
    ring

theorem share_pos {ev : Event} (h : ev.Valid) : 0 < (share ev).1 ∧ 0 < (share ev).2 := by
  cases ev with
  | bit p v =>
    obtain ⟨h1, h2⟩ := h
    cases v with
    | false => exact ⟨Nat.mul_pos h1 h1, Nat.mul_pos (by omega) (by norm_num)⟩
    | true => exact ⟨by unfold share; dsimp only; omega, by unfold share; norm_num⟩
  | rare v => cases v <;> simp [share]

theorem shareMost_pos {ev : Event} (h : ev.Valid) : 0 < (shareMost ev).1 ∧ 0 < (shareMost ev).2 := by
  cases ev with
  | bit p v =>
    obtain ⟨h1, h2⟩ := h
    cases v with
    | false => exact ⟨h1, by unfold shareMost; norm_num⟩
    | true => exact ⟨by unfold shareMost; dsimp only; omega, by unfold shareMost; norm_num⟩
  | rare v => cases v <;> simp [shareMost]

theorem bits_emitted (evs : List Event) (hv : ∀ ev ∈ evs, ev.Valid) :
    (evs.map fun ev => contentOf (shareMost ev)).sum - 31 ≤ 8 * (emitted evs : ℝ) ∧
      8 * (emitted evs : ℝ) ≤ (evs.map fun ev => contentOf (share ev)).sum := by
  have h2 := size_emitted evs hv
  have h2' := size_lower_emitted evs hv
  have hpos := fun ev (h : ev ∈ evs) => share_pos (hv ev h)
  have hposM := fun ev (h : ev ∈ evs) => shareMost_pos (hv ev h)
  have p1 := prod_pos' (evs.map fun ev => (share ev).1) (by
    intro x hx; obtain ⟨b, hb, rfl⟩ := List.mem_map.mp hx; exact (hpos b hb).1)
  have p2 := prod_pos' (evs.map fun ev => (shareMost ev).1) (by
    intro x hx; obtain ⟨b, hb, rfl⟩ := List.mem_map.mp hx; exact (hposM b hb).1)
  have p3 := prod_pos' (evs.map fun ev => (shareMost ev).2) (by
    intro x hx; obtain ⟨b, hb, rfl⟩ := List.mem_map.mp hx; exact (hposM b hb).2)
  rw [content_sum _ _ hpos, content_sum _ _ hposM]
  generalize emitted evs = n at *
  generalize (evs.map fun ev => (share ev).1).prod = A at *
  generalize (evs.map fun ev => (share ev).2).prod = B at *
  generalize (evs.map fun ev => (shareMost ev).1).prod = C at *
  generalize (evs.map fun ev => (shareMost ev).2).prod = D at *
  have l256 : Real.logb 2 ((256 : ℝ) ^ n) = 8 * n := by
    rw [Real.logb_pow, show (256 : ℝ) = 2 ^ (8 : ℕ) by norm_num, Real.logb_pow, Real.logb_self_eq_one (by norm_num)]
    push_cast; ring
  have k1 : Real.logb 2 ((256 : ℝ) ^ n * A) ≤ Real.logb 2 B := by
    apply Real.logb_le_logb_of_le (by norm_num) (by positivity)
    exact_mod_cast h2
  rw [Real.logb_mul (by positivity) (by exact_mod_cast p1.ne'), l256] at k1
  have k2 : Real.logb 2 (D : ℝ) ≤ Real.logb 2 (2 ^ 31 * (256 : ℝ) ^ n * C) := by
    apply Real.logb_le_logb_of_le (by norm_num) (by exact_mod_cast p3)
    have : D ≤ 2 ^ 31 * 256 ^ n * C :=
      h2'.trans (Nat.mul_le_mul_right _ (Nat.mul_le_mul_right _ (by norm_num)))
    exact_mod_cast this
  rw [Real.logb_mul (by positivity) (by exact_mod_cast p2.ne'), Real.logb_mul (by positivity) (by positivity), l256,
    Real.logb_pow, Real.logb_self_eq_one (by norm_num)] at k2
  push_cast at *
  constructor <;> linarith

/-- **C03 (bits).** The size in bits, without the four final bytes, lies between the information contents of the events
for their largest (less 31 bits) and for their guaranteed shares. -/
theorem C03_bits (evs : List Event) (hv : ∀ ev ∈ evs, ev.Valid) (hlen : emitted evs + 5 < 2 ^ 31) :
    ∃ bytes, encode evs = some bytes ∧ 4 ≤ bytes.length ∧
      (evs.map fun ev => contentOf (shareMost ev)).sum - 31 ≤ 8 * ((bytes.length : ℝ) - 4) ∧
      8 * ((bytes.length : ℝ) - 4) ≤ (evs.map fun ev => contentOf (share ev)).sum := by
  obtain ⟨bytes, h1, h2, -⟩ := C03_length evs hv hlen
  obtain ⟨k1, k2⟩ := bits_emitted evs hv
  have e : (bytes.length : ℝ) - 4 = emitted evs := by
    rw [h2]
    push_cast
    ring
  exact ⟨bytes, h1, by omega, by rw [e]; exact k1, by rw [e]; exact k2⟩

/-- certain and uncertain bits meet the hypotheses -/
example : (∀ ev ∈ [Event.bit 1 true, .bit (2 ^ 22) false, .bit (2 ^ 23 - 1) false, .rare true], ev.Valid) ∧
    emitted [Event.bit 1 true, .bit (2 ^ 22) false, .bit (2 ^ 23 - 1) false, .rare true] + 5 < 2 ^ 31 := by
  refine ⟨?_, by decide⟩
  intro ev hev
  simp only [List.mem_cons, List.not_mem_nil, or_false] at hev
  rcases hev with rfl | rfl | rfl | rfl
  · exact ⟨by decide, by decide⟩
  · exact ⟨by decide, by decide⟩
  · exact ⟨by decide, by decide⟩
  · trivial

end Verif.Coding
