import Mathlib.Algebra.Order.Group.Unbundled.Int
import Mathlib.Algebra.Order.Ring.Abs
import Mathlib.Tactic.Ring
import Mathlib.Tactic.Linarith

/-!
# Specification of rounding

`Nearest raw s r` says that the integer `r` is the rational `raw / 2 ^ s` rounded to the nearest
integer, with exact ties going away from zero. It mentions no model definition.
-/

namespace Verif.Fixed

/-- `r` is `raw / 2 ^ s` rounded to nearest, ties away from zero. -/
def Nearest (raw : Int) (s : Nat) (r : Int) : Prop :=
  2 * |r * 2 ^ s - raw| ≤ 2 ^ s ∧ (2 * |r * 2 ^ s - raw| = 2 ^ s → |raw| < |r * 2 ^ s|)

/-- `r` is `raw / d` rounded to nearest, ties away from zero. -/
def NearestDiv (raw : Int) (d : Int) (r : Int) : Prop :=
  2 * |r * d - raw| ≤ d ∧ (2 * |r * d - raw| = d → |raw| < |r * d|)

theorem nearest_iff (raw : Int) (s : Nat) (r : Int) :
    Nearest raw s r ↔ NearestDiv raw (2 ^ s) r := Iff.rfl

/-- The specification determines the result. -/
theorem NearestDiv.unique {raw d r r' : Int} (hd : 0 < d) (h : NearestDiv raw d r)
    (h' : NearestDiv raw d r') : r = r' := by
  obtain ⟨h1, h2⟩ := h
  obtain ⟨h3, h4⟩ := h'
  by_contra hne
  wlog hlt : r < r' generalizing r r'
  · exact this h3 h4 h1 h2 (Ne.symm hne) (by omega)
  have hmul : r * d + d ≤ r' * d := by nlinarith
  have a1 := abs_le.mp (show |r * d - raw| ≤ |r * d - raw| from le_refl _)
  have a3 := abs_le.mp (show |r' * d - raw| ≤ |r' * d - raw| from le_refl _)
  have e1 : 2 * |r * d - raw| = d := by omega
  have e3 : 2 * |r' * d - raw| = d := by omega
  have b1 := h2 e1
  have b3 := h4 e3
  have f1 : 2 * raw = 2 * (r * d) + d := by omega
  have f3 : 2 * raw = 2 * (r' * d) - d := by omega
  have hrr : r' = r + 1 := by
    have : (r' - r - 1) * d = 0 := by linarith [show (r' - r - 1) * d = r' * d - r * d - d by ring]
    rcases Int.mul_eq_zero.mp this with h | h <;> omega
  subst hrr
  have hx : r * d ≤ -d ∨ 0 ≤ r * d := by
    rcases (by omega : r ≤ -1 ∨ 0 ≤ r) with h | h
    · left; nlinarith
    · right; positivity
  generalize r * d = x at *
  have g : (r + 1) * d = x + d := by omega
  rw [g] at b3
  have p1 : raw = x + |x - raw| := by omega
  rcases abs_cases raw with ⟨q, q'⟩ | ⟨q, q'⟩ <;> rcases abs_cases x with ⟨s, s'⟩ | ⟨s, s'⟩ <;>
    rcases abs_cases (x + d) with ⟨t, t'⟩ | ⟨t, t'⟩ <;> omega

theorem Nearest.unique {raw : Int} {s : Nat} {r r' : Int} (h : Nearest raw s r)
    (h' : Nearest raw s r') : r = r' :=
  NearestDiv.unique (by positivity) h h'

/-- Rounding is odd. -/
theorem NearestDiv.neg {raw d r : Int} (h : NearestDiv raw d r) : NearestDiv (-raw) d (-r) := by
  unfold NearestDiv at *
  have e : -r * d - -raw = -(r * d - raw) := by ring
  rw [e, abs_neg, abs_neg, neg_mul, abs_neg]
  exact h

/-- For naturals, rounding is `⌊(raw + d / 2) / d⌋`, whatever the parity of `d`. -/
theorem nearestDiv_nat (raw d : Nat) (hd : 0 < d) :
    NearestDiv raw d (((raw + d / 2) / d : Nat) : Int) := by
  have h1 := Nat.div_add_mod (raw + d / 2) d
  have h2 := Nat.mod_lt (raw + d / 2) hd
  generalize (raw + d / 2) / d = q at *
  generalize (raw + d / 2) % d = m at *
  unfold NearestDiv
  have e : ((q : Int) * d) = ((d * q : Nat) : Int) := by push_cast; ring
  rw [e]
  generalize d * q = x at *
  constructor
  · rcases abs_cases ((x : Int) - raw) with ⟨q, q'⟩ | ⟨q, q'⟩ <;> omega
  · intro h
    rw [abs_of_nonneg (by omega), abs_of_nonneg (by omega)]
    rcases abs_cases ((x : Int) - raw) with ⟨q, q'⟩ | ⟨q, q'⟩ <;> omega

theorem nearest_nat (raw s : Nat) (hs : 1 ≤ s) :
    Nearest raw s (((raw + 2 ^ (s - 1)) / 2 ^ s : Nat) : Int) := by
  have h := nearestDiv_nat raw (2 ^ s) (by positivity)
  have e : 2 ^ s / 2 = 2 ^ (s - 1) := by
    obtain ⟨k, rfl⟩ : ∃ k, s = k + 1 := ⟨s - 1, by omega⟩
    simp [pow_succ]
  rw [e] at h
  unfold Nearest
  unfold NearestDiv at h
  push_cast at *
  exact h

end Verif.Fixed
