import Verif.Fixed.Convert

/-!
# Rounding as a function

`rnd z s` is the number singled out by `Nearest z s`.
-/

namespace Verif.Mix

open Verif Verif.Fixed

/-- `z / 2 ^ s` rounded to nearest, ties away from zero -/
def rnd (z : Int) (s : Nat) : Int :=
  if 0 ≤ z then (z + 2 ^ s / 2) / 2 ^ s else -((-z + 2 ^ s / 2) / 2 ^ s)

theorem rnd_neg (z : Int) (s : Nat) : rnd (-z) s = -rnd z s := by
  unfold rnd
  rcases lt_trichotomy z 0 with h | h | h
  · rw [if_pos (by omega), if_neg (by omega)]; omega
  · subst h
    have h2 : (0 : Int) < 2 ^ s := by positivity
    generalize (2 : Int) ^ s = d at *
    have : (0 + d / 2) / d = 0 := Int.ediv_eq_zero_of_lt (by omega) (by omega)
    simp [this] at *
    rw [this]; rfl
  · rw [if_neg (by omega), if_pos (by omega), neg_neg]

theorem nearest_nonneg {z : Int} (hz : 0 ≤ z) {s : Nat} (hs : 1 ≤ s) : Nearest z s ((z + 2 ^ s / 2) / 2 ^ s) := by
  obtain ⟨n, rfl⟩ := Int.eq_ofNat_of_zero_le hz
  have h := nearest_nat n s hs
  have e : (((n + 2 ^ (s - 1)) / 2 ^ s : Nat) : Int) = ((n : Int) + 2 ^ s / 2) / 2 ^ s := by
    obtain ⟨t, rfl⟩ : ∃ t, s = t + 1 := ⟨s - 1, by omega⟩
    have : (2 : Int) ^ (t + 1) / 2 = 2 ^ t := by rw [pow_succ]; omega
    rw [this]
    push_cast
    rfl
  rw [← e]
  exact h

theorem rnd_nearest (z : Int) {s : Nat} (hs : 1 ≤ s) : Nearest z s (rnd z s) := by
  by_cases h : 0 ≤ z
  · unfold rnd
    rw [if_pos h]
    exact nearest_nonneg h hs
  · have h1 := nearest_nonneg (z := -z) (by omega) hs
    have h2 := (nearest_iff _ _ _).mp h1
    have h3 := h2.neg
    rw [neg_neg] at h3
    have h4 := (nearest_iff _ _ _).mpr h3
    unfold rnd
    rw [if_neg h]
    exact h4

theorem rnd_eq {z r : Int} {s : Nat} (hs : 1 ≤ s) (h : Nearest z s r) : r = rnd z s :=
  h.unique (rnd_nearest z hs)

theorem rnd_mono {z y : Int} (s : Nat) (h : z ≤ y) : rnd z s ≤ rnd y s := by
  have h2 : (0 : Int) < 2 ^ s := by positivity
  unfold rnd
  generalize (2 : Int) ^ s = d at *
  have hd : 0 ≤ d / 2 := by omega
  by_cases hz : 0 ≤ z
  · rw [if_pos hz, if_pos (by omega)]
    exact Int.ediv_le_ediv h2 (by omega)
  · rw [if_neg hz]
    have a1 : 0 ≤ (-z + d / 2) / d := Int.ediv_nonneg (by omega) (by omega)
    by_cases hy : 0 ≤ y
    · rw [if_pos hy]
      have a2 : 0 ≤ (y + d / 2) / d := Int.ediv_nonneg (by omega) (by omega)
      omega
    · rw [if_neg hy]
      have := Int.ediv_le_ediv h2 (show -y + d / 2 ≤ -z + d / 2 by omega)
      omega

theorem rnd_mul (k : Int) {s : Nat} (hs : 1 ≤ s) : rnd (k * 2 ^ s) s = k := by
  refine (rnd_eq hs ?_).symm
  unfold Nearest
  have h2 : (0 : Int) < 2 ^ s := by positivity
  rw [sub_self, abs_zero]
  exact ⟨by omega, fun h => by omega⟩

theorem rnd_zero {s : Nat} (hs : 1 ≤ s) : rnd 0 s = 0 := by
  have := rnd_mul 0 hs
  rwa [zero_mul] at this

theorem rnd_le {z k : Int} {s : Nat} (hs : 1 ≤ s) (h : z ≤ k * 2 ^ s) : rnd z s ≤ k := by
  have := rnd_mono s h
  rwa [rnd_mul k hs] at this

theorem le_rnd {z k : Int} {s : Nat} (hs : 1 ≤ s) (h : k * 2 ^ s ≤ z) : k ≤ rnd z s := by
  have := rnd_mono s h
  rwa [rnd_mul k hs] at this

theorem rnd_abs_le {z k : Int} {s : Nat} (hs : 1 ≤ s) (h : |z| ≤ k * 2 ^ s) : |rnd z s| ≤ k := by
  obtain ⟨h1, h2⟩ := abs_le.mp h
  rw [abs_le]
  refine ⟨?_, rnd_le hs h2⟩
  exact le_rnd hs (by rw [neg_mul]; exact h1)

theorem rnd_err (z : Int) {s : Nat} (hs : 1 ≤ s) : 2 * |rnd z s * 2 ^ s - z| ≤ 2 ^ s :=
  (rnd_nearest z hs).1

end Verif.Mix
