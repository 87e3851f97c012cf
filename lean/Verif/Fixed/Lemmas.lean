import Verif.Fixed.Model
import Verif.Fixed.Spec

/-! # Auxiliary lemmas about the fixed point model -/

namespace Verif.Fixed

open Verif

theorem wrapI_id {w : Nat} (hw : 1 ≤ w) {z : Int} (h1 : -2 ^ (w - 1) ≤ z) (h2 : z < 2 ^ (w - 1)) :
    wrapI w z = z := by
  unfold wrapI
  obtain ⟨k, rfl⟩ : ∃ k, w = k + 1 := ⟨w - 1, by omega⟩
  simp only [Nat.add_sub_cancel, pow_succ] at *
  rw [Int.emod_eq_of_lt] <;> omega

theorem pow_le_pow2 {a b : Nat} (h : a ≤ b) : (2 : Int) ^ a ≤ 2 ^ b := by
  exact_mod_cast Nat.pow_le_pow_right (by norm_num) h

/-- unsigned rounding in closed form -/
theorem scaledDownU_eq {w raw s : Nat} (hs : 1 ≤ s) (hsw : s < w) :
    scaledDownU w raw s = some (min (2 ^ w - 1) (raw + 2 ^ (s - 1)) / 2 ^ s) := by
  unfold scaledDownU satAddU
  rw [check_pos (by omega), check_pos hsw]
  rfl

theorem scaledDownU_nosat {w raw s : Nat} (hs : 1 ≤ s) (hsw : s < w)
    (h : raw + 2 ^ (s - 1) < 2 ^ w) :
    scaledDownU w raw s = some ((raw + 2 ^ (s - 1)) / 2 ^ s) := by
  rw [scaledDownU_eq hs hsw, Nat.min_eq_right (by omega)]

/-- signed rounding in terms of unsigned rounding: nonnegative case -/
theorem scaledDownI_nonneg {w : Nat} {raw : Nat} {s : Nat} (hs : 1 ≤ s) (hsw : s + 1 < w)
    (hr : raw < 2 ^ (w - 1)) :
    scaledDownI w raw s = if raw = 0 then some 0 else
      some ((min (2 ^ (w - 1) - 1) (raw + 2 ^ (s - 1)) / 2 ^ s : Nat) : Int) := by
  unfold scaledDownI
  rw [check_pos (by omega), check_pos (show s < w by omega)]
  have hp : (2 : Int) ^ s < 2 ^ (w - 1) := by
    exact_mod_cast Nat.pow_lt_pow_right (by norm_num) (by omega)
  have hp' : (2 : Int) ^ (s - 1) ≤ 2 ^ s := pow_le_pow2 (by omega)
  have hpos : (0 : Int) < 2 ^ (s - 1) := by positivity
  have hposs : (0 : Int) < 2 ^ s := by positivity
  have hr' : (raw : Int) < 2 ^ (w - 1) := by exact_mod_cast hr
  rw [wrapI_id (z := 2 ^ s) (by omega) (by omega) hp]
  simp only [Option.bind_eq_bind, Option.bind_some]
  by_cases h0 : raw = 0
  · subst h0
    simp only [Nat.cast_zero, Int.sign_zero, zero_mul, if_true]
    rw [wrapI_id (by omega) (by omega) (by omega)]
    unfold satAddI
    rw [show max (max (-2 ^ (w - 1)) (min (2 ^ (w - 1) - 1) ((0 : Int) + 0))) (-2 ^ (w - 1) + 1) = 0 by
      omega]
    simp
  · rw [if_neg h0, Int.sign_natCast_of_ne_zero h0, one_mul,
      wrapI_id (by omega) (by omega) (by omega)]
    unfold satAddI
    have e : max (max (-2 ^ (w - 1)) (min (2 ^ (w - 1) - 1) ((raw : Int) + 2 ^ (s - 1))))
        (-2 ^ (w - 1) + 1) = ((min (2 ^ (w - 1) - 1) (raw + 2 ^ (s - 1)) : Nat) : Int) := by
      have : ((2 ^ (w - 1) - 1 : Nat) : Int) = 2 ^ (w - 1) - 1 := by
        rw [Nat.cast_sub Nat.one_le_two_pow]; push_cast; rfl
      push_cast
      rw [this]
      omega
    rw [e, Int.tdiv_eq_ediv_of_nonneg (by positivity)]
    push_cast
    rfl

theorem scaledDownI_neg {w : Nat} {raw : Int} {s : Nat} (hs : 1 ≤ s) (hsw : s + 1 < w)
    (h1 : -2 ^ (w - 1) < raw) (h2 : raw < 2 ^ (w - 1)) :
    scaledDownI w (-raw) s = (scaledDownI w raw s).map (fun r => -r) := by
  unfold scaledDownI
  rw [check_pos (by omega), check_pos (show s < w by omega)]
  have hp : (2 : Int) ^ s < 2 ^ (w - 1) := by
    exact_mod_cast Nat.pow_lt_pow_right (by norm_num) (by omega)
  have hp' : (2 : Int) ^ (s - 1) ≤ 2 ^ s := pow_le_pow2 (by omega)
  have hpos : (0 : Int) < 2 ^ (s - 1) := by positivity
  have hposs : (0 : Int) < 2 ^ s := by positivity
  simp only [Option.bind_eq_bind, Option.bind_some, Option.map_some, Option.some.injEq]
  rw [← Int.neg_tdiv]
  congr 1
  have hsg : -1 ≤ raw.sign ∧ raw.sign ≤ 1 := by
    rcases lt_trichotomy raw 0 with h | h | h
    · rw [Int.sign_eq_neg_one_of_neg h]; omega
    · rw [h]; simp
    · rw [Int.sign_eq_one_of_pos h]; omega
  have hb : -2 ^ (w - 1) < raw.sign * 2 ^ (s - 1) ∧ raw.sign * 2 ^ (s - 1) < 2 ^ (w - 1) := by
    constructor <;> nlinarith
  rw [Int.sign_neg, neg_mul, wrapI_id (by omega) (by omega) (by omega),
    wrapI_id (z := raw.sign * 2 ^ (s - 1)) (by omega) (by omega) (by omega)]
  unfold satAddI
  omega

end Verif.Fixed
