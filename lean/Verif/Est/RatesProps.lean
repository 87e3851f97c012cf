import Verif.Est.Props

/-!
# C13, C14, C15 for any rate table and for any number of bits

`DeceleratingEstimatorRates::make(factor, addend)` with other parameters than the default ones, as
`src/bin/entropy_simulations.rs` uses it, and the law of a single step.
-/

namespace Verif.Est

open Verif Verif.Fixed

/-- `new()` followed by one update per bit, with the rates `make(factor, addend)`. -/
def replayWith (factor addend : Nat) (bits : List Bool) : Option Nat := do
  let rates ← ratesMake factor addend
  let e ← decNew
  decRun rates e bits

/-- parameters that make a usable table: no rate above one half, and none above one third after the first bit -/
def Usable (factor addend : Nat) : Prop := 2 ≤ addend ∧ 3 ≤ factor + addend ∧ 1023 * factor + addend < 2 ^ 32

theorem ratesMake_spec {factor addend : Nat} (ha : 1 ≤ addend) (hm : 1023 * factor + addend < 2 ^ 32) :
    ∃ r, ratesMake factor addend = some r ∧ r.length = 1024 ∧
      ∀ i, i < 1024 → r[i]? = some (2 ^ 31 / (i * factor + addend)) := by
  have hf : ∀ i, i < 1024 → (do
      let m ← u32 (i * factor)
      let den ← u32 (m + addend)
      check (den ≠ 0)
      some (2 ^ 31 / den) : Option Nat) = some (2 ^ 31 / (i * factor + addend)) := by
    intro i hi
    have : i * factor ≤ 1023 * factor := Nat.mul_le_mul_right _ (by omega)
    rw [u32_eq (by omega), ob_some, u32_eq (by omega), ob_some, check_pos (by omega), ob_some]
  obtain ⟨r, hr⟩ := mapM_total (fun index => do
      let m ← u32 (index * factor)
      let den ← u32 (m + addend)
      check (den ≠ 0)
      some (2 ^ 31 / den) : Nat → Option Nat) (List.range 1024)
    (fun a ha => ⟨_, hf a (by simpa using ha)⟩)
  refine ⟨r, hr, ?_⟩
  obtain ⟨h1, h2⟩ := mapM_getElem _ _ _ hr
  refine ⟨by simpa using h1, ?_⟩
  intro i hi
  rw [h2 i (by simpa using hi), List.getElem_range]
  exact hf i hi

theorem mapM_none {α β : Type} (f : α → Option β) (l : List α) {a : α} (h : a ∈ l) (ha : f a = none) :
    l.mapM f = none := by
  cases hl : l.mapM f with
  | none => rfl
  | some r =>
    obtain ⟨h1, h2⟩ := mapM_getElem f l r hl
    obtain ⟨i, hi, rfl⟩ := List.getElem_of_mem h
    have := h2 i hi
    rw [ha, List.getElem?_eq_none_iff] at this
    omega

section
variable {rates : List Nat} {f : Nat → Nat}

/-- what the estimator needs of a rate table -/
def GoodRates (rates : List Nat) (f : Nat → Nat) : Prop :=
  (∀ i, i < 1024 → rates[i]? = some (f i)) ∧ f 0 ≤ 2 ^ 30 ∧ ∀ c, 1 ≤ c → c ≤ 1000 → 3 * f c ≤ 2 ^ 31

theorem GoodRates.half (hg : GoodRates rates f) {c : Nat} (hc : c ≤ 1000) : f c ≤ 2 ^ 30 := by
  rcases Nat.eq_zero_or_pos c with rfl | h
  · exact hg.2.1
  · have := hg.2.2 c h hc
    omega

theorem target_bounds_with (hg : GoodRates rates f) {p c : Nat} (h : Ok p c) (b : Bool) :
    2 ^ 40 < 2 * target p (f c) b ∧ 2 * target p (f c) b < 2 ^ 63 - 2 ^ 40 := by
  unfold target
  obtain ⟨hc, ⟨rfl, rfl⟩ | ⟨h1, h2, h3⟩⟩ := h
  · have hr := hg.2.1
    have hr' : (f 0 : Int) ≤ 1073741824 := by exact_mod_cast hr
    have hr0 : (0 : Int) ≤ f 0 := by positivity
    generalize (f 0 : Int) = g at *
    cases b <;> norm_num <;> omega
  · have hr := hg.2.2 c h1 hc
    have hr0 : (0 : Int) ≤ f c := by positivity
    have hr' : 3 * (f c : Int) ≤ 2147483648 := by exact_mod_cast hr
    generalize (f c : Int) = f at *
    have hp1 : (1 : Int) ≤ p := by exact_mod_cast h2
    have hp2 : (p : Int) ≤ 4194303 := by have : (p : Int) < 4194304 := by exact_mod_cast h3
                                         omega
    clear hr h1 h2 h3 hc
    generalize (p : Int) = p at *
    cases b
    · simp only [Bool.false_eq_true, if_false]
      constructor <;> nlinarith
    · simp only [if_true]
      constructor <;> nlinarith

theorem decUpdate_step_with (hg : GoodRates rates f) {p c : Nat} (h : Ok p c) (b : Bool) :
    ∃ p' : Nat, decUpdate rates (pack p c) b = some (pack p' (min (c + 1) 1000)) ∧
      Ok p' (min (c + 1) 1000) ∧
      Nearest (target p (f c) b - 2 ^ 61) 40 ((p' : Int) - 2 ^ 21) := by
  have hc : c < 1024 := by have := h.1; omega
  obtain ⟨r, hn, he⟩ := decUpdate_eq b h.lt.2 hc (hg.1 c hc) (hg.half h.1)
  have hb := target_bounds_with hg h b
  have hrb : -2097152 < r ∧ r < 2097152 := by
    obtain ⟨h1, -⟩ := hn
    have h3 := le_abs_self (r * 2 ^ 40 - (target p (f c) b - 2 ^ 61))
    have h4 := neg_abs_le (r * 2 ^ 40 - (target p (f c) b - 2 ^ 61))
    generalize |r * 2 ^ 40 - (target p (f c) b - 2 ^ 61)| = z at *
    generalize target p (f c) b = t at *
    norm_num at *
    omega
  obtain ⟨p', hp'⟩ := Int.eq_ofNat_of_zero_le (show 0 ≤ r + 2 ^ 21 by omega)
  have hpl : p' < 4194304 ∧ 1 ≤ p' := by omega
  refine ⟨p', ?_, ⟨by omega, Or.inr ⟨by omega, by omega, by omega⟩⟩, ?_⟩
  · rw [he, hp']
    have : i64AsU32 (p' : Int) = p' := by unfold i64AsU32; omega
    rw [this, Nat.mod_eq_of_lt (by omega), or_pack (by omega)]
  · rw [← hp']
    simpa using hn

theorem decUpdate_flip_with (hg : GoodRates rates f) {p c p' : Nat} (h : Ok p c) (b : Bool)
    (hp' : Ok p' (min (c + 1) 1000))
    (hu : decUpdate rates (pack p c) b = some (pack p' (min (c + 1) 1000))) :
    decUpdate rates (pack (2 ^ 22 - p) c) (!b) = some (pack (2 ^ 22 - p') (min (c + 1) 1000)) := by
  obtain ⟨p1, e1, o1, n1⟩ := decUpdate_step_with hg h b
  obtain ⟨p2, e2, o2, n2⟩ := decUpdate_step_with hg h.flip (!b)
  rw [hu, Option.some.injEq] at e1
  have h1 : p1 = p' := by
    unfold pack at e1; omega
  subst h1
  have hl := h.lt
  rw [show ((2 ^ 22 - p : Nat) : Int) = 2 ^ 22 - (p : Int) by
    rw [Nat.cast_sub (by omega)]; norm_num, target_flip] at n2
  have := Nearest.unique n2 (NearestDiv.neg n1)
  have hp1 := o1.lt
  rw [e2, show p2 = 2 ^ 22 - p1 by omega]

theorem decRun_ok_with (hg : GoodRates rates f) (bits : List Bool) : ∀ {p c : Nat}, Ok p c →
    ∃ p' : Nat, decRun rates (pack p c) bits = some (pack p' (min (c + bits.length) 1000)) ∧
      Ok p' (min (c + bits.length) 1000) ∧
      decRun rates (pack (2 ^ 22 - p) c) (bits.map not) =
        some (pack (2 ^ 22 - p') (min (c + bits.length) 1000)) := by
  induction bits with
  | nil =>
    intro p c h
    refine ⟨p, ?_⟩
    rw [show min (c + ([] : List Bool).length) 1000 = c by have := h.1; simp; omega]
    exact ⟨rfl, h, rfl⟩
  | cons b bits ih =>
    intro p c h
    obtain ⟨p1, e1, o1, -⟩ := decUpdate_step_with hg h b
    obtain ⟨p2, e2, o2, f2⟩ := ih o1
    have hm : min (min (c + 1) 1000 + bits.length) 1000 = min (c + (b :: bits).length) 1000 := by
      simp; omega
    rw [hm] at e2 o2 f2
    refine ⟨p2, ?_, o2, ?_⟩
    · unfold decRun; rw [e1, ob_some, e2]
    · rw [List.map_cons]
      unfold decRun; rw [decUpdate_flip_with hg h b o1 e1, ob_some, f2]

end

theorem good_of_usable {factor addend : Nat} (h : Usable factor addend) : ∃ rates, ratesMake factor addend = some rates ∧
    GoodRates rates (fun c => 2 ^ 31 / (c * factor + addend)) := by
  obtain ⟨h1, h2, h3⟩ := h
  obtain ⟨r, e, -, hr⟩ := ratesMake_spec (by omega) h3
  refine ⟨r, e, hr, ?_, ?_⟩
  · show 2 ^ 31 / (0 * factor + addend) ≤ 2 ^ 30
    calc 2 ^ 31 / (0 * factor + addend) ≤ 2 ^ 31 / 2 := Nat.div_le_div_left (by omega) (by norm_num)
      _ = 2 ^ 30 := by norm_num
  · intro c hc _
    show 3 * (2 ^ 31 / (c * factor + addend)) ≤ 2 ^ 31
    have hf : factor ≤ c * factor := Nat.le_mul_of_pos_left _ hc
    have : 2 ^ 31 / (c * factor + addend) ≤ 2 ^ 31 / 3 := Nat.div_le_div_left (by omega) (by norm_num)
    omega

/-- **C13 (building the table).** The rate table of `make` can be built exactly if the addend is not zero and the
largest denominator fits 32 bits. -/
theorem C13_make_rates (factor addend : Nat) : (ratesMake factor addend).isSome ↔
    1 ≤ addend ∧ 1023 * factor + addend < 2 ^ 32 := by
  constructor
  · intro h
    by_contra hc
    have hnone : ratesMake factor addend = none := by
      rcases Nat.eq_zero_or_pos addend with rfl | ha
      · refine mapM_none _ _ (a := 0) (by simp) ?_
        rw [u32_eq (by omega), ob_some, u32_eq (by omega), ob_some, check_neg (by omega), ob_none]
      · refine mapM_none _ _ (a := 1023) (by simp) ?_
        have hb : ¬ 1023 * factor + addend < 2 ^ 32 := fun h' => hc ⟨ha, h'⟩
        by_cases h1 : 1023 * factor < 2 ^ 32
        · have h2 : u32 (1023 * factor + addend) = none := by unfold u32; exact if_neg (by omega)
          rw [u32_eq h1, ob_some, h2, ob_none]
        · have h2 : u32 (1023 * factor) = none := by unfold u32; exact if_neg (by omega)
          rw [h2, ob_none]
    rw [hnone] at h
    cases h
  · rintro ⟨h1, h2⟩
    obtain ⟨r, e, -⟩ := ratesMake_spec h1 h2
    rw [e]; rfl

/-- **C13, C14 (any rate table).** With every usable rate table: building the estimator and feeding any bit sequence
never panics, the prediction stays strictly between 0 and 1, the count is the number of bits, capped, and the
complemented sequence gives exactly the complementary prediction. -/
theorem C13_any_rates (factor addend : Nat) (h : Usable factor addend) (bits : List Bool) :
    ∃ e e', replayWith factor addend bits = some e ∧ 0 < decPrediction e ∧ decPrediction e < 2 ^ 31 ∧
      decCount e = min bits.length 1000 ∧
      replayWith factor addend (bits.map not) = some e' ∧
      decPrediction e' = 2 ^ 31 - decPrediction e ∧ decCount e' = decCount e := by
  obtain ⟨rates, hr, hg⟩ := good_of_usable h
  obtain ⟨p, h1, h2, h3⟩ := decRun_ok_with hg bits ok_new
  have hl := h2.lt
  have he : ∀ bs, replayWith factor addend bs = decRun rates (pack (2 ^ 21) 0) bs := by
    intro bs
    unfold replayWith
    rw [hr, ob_some, decNew_eq, ob_some]
  refine ⟨_, _, by rw [he, h1], ?_, ?_, ?_, by rw [he]; exact h3, ?_, ?_⟩
  · rw [decPrediction_pack hl.2 (by omega)]; omega
  · rw [decPrediction_pack hl.2 (by omega)]; omega
  · rw [decCount_pack (by omega)]; omega
  · rw [decPrediction_pack (by omega) (by omega), decPrediction_pack (by omega) (by omega)]; omega
  · rw [decCount_pack (by omega), decCount_pack (by omega)]

/-- **C15 (one step, any number of bits, any rate table).** After any bit sequence, one more bit moves the prediction
from `p` towards the bit's value (1 for a zero bit, 0 for a one bit) by the fraction `1 / (count * factor + addend)` of
the distance, up to 257 units of `2 ^ -31` of rounding; and never in the wrong direction. `count` is the number of bits
so far, at most 1000. -/
theorem C15_step (factor addend : Nat) (h : Usable factor addend) (bits : List Bool) (b : Bool) :
    ∃ e e', replayWith factor addend bits = some e ∧ replayWith factor addend (bits ++ [b]) = some e' ∧
      |(decPrediction e' : ℚ) - (decPrediction e + ((if b then 0 else 2 ^ 31) - (decPrediction e : ℚ)) /
          ((min bits.length 1000 : Nat) * factor + addend))| ≤ 257 ∧
      (b = false → decPrediction e ≤ decPrediction e') ∧ (b = true → decPrediction e' ≤ decPrediction e) := by
  obtain ⟨rates, hr, hg⟩ := good_of_usable h
  obtain ⟨p, h1, h2, -⟩ := decRun_ok_with hg bits ok_new
  obtain ⟨q, a, o, n⟩ := decUpdate_step_with hg h2 b
  have he : ∀ bs, replayWith factor addend bs = decRun rates (pack (2 ^ 21) 0) bs := by
    intro bs
    unfold replayWith
    rw [hr, ob_some, decNew_eq, ob_some]
  rw [Nat.zero_add] at h1 h2 a o n
  refine ⟨_, _, by rw [he, h1], by
    rw [he, decRun_append, h1, Option.bind_some, decRun, a, ob_some, decRun], ?_⟩
  have hl := h2.lt
  rw [decPrediction_pack hl.2 (by omega), decPrediction_pack o.lt.2 (by omega)]
  generalize min bits.length 1000 = c at *
  have hden : 2 ≤ c * factor + addend := by have := h.1; omega
  have hdc : ((c : ℚ) * factor + addend) = ((c * factor + addend : Nat) : ℚ) := by push_cast; rfl
  rw [hdc]
  generalize c * factor + addend = D at *
  have hp1 : (0 : Int) ≤ p := by positivity
  have hp2 : (p : Int) ≤ 4194304 := by have := hl.2; omega
  have hdm := Nat.div_add_mod (2 ^ 31) D
  have hml := Nat.mod_lt (2 ^ 31) (show 0 < D by omega)
  generalize hfv : 2 ^ 31 / D = f at *
  generalize hρ : 2 ^ 31 % D = ρ at *
  have hf0 : (0 : Int) ≤ f := by positivity
  obtain ⟨n, -⟩ := n
  have hab := abs_le.mp (show |((q : Int) - 2 ^ 21) * 2 ^ 40 - (target p f b - 2 ^ 61)| ≤ 2 ^ 39 by
    norm_num at n ⊢; omega)
  refine ⟨?_, ?_, ?_⟩
  · -- over the rationals
    have hD : (0 : ℚ) < D := by exact_mod_cast (show 0 < D by omega)
    have hdq : (D : ℚ) * f + ρ = 2 ^ 31 := by exact_mod_cast hdm
    have hρ0 : (0 : ℚ) ≤ ρ := by positivity
    have hρ1 : (ρ : ℚ) ≤ D := by exact_mod_cast hml.le
    have l1 : ((target p f b : Int) : ℚ) = p * 512 * 2 ^ 31 + ((if b then 0 else 2 ^ 31) - p * 512) * f := by
      unfold target
      push_cast
      cases b <;> norm_num
    have r1 := (Int.cast_le (R := ℚ)).mpr hab.1
    have r2 := (Int.cast_le (R := ℚ)).mpr hab.2
    push_cast at r1 r2
    rw [l1] at r1 r2
    push_cast
    have hz : |(if b then (0 : ℚ) else 2 ^ 31) - p * 512| ≤ 2 ^ 31 := by
      have hp1q : (0 : ℚ) ≤ p := by positivity
      have hp2q : (p : ℚ) ≤ 4194304 := by exact_mod_cast hp2
      cases b
      · simp only [Bool.false_eq_true, if_false]
        rw [abs_le]; constructor <;> norm_num <;> linarith
      · simp only [if_true]
        rw [abs_le]; constructor <;> norm_num <;> linarith
    generalize (if b then (0 : ℚ) else 2 ^ 31) - (p : ℚ) * 512 = w at *
    have hw : |w * (ρ / D)| ≤ 2 ^ 31 := by
      rw [abs_mul, abs_of_nonneg (show (0 : ℚ) ≤ ρ / D by positivity)]
      have : (ρ : ℚ) / D ≤ 1 := (div_le_one hD).mpr hρ1
      calc |w| * (ρ / D) ≤ 2 ^ 31 * 1 := mul_le_mul hz this (by positivity) (by norm_num)
        _ = 2 ^ 31 := by norm_num
    have hff : w / D * 2 ^ 31 = w * f + w * (ρ / D) := by
      rw [← hdq]; field_simp
    obtain ⟨w1, w2⟩ := abs_le.mp hw
    rw [abs_le]
    constructor <;> norm_num at * <;> linarith
  · rintro rfl
    have t0 : (p : Int) * 2 ^ 40 ≤ target p f false := by
      unfold target
      simp only [Bool.false_eq_true, if_false]
      nlinarith
    generalize target p f false = x at *
    norm_num at *
    omega
  · rintro rfl
    have t1 : target p f true ≤ (p : Int) * 2 ^ 40 := by
      unfold target
      simp only [if_true]
      nlinarith
    generalize target p f true = x at *
    norm_num at *
    omega

/-- the tables of `entropy_simulations.rs` are usable, `(0, 2)` (a constant rate of one half) is not -/
example : Usable 1 2 ∧ Usable 1 3 ∧ Usable 2 2 ∧ Usable 2 3 ∧ ¬ Usable 0 2 ∧
    (replayWith 2 3 [false, true, true]).map (fun e => (decPrediction e, decCount e)) = some (981706752, 3) := by
  unfold Usable
  decide +kernel

/-- **C13 (why usable).** With a constant rate of one half, 22 zero bits make the prediction wrap to 0. -/
theorem C13_constant_half_wraps :
    (replayWith 0 2 (List.replicate 22 false)).map decPrediction = some 0 := by decide +kernel

end Verif.Est
