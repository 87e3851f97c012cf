import Verif.Fixed.Lemmas

/-!
# C07, C08, C09: rounding, multiplication and complement

`w` is the width of the integer type (16, 32 or 64 in the code; the theorems hold for every width).
-/

namespace Verif.Fixed

open Verif

/-! ## C07 -/

/-- **C07 (unsigned).** For every width, shift `1 ≤ s < w` and input, rounding returns a value; it is the
nearest integer with ties away from zero unless adding half a unit leaves the type, in which case it is
the largest representable quotient. -/
theorem C07_unsigned (w s raw : Nat) (hs : 1 ≤ s) (hsw : s < w) (hraw : raw < 2 ^ w) :
    ∃ r : Nat, scaledDownU w raw s = some r ∧
      (raw + 2 ^ (s - 1) < 2 ^ w → Nearest raw s r) ∧
      (2 ^ w ≤ raw + 2 ^ (s - 1) → r = 2 ^ (w - s) - 1) := by
  refine ⟨_, scaledDownU_eq hs hsw, ?_, ?_⟩
  · intro h
    rw [Nat.min_eq_right (by omega)]
    exact nearest_nat raw s hs
  · intro h
    rw [Nat.min_eq_left (by omega)]
    have e : 2 ^ w = 2 ^ s * 2 ^ (w - s) := by rw [← pow_add]; congr 1; omega
    have hp : 0 < 2 ^ s := by positivity
    have hq : 0 < 2 ^ (w - s) := by positivity
    rw [e]
    generalize 2 ^ s = a at *
    generalize 2 ^ (w - s) = b at *
    obtain ⟨c, rfl⟩ : ∃ c, b = c + 1 := ⟨b - 1, by omega⟩
    rw [Nat.div_eq_iff hp, Nat.add_sub_cancel, mul_add, Nat.mul_comm c a]
    omega

/-- **C07 (signed).** As `C07_unsigned`, for signed integers and shifts `1 ≤ s ≤ w - 2`. -/
theorem C07_signed (w s : Nat) (raw : Int) (hs : 1 ≤ s) (hsw : s + 1 < w)
    (h1 : -2 ^ (w - 1) < raw) (h2 : raw < 2 ^ (w - 1)) :
    ∃ r : Int, scaledDownI w raw s = some r ∧
      (|raw| + 2 ^ (s - 1) < 2 ^ (w - 1) → Nearest raw s r) ∧
      (2 ^ (w - 1) ≤ |raw| + 2 ^ (s - 1) → r = raw.sign * (2 ^ (w - 1 - s) - 1)) := by
  have key : ∀ n : Nat, n < 2 ^ (w - 1) → ∃ r : Int, scaledDownI w n s = some r ∧
      (|(n : Int)| + 2 ^ (s - 1) < 2 ^ (w - 1) → Nearest n s r) ∧
      (2 ^ (w - 1) ≤ |(n : Int)| + 2 ^ (s - 1) →
        r = (n : Int).sign * (2 ^ (w - 1 - s) - 1)) := by
    intro n hn
    obtain ⟨r, hr, ha, hb⟩ := C07_unsigned (w - 1) s n hs (by omega) hn
    rw [scaledDownU_eq hs (by omega), Option.some.injEq] at hr
    have hcast : (|(n : Int)| + 2 ^ (s - 1) < 2 ^ (w - 1)) ↔ n + 2 ^ (s - 1) < 2 ^ (w - 1) := by
      rw [Nat.abs_cast]; exact_mod_cast Iff.rfl
    rw [scaledDownI_nonneg hs hsw hn, hr]
    by_cases h0 : n = 0
    · subst h0
      rw [if_pos rfl]
      refine ⟨0, rfl, fun _ => ?_, fun h => ?_⟩
      · unfold Nearest
        have : (0 : Int) < 2 ^ s := by positivity
        simp
        try omega
      · exfalso
        have : (2 : Int) ^ (s - 1) < 2 ^ (w - 1) := by
          exact_mod_cast Nat.pow_lt_pow_right (by norm_num) (by omega)
        simp at h
        omega
    · rw [if_neg h0]
      refine ⟨r, rfl, fun h => ha (hcast.mp h), fun h => ?_⟩
      have := hb (by by_contra hc; exact absurd (hcast.mpr (by omega)) (by omega))
      rw [this, Int.sign_natCast_of_ne_zero h0, one_mul, Nat.cast_sub Nat.one_le_two_pow]
      push_cast; rfl
  rcases le_total 0 raw with h | h
  · obtain ⟨n, rfl⟩ := Int.eq_ofNat_of_zero_le h
    exact key n (by exact_mod_cast h2)
  · obtain ⟨n, hn⟩ := Int.eq_ofNat_of_zero_le (show 0 ≤ -raw by omega)
    have hraw : raw = -(n : Int) := by omega
    subst hraw
    have hn2 : (n : Int) < 2 ^ (w - 1) := by omega
    obtain ⟨r, hr, ha, hb⟩ := key n (by exact_mod_cast hn2)
    refine ⟨-r, ?_, ?_, ?_⟩
    · rw [scaledDownI_neg hs hsw (by omega) hn2, hr]; rfl
    · rw [abs_neg]; intro h
      exact NearestDiv.neg (ha h)
    · rw [abs_neg]; intro h
      rw [hb h, Int.sign_neg]; ring

/-- **C07 (minimum).** The most negative value is treated like its successor. -/
theorem C07_signed_min (w s : Nat) (hs : 1 ≤ s) (hsw : s + 1 < w) :
    scaledDownI w (-2 ^ (w - 1)) s = some (-(2 ^ (w - 1 - s) - 1)) := by
  have hp : (2 : Int) ^ s < 2 ^ (w - 1) := by
    exact_mod_cast Nat.pow_lt_pow_right (by norm_num) (by omega)
  have hposs : (0 : Int) < 2 ^ (s - 1) := by positivity
  have hp' : (2 : Int) ^ (s - 1) ≤ 2 ^ s := pow_le_pow2 (by omega)
  have hw1 : (2 : Int) ≤ 2 ^ (w - 1) := by
    calc (2 : Int) = 2 ^ 1 := by norm_num
      _ ≤ 2 ^ (w - 1) := pow_le_pow2 (by omega)
  obtain ⟨r, hr, ha, hb⟩ := C07_signed w s (-2 ^ (w - 1) + 1) hs hsw (by omega) (by omega)
  have hab : |(-2 ^ (w - 1) + 1 : Int)| = 2 ^ (w - 1) - 1 := by
    rw [abs_of_nonpos (by omega)]; ring
  have hb' := hb (by rw [hab]; omega)
  rw [Int.sign_eq_neg_one_of_neg (by omega)] at hb'
  rw [← show r = -(2 ^ (w - 1 - s) - 1) by rw [hb']; ring, ← hr]
  unfold scaledDownI
  rw [check_pos (by omega), check_pos (show s < w by omega)]
  simp only [Option.bind_eq_bind, Option.bind_some]
  rw [Int.sign_eq_neg_one_of_neg (by omega), Int.sign_eq_neg_one_of_neg (by omega),
    wrapI_id (by omega) (by omega) (by omega)]
  congr 2
  unfold satAddI
  omega

/-- **C07 (odd).** Signed rounding commutes with negation. -/
theorem C07_odd (w s : Nat) (raw : Int) (hs : 1 ≤ s) (hsw : s + 1 < w)
    (h1 : -2 ^ (w - 1) < raw) (h2 : raw < 2 ^ (w - 1)) :
    scaledDownI w (-raw) s = (scaledDownI w raw s).map (fun r => -r) :=
  scaledDownI_neg hs hsw h1 h2

/-- **C07 (panic).** A shift of zero, or of the width or more, panics. -/
theorem C07_panics (w s : Nat) (h : s = 0 ∨ w ≤ s) :
    (∀ raw, scaledDownU w raw s = none) ∧ (∀ raw, scaledDownI w raw s = none) := by
  unfold scaledDownU scaledDownI
  rcases h with h | h
  · constructor <;> intro raw <;> rw [check_neg (by omega)] <;> rfl
  · constructor <;> intro raw <;> rw [check_neg (p := s < w) (by omega)] <;>
      (cases check (s ≠ 0) <;> rfl)

/-- **C07 (finding).** Signed rounding with shift `w - 1` divides by the minimum and returns zero for
`2 ^ (w - 2)`, whose nearest quotient is one. -/
theorem C07_top_shift_wrong :
    scaledDownI 32 (2 ^ 30) 31 = some 0 ∧ Nearest (2 ^ 30) 31 1 ∧
      scaledDownI 64 (2 ^ 62) 63 = some 0 ∧ Nearest (2 ^ 62) 63 1 := by
  refine ⟨by decide +kernel, ?_, by decide +kernel, ?_⟩ <;> unfold Nearest <;> norm_num

/-- Concrete cases: tie up, tie away from zero, saturation. -/
example : scaledDownU 16 24 4 = some 2 ∧ scaledDownI 32 (-24) 4 = some (-2) ∧
    scaledDownI 32 (-23) 4 = some (-1) ∧ scaledDownU 32 (2 ^ 32 - 1) 1 = some (2 ^ 31 - 1) := by
  decide +kernel

example : Nearest (-24) 4 (-2) ∧ ¬ Nearest (-24) 4 (-1) := by unfold Nearest; norm_num

/-- **C07 (division, unsigned).** Division by `d` rounds to nearest, ties up, unless adding half the
divisor leaves the type. -/
theorem C07_div_unsigned (w raw d : Nat) (hd : 0 < d) (h : raw + d / 2 < 2 ^ w) :
    ∃ r : Nat, divU w raw d = some r ∧ NearestDiv raw d r := by
  refine ⟨(raw + d / 2) / d, ?_, nearestDiv_nat raw d hd⟩
  unfold divU satAddU
  rw [check_pos (by omega), Nat.min_eq_right (by omega)]
  rfl

/-- **C07 (division, signed).** -/
theorem C07_div_signed (w : Nat) (raw d : Int) (hd : 0 < d) (h : |raw| + d / 2 < 2 ^ (w - 1)) :
    ∃ r : Int, divI w raw d = some r ∧ NearestDiv raw d r := by
  obtain ⟨d, rfl⟩ := Int.eq_ofNat_of_zero_le hd.le
  have hdn : 0 < d := by exact_mod_cast hd
  have key : ∀ (n : Nat) (σ : Int), (σ = 1 ∨ σ = -1) → (raw = σ * n) → n ≠ 0 →
      ∃ r : Int, divI w raw d = some r ∧ NearestDiv raw d r := by
    intro n σ hσ hr hn
    have hn' : (0 : Int) < n := by omega
    have habs : |raw| = n := by
      rcases hσ with h | h <;> subst h <;> rw [hr]
      · rw [one_mul, abs_of_pos hn']
      · rw [neg_one_mul, abs_neg, abs_of_pos hn']
    have hsg : raw.sign = σ := by
      rcases hσ with h | h <;> subst h <;> rw [hr]
      · rw [one_mul, Int.sign_eq_one_of_pos hn']
      · rw [Int.sign_eq_neg_one_of_neg (by omega)]
    rw [habs] at h
    refine ⟨σ * ((n + d / 2) / d : Nat), ?_, ?_⟩
    · unfold divI satAddI
      rw [check_pos (by omega), hsg]
      simp only [Option.bind_eq_bind, Option.bind_some, Option.some.injEq]
      have e : max (max (-2 ^ (w - 1)) (min (2 ^ (w - 1) - 1) (raw + (d : Int) / 2 * σ)))
          (-2 ^ (w - 1) + 1) = σ * ((n + d / 2 : Nat) : Int) := by
        rcases hσ with h | h <;> subst h <;> rw [hr] <;> push_cast <;> omega
      rw [e]
      rcases hσ with h | h <;> subst h
      · rw [one_mul, one_mul]; rfl
      · rw [neg_one_mul, neg_one_mul, Int.neg_tdiv]
        congr 1
    · have := nearestDiv_nat n d hdn
      rcases hσ with h | h <;> subst h <;> rw [hr]
      · simpa using this
      · simpa using this.neg
  rcases lt_trichotomy raw 0 with h0 | h0 | h0
  · exact key raw.natAbs (-1) (Or.inr rfl) (by omega) (by omega)
  · subst h0
    refine ⟨0, ?_, ?_⟩
    · unfold divI satAddI
      have : (0 : Int) < 2 ^ (w - 1) := by positivity
      rw [check_pos (by omega)]
      simp only [Option.bind_eq_bind, Option.bind_some, Int.sign_zero, mul_zero]
      rw [show max (max (-2 ^ (w - 1)) (min (2 ^ (w - 1) - 1) ((0 : Int) + 0))) (-2 ^ (w - 1) + 1) = 0
        by omega]
      simp
    · unfold NearestDiv; simp; omega
  · exact key raw.natAbs 1 (Or.inl rfl) (by omega) (by omega)

example : divI 32 (-7) 2 = some (-4) ∧ divU 64 7 3 = some 2 := by decide +kernel

/-! ## C08 -/

/-- **C08 (unsigned).** Multiplying two unsigned fixed point numbers into a type with `d` fewer
fractional bits than the exact product gives the exact product rounded to nearest, or fails exactly when
that value does not fit 32 bits or the result type. -/
theorem C08_mul_unsigned (A B R : FixU) (a b : Nat) (ha : a < 2 ^ 32) (hb : b < 2 ^ 32)
    (hf : A.frac + B.frac < 256) (h1 : R.frac < A.frac + B.frac)
    (h2 : A.frac + B.frac - R.frac < 64)
    (hsat : a * b + 2 ^ (A.frac + B.frac - R.frac - 1) < 2 ^ 64) :
    ∃ r : Nat, Nearest ((a : Int) * b) (A.frac + B.frac - R.frac) r ∧
      mulU32 A B R a b = if r < 2 ^ 32 then R.new r else none := by
  have hmul : a * b < 2 ^ 64 := by
    calc a * b < 2 ^ 32 * 2 ^ 32 := Nat.mul_lt_mul'' ha hb
      _ = 2 ^ 64 := by norm_num
  refine ⟨(a * b + 2 ^ (A.frac + B.frac - R.frac - 1)) / 2 ^ (A.frac + B.frac - R.frac), ?_, ?_⟩
  · have := nearest_nat (a * b) (A.frac + B.frac - R.frac) (by omega)
    rw [Nat.cast_mul] at this
    exact this
  · unfold mulU32
    rw [u64_eq hmul, ob_some, u8_eq hf, ob_some]
    rw [if_pos h1, scaledDownU_nosat (by omega) (by omega) hsat, ob_some]
    generalize (a * b + 2 ^ (A.frac + B.frac - R.frac - 1)) / 2 ^ (A.frac + B.frac - R.frac) = r
    by_cases hr : r < 2 ^ 32
    · have : wrapU32 r = r := Nat.mod_eq_of_lt hr
      rw [check_pos this, if_pos hr, ob_some, this]
    · have : ¬ wrapU32 r = r := by
        unfold wrapU32
        have := Nat.mod_lt r (show 0 < 2 ^ 32 by norm_num)
        omega
      rw [check_neg this, if_neg hr, ob_none]

/-- **C08 (probabilities).** Multiplying two probabilities below one gives the exact product rounded to
nearest, with no panic. -/
theorem C08_mul_probabilities (a b : Nat) (ha : a < 2 ^ 31) (hb : b < 2 ^ 31) :
    ∃ r : Nat, mulU32 fractOnlyU32 fractOnlyU32 fractOnlyU32 a b = some r ∧ r < 2 ^ 31 ∧
      Nearest ((a : Int) * b) 31 r := by
  have hmul : a * b ≤ (2 ^ 31 - 1) * (2 ^ 31 - 1) := Nat.mul_le_mul (by omega) (by omega)
  obtain ⟨r, hr, he⟩ := C08_mul_unsigned fractOnlyU32 fractOnlyU32 fractOnlyU32 a b (by omega)
    (by omega) (by decide) (by decide) (by decide)
    (by simp only [fractOnlyU32]; norm_num at hmul ⊢; omega)
  have hr' : r < 2 ^ 31 := by
    obtain ⟨h1, -⟩ := hr
    simp only [fractOnlyU32] at h1
    have : ((a * b : Nat) : Int) ≤ ((2 ^ 31 - 1) * (2 ^ 31 - 1) : Nat) := by exact_mod_cast hmul
    have h1' : 2 * |(r : Int) * 2147483648 - (a : Int) * b| ≤ 2147483648 := h1
    have h3 := le_abs_self ((r : Int) * 2147483648 - (a : Int) * b)
    rw [Nat.cast_mul] at this
    clear h1 he hmul
    generalize (a : Int) * b = m at *
    generalize |(r : Int) * 2147483648 - m| = z at *
    norm_num at this
    omega
  refine ⟨r, ?_, hr', hr⟩
  rw [he, if_pos (by omega)]
  unfold fractOnlyU32
  simp only
  rw [check_pos (Nat.div_eq_of_lt hr')]; rfl

example : mulU32 fractOnlyU32 fractOnlyU32 fractOnlyU32 (2 ^ 30) (2 ^ 30 + 1) = some (2 ^ 29 + 1) := by
  decide +kernel

/-- **C08 (signed).** As `C08_mul_unsigned` for signed numbers. -/
theorem C08_mul_signed (A B R : FixI) (a b : Int) (ha : -2 ^ 31 ≤ a ∧ a < 2 ^ 31)
    (hb : -2 ^ 31 ≤ b ∧ b < 2 ^ 31) (hf : A.frac + B.frac < 256) (h1 : R.frac < A.frac + B.frac)
    (h2 : A.frac + B.frac - R.frac < 62) :
    ∃ r : Int, Nearest (a * b) (A.frac + B.frac - R.frac) r ∧
      mulI32 A B R a b = if -2 ^ 31 ≤ r ∧ r < 2 ^ 31 then R.new r else none := by
  have hm : |a * b| ≤ 2 ^ 62 := by
    rw [abs_mul]
    calc |a| * |b| ≤ 2 ^ 31 * 2 ^ 31 :=
          mul_le_mul (abs_le.mpr ⟨by omega, by omega⟩) (abs_le.mpr ⟨by omega, by omega⟩)
            (abs_nonneg _) (by norm_num)
      _ = 2 ^ 62 := by norm_num
  have hm2 := abs_le.mp hm
  unfold mulI32
  rw [i64_eq (by omega), ob_some, u8_eq hf, ob_some, if_pos h1]
  generalize hd : A.frac + B.frac - R.frac = d at *
  obtain ⟨r, hr, hn, -⟩ := C07_signed 64 d (a * b) (by omega) (by omega) (by norm_num; omega)
    (by norm_num; omega)
  refine ⟨r, hn ?_, ?_⟩
  · have : (2 : Int) ^ (d - 1) ≤ 2 ^ 61 := pow_le_pow2 (by omega)
    norm_num at *; omega
  · rw [hr, ob_some]
    by_cases hc : -2 ^ 31 ≤ r ∧ r < 2 ^ 31
    · have : wrapI32 r = r := wrapI32_eq (by omega)
      rw [check_pos this, if_pos hc, ob_some, this]
    · have : ¬ wrapI32 r = r := by
        unfold wrapI32
        omega
      rw [check_neg this, if_neg hc, ob_none]

example : mulI32 log2D log2D log2D (-3 * 2048) 1025 = some (-3075) ∧
    mulI32 log2D log2D log2D (-1) 1024 = some (-1) := by decide +kernel

/-- **C08 (wide).** `mul_wide` into a type with enough fractional bits is exact. -/
theorem C08_mul_wide_exact (A B R : FixI) (a b : Int) (ha : -2 ^ 31 ≤ a ∧ a < 2 ^ 31)
    (hb : -2 ^ 31 ≤ b ∧ b < 2 ^ 31) (hf : A.frac + B.frac < 256) (h : R.frac = A.frac + B.frac) :
    mulWideI32 A B R a b = R.new (a * b) := by
  have hm : |a * b| ≤ 2 ^ 62 := by
    rw [abs_mul]
    calc |a| * |b| ≤ 2 ^ 31 * 2 ^ 31 :=
          mul_le_mul (abs_le.mpr ⟨by omega, by omega⟩) (abs_le.mpr ⟨by omega, by omega⟩)
            (abs_nonneg _) (by norm_num)
      _ = 2 ^ 62 := by norm_num
  have hm2 := abs_le.mp hm
  unfold mulWideI32
  rw [i64_eq (by omega), ob_some, u8_eq hf, ob_some, if_neg (by omega), h, Nat.sub_self]
  have : wrapI64 (a * b * 2 ^ 0) = a * b := by
    rw [pow_zero, mul_one]; exact wrapI64_eq (by omega)
  dsimp only
  rw [this, check_pos (by omega), check_pos (by rw [pow_zero, Int.ediv_one])]
  rfl

/-! ## C09 -/

/-- **C09.** Complement of a probability is exact and an involution on the open interval (0, 1); on
zero it panics rather than return a wrong value. -/
theorem C09_flip (p : Nat) (hp : p < 2 ^ 31) :
    (0 < p → flipU32 p = some (2 ^ 31 - p) ∧ 0 < 2 ^ 31 - p ∧ 2 ^ 31 - p < 2 ^ 31 ∧
      (flipU32 p).bind flipU32 = some p) ∧
    (p = 0 → flipU32 p = none) := by
  have key : ∀ q, 0 < q → q < 2 ^ 31 → flipU32 q = some (2 ^ 31 - q) := by
    intro q h0 h1
    unfold flipU32 subU32 subU oneUnsafe fractOnlyU32
    rw [if_pos (by omega), ob_some]
    dsimp only
    rw [check_pos (Nat.div_eq_of_lt (by omega))]; rfl
  constructor
  · intro h0
    rw [key p h0 hp]
    refine ⟨rfl, by omega, by omega, ?_⟩
    rw [Option.bind_some, key _ (by omega) (by omega)]
    congr 1; omega
  · rintro rfl; decide +kernel

/-- **C09 (finding).** The signed complements panic on every valid value. -/
theorem C09_signed_flip_panics :
    (∀ p : Int, 0 ≤ p → p < 2 ^ 31 → flipI32 p = none) ∧
    (∀ p : Int, 0 ≤ p → p < 2 ^ 63 → flipI64 p = none) := by
  constructor <;> intro p h0 h1
  · unfold flipI32 subI32 i32 fractOnlyI32
    by_cases h : p = 0
    · subst h; decide +kernel
    · rw [if_neg (by omega)]; rfl
  · unfold flipI64 subI64 i64 fractOnlyI64
    by_cases h : p = 0
    · subst h; decide +kernel
    · rw [if_neg (by omega)]; rfl

example : flipU32 (2 ^ 30 + 5) = some (2 ^ 30 - 5) := by decide +kernel

end Verif.Fixed
