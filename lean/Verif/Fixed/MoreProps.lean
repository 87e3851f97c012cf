import Verif.Fixed.Convert

/-!
# C06 (conversion), C07 (division), C08 (remaining cases), C09 (64 bits), C46 (remaining formats), C62

The cases the first theorems leave out: saturation, results with more fractional bits, products wider than 32 bits,
unsigned narrowing, and the conversions between signed and unsigned types.
-/

namespace Verif.Fixed

open Verif

/-! ## C06 -/

/-- **C06 (conversion).** Converting any probability below one to a final probability does not panic; the result is
the probability rounded to nearest, limited to `[1, 2^23 - 1]`. -/
theorem C06_conversion (p : Nat) (hp : p < 2 ^ 31) :
    ∃ r : Nat, Nearest p 8 r ∧ toFixU 32 fractOnlyU32 finalProbability p = some (max (min r (2 ^ 23 - 1)) 1) := by
  obtain ⟨r, hn, he⟩ := (C46_unsigned 32 fractOnlyU32 finalProbability p (by omega)).2 (by decide) (by decide)
    (by show p + 2 ^ 7 < 2 ^ 32; omega)
  have hn' : Nearest p 8 r := hn
  refine ⟨r, hn', ?_⟩
  have hr : r ≤ 2 ^ 23 := by
    have h1 := hn'.1
    have h2 := le_abs_self ((r : Int) * 2 ^ 8 - p)
    generalize |(r : Int) * 2 ^ 8 - p| = z at *
    omega
  rw [he]
  show Coding.FinalProbability.newUnchecked r = _
  unfold Coding.FinalProbability.newUnchecked
  rw [check_pos hr]; rfl

example : toFixU 32 fractOnlyU32 finalProbability (2 ^ 31 - 1) = some (2 ^ 23 - 1) ∧
    toFixU 32 fractOnlyU32 finalProbability 127 = some 1 ∧
    toFixU 32 fractOnlyU32 finalProbability (3 * 2 ^ 29 + 128) = some (3 * 2 ^ 21 + 1) := by decide +kernel

/-! ## C07: division, all cases -/

/-- **C07 (division, unsigned, all inputs).** Division by zero panics. Any other division returns the nearest integer,
ties up, or, if adding half the divisor leaves the type, the largest representable value divided by the divisor, which is
the nearest integer or one less. -/
theorem C07_div_unsigned_all (w raw d : Nat) (hraw : raw < 2 ^ w) :
    divU w raw 0 = none ∧
    (0 < d → raw + d / 2 < 2 ^ w → ∃ r : Nat, divU w raw d = some r ∧ NearestDiv raw d r) ∧
    (0 < d → 2 ^ w ≤ raw + d / 2 → ∃ r : Nat, divU w raw d = some ((2 ^ w - 1) / d) ∧ NearestDiv raw d r ∧
      (2 ^ w - 1) / d ≤ r ∧ r ≤ (2 ^ w - 1) / d + 1) := by
  refine ⟨by unfold divU; rw [check_neg (by omega)]; rfl, fun hd h => C07_div_unsigned w raw d hd h, ?_⟩
  intro hd h
  refine ⟨(raw + d / 2) / d, ?_, nearestDiv_nat raw d hd, Nat.div_le_div_right (by omega), ?_⟩
  · unfold divU satAddU
    rw [check_pos hd, Nat.min_eq_left (by omega)]
    rfl
  · have h1 : (raw + d / 2) / d ≤ (2 ^ w - 1 + d) / d := Nat.div_le_div_right (by omega)
    rw [Nat.add_div_right _ hd] at h1
    exact h1

/-- **C07 (division, signed, all inputs).** A divisor that is not positive panics. Otherwise the quotient is rounded to
nearest, ties away from zero, or, if adding half the divisor leaves the type, it is the quotient of the largest
representable magnitude, with the sign of the dividend. -/
theorem C07_div_signed_all (w : Nat) (raw d : Int) (h1 : -2 ^ (w - 1) ≤ raw) (h2 : raw < 2 ^ (w - 1)) :
    (d ≤ 0 → divI w raw d = none) ∧
    (0 < d → |raw| + d / 2 < 2 ^ (w - 1) → ∃ r : Int, divI w raw d = some r ∧ NearestDiv raw d r) ∧
    (0 < d → 2 ^ (w - 1) ≤ |raw| + d / 2 → divI w raw d = some (raw.sign * ((2 ^ (w - 1) - 1) / d))) := by
  refine ⟨fun h => by unfold divI; rw [check_neg (by omega)]; rfl, fun hd h => C07_div_signed w raw d hd h, ?_⟩
  intro hd h
  rcases lt_trichotomy raw 0 with hr | hr | hr
  · unfold divI satAddI
    rw [check_pos hd, Int.sign_eq_neg_one_of_neg hr, abs_of_neg hr] at *
    simp only [ob_some, Option.some.injEq]
    rw [show max (max (-2 ^ (w - 1)) (min (2 ^ (w - 1) - 1) (raw + d / 2 * -1))) (-2 ^ (w - 1) + 1) =
      -(2 ^ (w - 1) - 1) by omega, Int.neg_tdiv, Int.tdiv_eq_ediv_of_nonneg (by omega)]
    ring
  · subst hr
    unfold divI satAddI
    have hp : (0 : Int) < 2 ^ (w - 1) := by positivity
    rw [check_pos hd]
    simp only [ob_some, Option.some.injEq, Int.sign_zero, mul_zero, zero_mul, add_zero]
    rw [show max (max (-2 ^ (w - 1)) (min (2 ^ (w - 1) - 1) 0)) (-2 ^ (w - 1) + 1) = (0 : Int) by omega,
      Int.zero_tdiv]
  · unfold divI satAddI
    rw [check_pos hd, Int.sign_eq_one_of_pos hr, abs_of_pos hr] at *
    simp only [ob_some, Option.some.injEq]
    rw [show max (max (-2 ^ (w - 1)) (min (2 ^ (w - 1) - 1) (raw + d / 2 * 1))) (-2 ^ (w - 1) + 1) =
      2 ^ (w - 1) - 1 by omega, Int.tdiv_eq_ediv_of_nonneg (by omega)]
    ring

example : divU 32 (2 ^ 32 - 1) (2 ^ 32 - 1) = some 1 ∧ divU 32 (2 ^ 32 - 2 ^ 20) (2 ^ 31 + 1) = some 1 ∧
    divI 32 (-2 ^ 31) 3 = some (-715827882) ∧ divI 32 5 0 = none := by decide +kernel

/-! ## C08: all cases -/

theorem narrowU_ok {r : Nat} {α : Type} (f : Nat → Option α) :
    (do check (wrapU32 r = r); f (wrapU32 r)) = if r < 2 ^ 32 then f r else none := by
  by_cases hr : r < 2 ^ 32
  · have : wrapU32 r = r := Nat.mod_eq_of_lt hr
    rw [check_pos this, if_pos hr, ob_some, this]
  · have : ¬ wrapU32 r = r := by
      unfold wrapU32
      have := Nat.mod_lt r (show 0 < 2 ^ 32 by norm_num)
      omega
    rw [check_neg this, if_neg hr, ob_none]

/-- **C08 (unsigned, more fractional bits).** Into a type with at least as many fractional bits as the exact product,
the product is exact, or fails exactly when it does not fit 32 bits or the result type. -/
theorem C08_mul_unsigned_exact (A B R : FixU) (a b : Nat) (ha : a < 2 ^ 32) (hb : b < 2 ^ 32)
    (hf : A.frac + B.frac < 256) (h1 : A.frac + B.frac ≤ R.frac) (h2 : R.frac - (A.frac + B.frac) < 64) :
    mulU32 A B R a b = if a * b * 2 ^ (R.frac - (A.frac + B.frac)) < 2 ^ 32
      then R.new (a * b * 2 ^ (R.frac - (A.frac + B.frac))) else none := by
  have hmul : a * b < 2 ^ 64 := by
    calc a * b < 2 ^ 32 * 2 ^ 32 := Nat.mul_lt_mul'' ha hb
      _ = 2 ^ 64 := by norm_num
  unfold mulU32
  rw [u64_eq hmul, ob_some, u8_eq hf, ob_some, if_neg (by omega)]
  dsimp only
  rw [check_pos h2, ob_some]
  have hfit := shl_fits (raw := a * b) h2
  generalize R.frac - (A.frac + B.frac) = s at *
  have hw : wrapU64 (a * b * 2 ^ s) = a * b * 2 ^ s % 2 ^ 64 := rfl
  rw [hw]
  by_cases hlt : a * b * 2 ^ s < 2 ^ 32
  · have e : a * b * 2 ^ s % 2 ^ 64 = a * b * 2 ^ s := Nat.mod_eq_of_lt (by omega)
    rw [check_pos (by rw [e]; exact wrapU32_eq hlt), ob_some, check_pos (hfit.mpr (by omega)), ob_some, if_pos hlt, e,
      wrapU32_eq hlt]
  · rw [if_neg hlt]
    by_cases h64 : a * b * 2 ^ s < 2 ^ 64
    · rw [Nat.mod_eq_of_lt h64, check_neg (by
        unfold wrapU32
        have := Nat.mod_lt (a * b * 2 ^ s) (show 0 < 2 ^ 32 by norm_num)
        omega), ob_none]
    · rw [check_neg (fun h => h64 (hfit.mp h))]
      cases check (wrapU32 (a * b * 2 ^ s % 2 ^ 64) = a * b * 2 ^ s % 2 ^ 64) <;> rfl

/-- **C08 (unsigned, saturation).** If adding half a unit to the exact product leaves 64 bits, the result is one unit
below the nearest value. -/
theorem C08_mul_unsigned_saturated (A B R : FixU) (a b : Nat) (ha : a < 2 ^ 32) (hb : b < 2 ^ 32)
    (hf : A.frac + B.frac < 256) (h1 : R.frac < A.frac + B.frac) (h2 : A.frac + B.frac - R.frac < 64)
    (hsat : 2 ^ 64 ≤ a * b + 2 ^ (A.frac + B.frac - R.frac - 1)) :
    Nearest ((a : Int) * b) (A.frac + B.frac - R.frac) ((2 ^ (64 - (A.frac + B.frac - R.frac)) : Nat) : Int) ∧
    32 ≤ A.frac + B.frac - R.frac ∧
    mulU32 A B R a b = R.new (2 ^ (64 - (A.frac + B.frac - R.frac)) - 1) := by
  have hmul : a * b ≤ (2 ^ 32 - 1) * (2 ^ 32 - 1) := Nat.mul_le_mul (by omega) (by omega)
  have hmul' : a * b < 2 ^ 64 := by omega
  unfold mulU32
  rw [u64_eq hmul', ob_some, u8_eq hf, ob_some, if_pos h1]
  generalize hd : A.frac + B.frac - R.frac = s at *
  have hs : 32 ≤ s := by
    by_contra hc
    have : 2 ^ (s - 1) ≤ 2 ^ 31 := Nat.pow_le_pow_right (by norm_num) (by omega)
    omega
  obtain ⟨r, hr, -, hb'⟩ := C07_unsigned 64 s (a * b) (by omega) h2 hmul'
  have hb := hb' hsat
  have h3 : 2 ^ (64 - s) ≤ 2 ^ 32 := Nat.pow_le_pow_right (by norm_num) (by omega)
  have h4 : 0 < 2 ^ (64 - s) := by positivity
  refine ⟨?_, hs, ?_⟩
  · have e : 2 ^ 64 = 2 ^ (64 - s) * 2 ^ s := by rw [← pow_add]; congr 1; omega
    have e2 : 2 ^ s = 2 * 2 ^ (s - 1) := by
      obtain ⟨k, rfl⟩ : ∃ k, s = k + 1 := ⟨s - 1, by omega⟩
      rw [pow_succ]; simp; ring
    have e3 : ((2 ^ (64 - s) : Nat) : Int) * 2 ^ s = 2 ^ 64 := by
      have : ((2 ^ (64 - s) * 2 ^ s : Nat) : Int) = ((2 ^ 64 : Nat) : Int) := by rw [← e]
      push_cast at this ⊢
      exact this
    have e4 : (2 : Int) ^ s = ((2 ^ s : Nat) : Int) := by push_cast; rfl
    have e5 : (a : Int) * b = ((a * b : Nat) : Int) := by push_cast; rfl
    unfold Nearest
    rw [e3, e5, e4]
    generalize a * b = m at *
    generalize 2 ^ (s - 1) = h at *
    generalize 2 ^ s = y at *
    rw [abs_of_nonneg (by omega)]
    refine ⟨by omega, fun _ => ?_⟩
    rw [abs_of_nonneg (by omega), abs_of_nonneg (by omega)]
    omega
  · rw [hr, ob_some, hb]
    have e := narrowU_ok (r := 2 ^ (64 - s) - 1) (fun x => R.new x)
    rw [if_pos (by omega)] at e
    exact e

theorem prod_bound {a b : Int} (ha : -2 ^ 31 ≤ a ∧ a < 2 ^ 31) (hb : -2 ^ 31 ≤ b ∧ b < 2 ^ 31) :
    -2 ^ 62 ≤ a * b ∧ a * b ≤ 2 ^ 62 := by
  have hm : |a * b| ≤ 2 ^ 62 := by
    rw [abs_mul]
    calc |a| * |b| ≤ 2 ^ 31 * 2 ^ 31 :=
          mul_le_mul (abs_le.mpr ⟨by omega, by omega⟩) (abs_le.mpr ⟨by omega, by omega⟩)
            (abs_nonneg _) (by norm_num)
      _ = 2 ^ 62 := by norm_num
  exact abs_le.mp hm

/-- rounding of a product of two 32 bit numbers: to nearest, and by the largest possible shift to zero -/
theorem round_product {m : Int} (hm : -2 ^ 62 ≤ m ∧ m ≤ 2 ^ 62) {s : Nat} (h1 : 1 ≤ s) (h2 : s < 64) :
    ∃ r : Int, scaledDownI 64 m s = some r ∧ 2 * |r * 2 ^ s - m| ≤ 2 ^ s ∧ (s < 63 → Nearest m s r) := by
  rcases Nat.lt_or_ge s 63 with hs | hs
  · obtain ⟨r, hr, hn, -⟩ := C07_signed 64 s m h1 (by omega) (by norm_num; omega) (by norm_num; omega)
    have hN : Nearest m s r := hn (by
      have h3 : (2 : Int) ^ (s - 1) ≤ 2 ^ 61 := pow_le_pow2 (by omega)
      have h4 : |m| ≤ 2 ^ 62 := abs_le.mpr hm
      norm_num at *; omega)
    exact ⟨r, hr, hN.1, fun _ => hN⟩
  · obtain rfl : s = 63 := by omega
    refine ⟨0, ?_, ?_, by omega⟩
    · unfold scaledDownI
      rw [check_pos (by omega), check_pos (by omega)]
      simp only [ob_some, Option.some.injEq]
      have hb : wrapI 64 (2 ^ 63) = -2 ^ 63 := by decide +kernel
      rw [hb]
      have hsg : m.sign = 1 ∨ m.sign = 0 ∨ m.sign = -1 := by
        rcases lt_trichotomy m 0 with h | h | h
        · right; right; exact Int.sign_eq_neg_one_of_neg h
        · right; left; rw [h]; rfl
        · left; exact Int.sign_eq_one_of_pos h
      have hw : wrapI 64 (m.sign * 2 ^ (63 - 1)) = m.sign * 2 ^ 62 := by
        rcases hsg with h | h | h <;> rw [h] <;> decide +kernel
      rw [hw]
      unfold satAddI
      generalize hx : max (max (-2 ^ (64 - 1)) (min (2 ^ (64 - 1) - 1) (m + m.sign * 2 ^ 62))) (-2 ^ (64 - 1) + 1) = x
      have hxl : -2 ^ 63 < x ∧ x < 2 ^ 63 := by
        norm_num at hx ⊢
        omega
      rw [Int.tdiv_neg, Int.neg_eq_zero]
      rcases le_total 0 x with h | h
      · exact Int.tdiv_eq_zero_of_lt h hxl.2
      · obtain ⟨y, rfl⟩ : ∃ y, x = -y := ⟨-x, by omega⟩
        rw [Int.neg_tdiv, Int.neg_eq_zero]
        exact Int.tdiv_eq_zero_of_lt (by omega) (by omega)
    · rw [zero_mul, zero_sub, abs_neg]
      have h4 : |m| ≤ 2 ^ 62 := abs_le.mpr hm
      norm_num at *; omega

/-- **C08 (signed, every shift).** For every pair of operands and every result type with fewer fractional bits than the
exact product, the result is within half a unit of the exact product, or the multiplication fails exactly when that
value does not fit 32 bits or the result type. It is the nearest value, ties away from zero, unless 63 bits are dropped. -/
theorem C08_mul_signed_all (A B R : FixI) (a b : Int) (ha : -2 ^ 31 ≤ a ∧ a < 2 ^ 31)
    (hb : -2 ^ 31 ≤ b ∧ b < 2 ^ 31) (hf : A.frac + B.frac < 256) (h1 : R.frac < A.frac + B.frac)
    (h2 : A.frac + B.frac - R.frac < 64) :
    ∃ r : Int, 2 * |r * 2 ^ (A.frac + B.frac - R.frac) - a * b| ≤ 2 ^ (A.frac + B.frac - R.frac) ∧
      (A.frac + B.frac - R.frac < 63 → Nearest (a * b) (A.frac + B.frac - R.frac) r) ∧
      mulI32 A B R a b = if -2 ^ 31 ≤ r ∧ r < 2 ^ 31 then R.new r else none := by
  have hm := prod_bound ha hb
  unfold mulI32
  rw [i64_eq (by omega), ob_some, u8_eq hf, ob_some, if_pos h1]
  obtain ⟨r, hr, hh, hn⟩ := round_product hm (s := A.frac + B.frac - R.frac) (by omega) h2
  refine ⟨r, hh, hn, ?_⟩
  rw [hr, ob_some]
  exact narrow_ok _

/-- **C08 (signed, more fractional bits).** As `C08_mul_unsigned_exact`. -/
theorem C08_mul_signed_exact (A B R : FixI) (a b : Int) (ha : -2 ^ 31 ≤ a ∧ a < 2 ^ 31)
    (hb : -2 ^ 31 ≤ b ∧ b < 2 ^ 31) (hf : A.frac + B.frac < 256) (h1 : A.frac + B.frac ≤ R.frac)
    (h2 : R.frac - (A.frac + B.frac) < 64) :
    mulI32 A B R a b = if -2 ^ 31 ≤ a * b * 2 ^ (R.frac - (A.frac + B.frac)) ∧
        a * b * 2 ^ (R.frac - (A.frac + B.frac)) < 2 ^ 31
      then R.new (a * b * 2 ^ (R.frac - (A.frac + B.frac))) else none := by
  have hm := prod_bound ha hb
  unfold mulI32
  rw [i64_eq (by omega), ob_some, u8_eq hf, ob_some, if_neg (by omega)]
  dsimp only
  rw [check_pos h2, ob_some]
  have hfit := shl_fits_signed (raw := a * b) h2
  generalize R.frac - (A.frac + B.frac) = s at *
  have hw : wrapI64 (a * b * 2 ^ s) = wrapI 64 (a * b * 2 ^ s) := rfl
  rw [hw]
  by_cases hlt : -2 ^ 63 ≤ a * b * 2 ^ s ∧ a * b * 2 ^ s < 2 ^ 63
  · rw [check_pos (hfit.mpr hlt), wrapI_id (w := 64) (by omega) hlt.1 hlt.2]
    exact narrow_ok (r := a * b * 2 ^ s) R.new
  · rw [check_neg (fun h => hlt (hfit.mp h)), if_neg (by omega)]
    cases check (wrapI32 (wrapI 64 (a * b * 2 ^ s)) = wrapI 64 (a * b * 2 ^ s)) <;> rfl

/-- **C08 (wide, signed).** `mul_wide` is within half a unit of the exact product (nearest, ties away from zero, unless
63 bits are dropped) if the result type has fewer fractional bits, and exact otherwise; it fails only if the exact
value does not fit 64 bits or the result type rejects the value. -/
theorem C08_mul_wide_signed (A B R : FixI) (a b : Int) (ha : -2 ^ 31 ≤ a ∧ a < 2 ^ 31)
    (hb : -2 ^ 31 ≤ b ∧ b < 2 ^ 31) (hf : A.frac + B.frac < 256) :
    (R.frac < A.frac + B.frac → A.frac + B.frac - R.frac < 64 →
      ∃ r : Int, 2 * |r * 2 ^ (A.frac + B.frac - R.frac) - a * b| ≤ 2 ^ (A.frac + B.frac - R.frac) ∧
        (A.frac + B.frac - R.frac < 63 → Nearest (a * b) (A.frac + B.frac - R.frac) r) ∧
        mulWideI32 A B R a b = R.new r) ∧
    (A.frac + B.frac ≤ R.frac → R.frac - (A.frac + B.frac) < 64 →
      mulWideI32 A B R a b = if -2 ^ 63 ≤ a * b * 2 ^ (R.frac - (A.frac + B.frac)) ∧
          a * b * 2 ^ (R.frac - (A.frac + B.frac)) < 2 ^ 63
        then R.new (a * b * 2 ^ (R.frac - (A.frac + B.frac))) else none) := by
  have hm := prod_bound ha hb
  unfold mulWideI32
  rw [i64_eq (by omega), ob_some, u8_eq hf, ob_some]
  constructor
  · intro h1 h2
    rw [if_pos h1]
    obtain ⟨r, hr, hh, hn⟩ := round_product hm (s := A.frac + B.frac - R.frac) (by omega) h2
    exact ⟨r, hh, hn, by rw [hr, ob_some]⟩
  · intro h1 h2
    rw [if_neg (by omega)]
    dsimp only
    rw [check_pos h2, ob_some]
    have hfit := shl_fits_signed (raw := a * b) h2
    generalize R.frac - (A.frac + B.frac) = s at *
    have hw : wrapI64 (a * b * 2 ^ s) = wrapI 64 (a * b * 2 ^ s) := rfl
    rw [hw]
    by_cases hlt : -2 ^ 63 ≤ a * b * 2 ^ s ∧ a * b * 2 ^ s < 2 ^ 63
    · rw [check_pos (hfit.mpr hlt), ob_some, wrapI_id (w := 64) (by omega) hlt.1 hlt.2, if_pos hlt]
    · rw [check_neg (fun h => hlt (hfit.mp h)), ob_none, if_neg hlt]

/-- **C08 (wide, unsigned).** As `C08_mul_wide_signed`; the saturating corner is excluded by `hsat`. -/
theorem C08_mul_wide_unsigned (A B R : FixU) (a b : Nat) (ha : a < 2 ^ 32) (hb : b < 2 ^ 32)
    (hf : A.frac + B.frac < 256) :
    (R.frac < A.frac + B.frac → A.frac + B.frac - R.frac < 64 →
      a * b + 2 ^ (A.frac + B.frac - R.frac - 1) < 2 ^ 64 →
      ∃ r : Nat, Nearest ((a : Int) * b) (A.frac + B.frac - R.frac) r ∧ mulWideU32 A B R a b = R.new r) ∧
    (A.frac + B.frac ≤ R.frac → R.frac - (A.frac + B.frac) < 64 →
      mulWideU32 A B R a b = if a * b * 2 ^ (R.frac - (A.frac + B.frac)) < 2 ^ 64
        then R.new (a * b * 2 ^ (R.frac - (A.frac + B.frac))) else none) := by
  have hmul : a * b < 2 ^ 64 := by
    calc a * b < 2 ^ 32 * 2 ^ 32 := Nat.mul_lt_mul'' ha hb
      _ = 2 ^ 64 := by norm_num
  unfold mulWideU32
  rw [u64_eq hmul, ob_some, u8_eq hf, ob_some]
  constructor
  · intro h1 h2 hsat
    rw [if_pos h1]
    obtain ⟨r, hr, hn, -⟩ := C07_unsigned 64 (A.frac + B.frac - R.frac) (a * b) (by omega) h2 hmul
    have := hn hsat
    rw [Nat.cast_mul] at this
    exact ⟨r, this, by rw [hr, ob_some]⟩
  · intro h1 h2
    rw [if_neg (by omega)]
    dsimp only
    rw [check_pos h2, ob_some]
    have hfit := shl_fits (raw := a * b) h2
    generalize R.frac - (A.frac + B.frac) = s at *
    have hw : wrapU64 (a * b * 2 ^ s) = a * b * 2 ^ s % 2 ^ 64 := rfl
    rw [hw]
    by_cases hlt : a * b * 2 ^ s < 2 ^ 64
    · rw [check_pos (hfit.mpr hlt), ob_some, Nat.mod_eq_of_lt hlt, if_pos hlt]
    · rw [check_neg (fun h => hlt (hfit.mp h)), ob_none, if_neg hlt]

/-- the saturating corner, a product that does not fit, a product with all 63 bits dropped -/
example : mulU32 ⟨17, some⟩ ⟨17, some⟩ ⟨0, some⟩ (2 ^ 32 - 1) (2 ^ 32 - 1) = some (2 ^ 30 - 1) ∧
    mulU32 noFractU32 noFractU32 ⟨1, some⟩ (2 ^ 16) (2 ^ 15) = none ∧
    mulI32 noFractI32 ⟨1, some⟩ ⟨4, some⟩ (-3) 5 = some (-120) ∧
    mulI32 ⟨32, some⟩ ⟨31, some⟩ ⟨0, some⟩ (-2 ^ 31) (-2 ^ 31) = some 0 ∧
    mulWideI32 mixerWeight stretchedProbD stretchedProbQ (-2 ^ 21) 3 = some (-1572864) := by decide +kernel

/-! ## C09: 64 bits -/

/-- **C09 (64 bits).** Complement of a 64 bit probability, as `C09_flip`. -/
theorem C09_flip_wide (p : Nat) (hp : p < 2 ^ 63) :
    (0 < p → flipU64 p = some (2 ^ 63 - p) ∧ 0 < 2 ^ 63 - p ∧ 2 ^ 63 - p < 2 ^ 63 ∧
      (flipU64 p).bind flipU64 = some p) ∧
    (p = 0 → flipU64 p = none) := by
  have key : ∀ q, 0 < q → q < 2 ^ 63 → flipU64 q = some (2 ^ 63 - q) := by
    intro q h0 h1
    unfold flipU64 subU64 subU fractOnlyU64
    rw [if_pos (by omega), ob_some]
    dsimp only
    rw [check_pos (Nat.div_eq_of_lt (by omega))]; rfl
  constructor
  · intro h0
    rw [key p h0 hp]
    refine ⟨rfl, by omega, by omega, ?_⟩
    rw [Option.bind_some, key _ (by omega) (by omega)]
    congr 1; omega
  · rintro rfl
    decide +kernel

example : flipU64 (2 ^ 62 + 7) = some (2 ^ 62 - 7) := by decide +kernel

/-! ## C46: unsigned narrowing -/

/-- **C46 (unsigned narrowing).** Conversion from 64 to 32 bits of an unsigned value: exact or rounded to nearest, and
a panic exactly when the value does not fit 32 bits (or the result type rejects it). -/
theorem C46_narrow_unsigned (A R : FixU) (raw : Nat) (hraw : raw < 2 ^ 64) :
    (A.frac ≤ R.frac → R.frac - A.frac < 64 → toFixU64U32 A R raw =
      if raw * 2 ^ (R.frac - A.frac) < 2 ^ 32 then R.new (raw * 2 ^ (R.frac - A.frac)) else none) ∧
    (R.frac < A.frac → A.frac - R.frac < 64 → raw + 2 ^ (A.frac - R.frac - 1) < 2 ^ 64 →
      ∃ r : Nat, Nearest raw (A.frac - R.frac) r ∧
        toFixU64U32 A R raw = if r < 2 ^ 32 then R.new r else none) := by
  unfold toFixU64U32
  constructor
  · intro h hw
    rw [if_neg (by omega)]
    dsimp only
    rw [check_pos hw, ob_some]
    by_cases hf : raw * 2 ^ (R.frac - A.frac) < 2 ^ 64
    · rw [check_pos ((shl_fits hw).mpr hf), ob_some, Nat.mod_eq_of_lt hf]
      exact narrowU_ok _
    · rw [check_neg (fun h' => hf ((shl_fits hw).mp h')), ob_none, if_neg (by omega)]
  · intro h hw hs
    rw [if_pos h]
    obtain ⟨r, hr, hn, -⟩ := C07_unsigned 64 (A.frac - R.frac) raw (by omega) hw hraw
    exact ⟨r, hn hs, by rw [hr, ob_some]; exact narrowU_ok _⟩

/-- **C46 (saturation).** Where adding half a unit leaves the type, converting to fewer fractional bits gives the value
below the nearest one: the largest quotient, with the sign of the value. -/
theorem C46_saturated (w : Nat) :
    (∀ (A R : FixU) (raw : Nat), raw < 2 ^ w → R.frac < A.frac → A.frac - R.frac < w →
      2 ^ w ≤ raw + 2 ^ (A.frac - R.frac - 1) → toFixU w A R raw = R.new (2 ^ (w - (A.frac - R.frac)) - 1)) ∧
    (∀ (A R : FixI) (raw : Int), -2 ^ (w - 1) < raw → raw < 2 ^ (w - 1) → R.frac < A.frac → A.frac - R.frac + 1 < w →
      2 ^ (w - 1) ≤ |raw| + 2 ^ (A.frac - R.frac - 1) →
      toFixI w A R raw = R.new (raw.sign * (2 ^ (w - 1 - (A.frac - R.frac)) - 1))) := by
  constructor
  · intro A R raw hraw h hw hs
    unfold toFixU
    rw [if_pos h]
    obtain ⟨r, hr, -, hb⟩ := C07_unsigned w (A.frac - R.frac) raw (by omega) hw hraw
    rw [hr, ob_some, hb hs]
  · intro A R raw h1 h2 h hw hs
    unfold toFixI
    rw [if_pos h]
    obtain ⟨r, hr, -, hb⟩ := C07_signed w (A.frac - R.frac) raw (by omega) hw h1 h2
    rw [hr, ob_some, hb hs]

example : toFixU64U32 ⟨40, some⟩ ⟨8, some⟩ (5 * 2 ^ 31 + 2 ^ 30) = some 3 ∧
    toFixU64U32 ⟨40, some⟩ ⟨8, some⟩ (2 ^ 64 - 2 ^ 31 - 1) = some (2 ^ 32 - 1) ∧
    toFixU64U32 ⟨4, some⟩ ⟨8, some⟩ (2 ^ 28) = none ∧
    toFixU 64 fractOnlyU32 fractOnlyU64 7 = some (7 * 2 ^ 32) := by decide +kernel

/-! ## C62: signed and unsigned types -/

/-- **C62 (whole numbers).** Converting between the signed and the unsigned whole number types keeps the value, and
panics exactly when the other type does not have it. -/
theorem C62_whole (w : Nat) (hw : 1 ≤ w) :
    (∀ raw : Int, -2 ^ (w - 1) ≤ raw → raw < 2 ^ (w - 1) →
      noFractToUnsigned w raw = if 0 ≤ raw then some raw.toNat else none) ∧
    (∀ raw : Nat, raw < 2 ^ w → noFractToSigned w raw = if raw < 2 ^ (w - 1) then some (raw : Int) else none) := by
  have e : (2 : Int) ^ w = 2 ^ (w - 1) + 2 ^ (w - 1) := by
    obtain ⟨v, rfl⟩ : ∃ v, w = v + 1 := ⟨w - 1, by omega⟩
    rw [Nat.add_sub_cancel, pow_succ]; ring
  have hp : 0 < 2 ^ (w - 1) := by positivity
  constructor
  · intro raw h1 h2
    unfold noFractToUnsigned
    by_cases h : 0 ≤ raw
    · rw [check_pos h, ob_some, if_pos h, Int.emod_eq_of_lt h (by omega)]
    · rw [check_neg (by omega), ob_none, if_neg h]
  · intro raw h
    unfold noFractToSigned
    by_cases hlt : raw < 2 ^ (w - 1)
    · have : (raw : Int) < 2 ^ (w - 1) := by exact_mod_cast hlt
      rw [check_pos (by omega), ob_some, if_pos hlt, wrapI_id hw (by
        have : (0 : Int) < 2 ^ (w - 1) := by positivity
        omega) this]
    · rw [check_neg (by omega), ob_none, if_neg hlt]

/-- **C62 (probabilities).** Converting a probability between its signed and unsigned type, of 32 or 64 bits, keeps
its raw value and never panics; what is not a probability is rejected by both. -/
theorem C62_probabilities :
    (∀ raw : Nat, raw < 2 ^ 32 → fractToSigned 32 fractOnlyI32 raw = if raw < 2 ^ 31 then some (raw : Int) else none) ∧
    (∀ raw : Nat, raw < 2 ^ 64 → fractToSigned 64 fractOnlyI64 raw = if raw < 2 ^ 63 then some (raw : Int) else none) ∧
    (∀ raw : Int, -2 ^ 31 ≤ raw → raw < 2 ^ 31 →
      fractToUnsigned 32 fractOnlyU32 raw = if 0 ≤ raw then some raw.toNat else none) ∧
    (∀ raw : Int, -2 ^ 63 ≤ raw → raw < 2 ^ 63 →
      fractToUnsigned 64 fractOnlyU64 raw = if 0 ≤ raw then some raw.toNat else none) := by
  refine ⟨?_, ?_, ?_, ?_⟩
  · intro raw h
    unfold fractToSigned fractOnlyI32 wrapI
    dsimp only
    split
    · rw [check_pos (by omega), ob_some]; exact congrArg some (by omega)
    · rw [check_neg (by omega), ob_none]
  · intro raw h
    unfold fractToSigned fractOnlyI64 wrapI
    dsimp only
    split
    · rw [check_pos (by omega), ob_some]; exact congrArg some (by omega)
    · rw [check_neg (by omega), ob_none]
  · intro raw h1 h2
    unfold fractToUnsigned fractOnlyU32
    dsimp only
    split
    · rw [check_pos (by omega), ob_some]; exact congrArg some (by omega)
    · rw [check_neg (by omega), ob_none]
  · intro raw h1 h2
    unfold fractToUnsigned fractOnlyU64
    dsimp only
    split
    · rw [check_pos (by omega), ob_some]; exact congrArg some (by omega)
    · rw [check_neg (by omega), ob_none]

/-- **C62 (sum, difference, negation).** Addition and subtraction, of every width, and negation give the exact result
or panic exactly when it leaves the integer type (or the fixed point type rejects it). -/
theorem C62_exact :
    (∀ (T : FixU) (a b : Nat), (addU32 T a b = if a + b < 2 ^ 32 then T.new (a + b) else none) ∧
      (addU64 T a b = if a + b < 2 ^ 64 then T.new (a + b) else none) ∧
      (subU32 T a b = if b ≤ a then T.new (a - b) else none) ∧
      (subU64 T a b = if b ≤ a then T.new (a - b) else none)) ∧
    (∀ (T : FixI) (a b : Int),
      (addI32 T a b = if -2 ^ 31 ≤ a + b ∧ a + b < 2 ^ 31 then T.new (a + b) else none) ∧
      (addI64 T a b = if -2 ^ 63 ≤ a + b ∧ a + b < 2 ^ 63 then T.new (a + b) else none) ∧
      (subI32 T a b = if -2 ^ 31 ≤ a - b ∧ a - b < 2 ^ 31 then T.new (a - b) else none) ∧
      (subI64 T a b = if -2 ^ 63 ≤ a - b ∧ a - b < 2 ^ 63 then T.new (a - b) else none)) ∧
    (∀ (T : FixI) (a : Int),
      (-2 ^ 31 ≤ a → a < 2 ^ 31 → negI32 T a = if a = -2 ^ 31 then none else T.new (-a)) ∧
      (-2 ^ 63 ≤ a → a < 2 ^ 63 → negI64 T a = if a = -2 ^ 63 then none else T.new (-a))) := by
  refine ⟨fun T a b => ⟨?_, ?_, ?_, ?_⟩, fun T a b => ⟨?_, ?_, ?_, ?_⟩, fun T a => ⟨?_, ?_⟩⟩
  · unfold addU32 u32; norm_num; split <;> rfl
  · unfold addU64 u64; norm_num; split <;> rfl
  · unfold subU32 subU; split <;> rfl
  · unfold subU64 subU; split <;> rfl
  · unfold addI32 i32; norm_num; split <;> rfl
  · unfold addI64 i64; norm_num; split <;> rfl
  · unfold subI32 i32; norm_num; split <;> rfl
  · unfold subI64 i64; norm_num; split <;> rfl
  · intro h1 h2
    unfold negI32 i32
    split
    · rw [if_neg (by omega)]; rfl
    · rw [if_pos (by omega)]; rfl
  · intro h1 h2
    unfold negI64 i64
    split
    · rw [if_neg (by omega)]; rfl
    · rw [if_pos (by omega)]; rfl

/-- **C62 (whole part).** `trunc` is the largest whole number not above the value, also for negative values; for
unsigned types as well. -/
theorem C62_trunc :
    (∀ (T : FixI) (raw : Int), truncI T raw * 2 ^ T.frac ≤ raw ∧ raw < (truncI T raw + 1) * 2 ^ T.frac) ∧
    (∀ (T : FixU) (raw : Nat), truncU T raw * 2 ^ T.frac ≤ raw ∧ raw < (truncU T raw + 1) * 2 ^ T.frac) := by
  constructor
  · intro T raw
    have hp : (0 : Int) < 2 ^ T.frac := by positivity
    unfold truncI
    have h1 := Int.mul_ediv_self_le (x := raw) (k := 2 ^ T.frac) hp.ne'
    have h2 := Int.lt_mul_ediv_self_add (x := raw) (k := 2 ^ T.frac) hp
    constructor
    · rw [mul_comm]; exact h1
    · rw [add_mul, one_mul, mul_comm]; exact h2
  · intro T raw
    have hp : 0 < 2 ^ T.frac := by positivity
    unfold truncU
    have h1 := Nat.div_add_mod raw (2 ^ T.frac)
    have h2 := Nat.mod_lt raw hp
    constructor
    · rw [mul_comm]; omega
    · rw [add_mul, one_mul, mul_comm]; omega

/-- **C62 (quotient).** The division of a fixed point number by an integer is the rounded quotient of `C07_div_*`, or a
panic if the type rejects it. -/
theorem C62_div (w : Nat) :
    (∀ (T : FixU) (raw d : Nat), 0 < d → raw + d / 2 < 2 ^ w →
      ∃ r : Nat, NearestDiv raw d r ∧ divFixU w T raw d = T.new r) ∧
    (∀ (T : FixI) (raw d : Int), 0 < d → |raw| + d / 2 < 2 ^ (w - 1) →
      ∃ r : Int, NearestDiv raw d r ∧ divFixI w T raw d = T.new r) := by
  constructor
  · intro T raw d hd h
    obtain ⟨r, hr, hn⟩ := C07_div_unsigned w raw d hd h
    exact ⟨r, hn, by unfold divFixU; rw [hr, ob_some]⟩
  · intro T raw d hd h
    obtain ⟨r, hr, hn⟩ := C07_div_signed w raw d hd h
    exact ⟨r, hn, by unfold divFixI; rw [hr, ob_some]⟩

example : noFractToUnsigned 32 (-1) = none ∧ noFractToSigned 64 (2 ^ 63) = none ∧
    fractToSigned 32 fractOnlyI32 (2 ^ 31) = none ∧ fractToUnsigned 64 fractOnlyU64 (2 ^ 62) = some (2 ^ 62) ∧
    truncI log2D (-1) = -1 ∧ truncI log2D 4097 = 2 ∧ negI32 log2D (-2 ^ 31) = none ∧
    subI64 noFractI64 (-2 ^ 63) 1 = none ∧ divFixI 32 log2D (-7) 2 = some (-4) := by decide +kernel

/-- **C62 (intervals).** The index of a stretched value is that of the interval it lies in, of `24 · 2^b` intervals of width
`2^-b` from -12 to 12; the top end belongs to the last one. More than 21 bits panic. -/
theorem C62_interval (b : Nat) (raw : Int) (h : |raw| ≤ 12 * 2 ^ 21) :
    (b ≤ 21 → ∃ i : Nat, toIntervalIndex raw b = some (i : Int) ∧ i < intervalsCount b ∧ intervalsCount b = 24 * 2 ^ b ∧
      (-12 + (i : ℚ) / 2 ^ b ≤ raw / 2 ^ 21) ∧
      ((raw : ℚ) / 2 ^ 21 < -12 + ((i : ℚ) + 1) / 2 ^ b ∨ (raw = 12 * 2 ^ 21 ∧ i + 1 = intervalsCount b))) ∧
    (21 < b → toIntervalIndex raw b = none) := by
  rw [abs_le] at h
  constructor
  · intro hb
    unfold toIntervalIndex intervalsCount subU
    rw [if_pos hb, ob_some]
    obtain ⟨c, hc⟩ : ∃ c, 21 - b = c := ⟨_, rfl⟩
    have hP : (2 : Int) ^ b * 2 ^ c = 2 ^ 21 := by rw [← pow_add]; congr 1; omega
    have hPq : (2 : ℚ) ^ b * 2 ^ c = 2 ^ 21 := by exact_mod_cast hP
    rw [hc]
    have hB : (0 : Int) < 2 ^ b := by positivity
    have hC : (0 : Int) < 2 ^ c := by positivity
    have hBq : (0 : ℚ) < 2 ^ b := by positivity
    have hB2 : (2 : Int) ^ b ≤ 2 ^ 21 := pow_le_pow_right₀ (by norm_num) hb
    set m := min raw (12 * 2 ^ 21 - 1) with hm
    have h1 : -(12 * 2 ^ b) ≤ m / 2 ^ c := by
      rw [Int.le_ediv_iff_mul_le hC]
      have : -(12 * 2 ^ b) * (2 : Int) ^ c = -(12 * 2 ^ 21) := by rw [← hP]; ring
      omega
    have h2 : m / 2 ^ c < 12 * 2 ^ b := by
      rw [Int.ediv_lt_iff_lt_mul hC]
      have : 12 * 2 ^ b * (2 : Int) ^ c = 12 * 2 ^ 21 := by rw [← hP]; ring
      omega
    have h3 : m / 2 ^ c * 2 ^ c ≤ m := Int.ediv_mul_le m hC.ne'
    have h4 : m < (m / 2 ^ c + 1) * 2 ^ c := Int.lt_ediv_add_one_mul_self m hC
    set q := m / 2 ^ c with hq
    refine ⟨(12 * 2 ^ b + q).toNat, ?_, by zify; rw [Int.toNat_of_nonneg (by omega)]; omega, rfl, ?_, ?_⟩
    · unfold i32
      rw [if_pos (by constructor <;> omega), Int.toNat_of_nonneg (by omega)]
    · have e : (((12 * 2 ^ b + q).toNat : ℕ) : ℚ) = 12 * 2 ^ b + q := by
        have : (((12 * 2 ^ b + q).toNat : ℕ) : ℤ) = 12 * 2 ^ b + q := Int.toNat_of_nonneg (by omega)
        exact_mod_cast this
      rw [e, add_div, mul_div_cancel_right₀ _ hBq.ne', ← add_assoc, neg_add_cancel, zero_add, ← hPq,
        div_le_div_iff₀ hBq (by positivity)]
      have h5 : q * 2 ^ c ≤ raw := by omega
      have h6 : (q : ℚ) * 2 ^ c ≤ raw := by exact_mod_cast h5
      calc (q : ℚ) * (2 ^ b * 2 ^ c) = q * 2 ^ c * 2 ^ b := by ring
        _ ≤ raw * 2 ^ b := mul_le_mul_of_nonneg_right h6 hBq.le
    · have e : (((12 * 2 ^ b + q).toNat : ℕ) : ℚ) = 12 * 2 ^ b + q := by
        have : (((12 * 2 ^ b + q).toNat : ℕ) : ℤ) = 12 * 2 ^ b + q := Int.toNat_of_nonneg (by omega)
        exact_mod_cast this
      by_cases hr : raw = 12 * 2 ^ 21
      · right
        refine ⟨hr, ?_⟩
        have h7 : q = 12 * 2 ^ b - 1 := by
          rw [hr] at hm
          have h8 : (12 * 2 ^ b - 1) * (2 : Int) ^ c = 12 * 2 ^ 21 - 2 ^ c := by rw [← hP]; ring
          have h9 : 12 * 2 ^ b - 1 ≤ q := by
            rw [hq, Int.le_ediv_iff_mul_le hC, h8]
            omega
          omega
        have : (((12 * 2 ^ b + q).toNat : ℕ) : ℤ) = 12 * 2 ^ b + q := Int.toNat_of_nonneg (by omega)
        zify
        omega
      · left
        rw [e, add_assoc, add_div, mul_div_cancel_right₀ _ hBq.ne', ← add_assoc, neg_add_cancel, zero_add, ← hPq,
          div_lt_div_iff₀ (by positivity) hBq]
        have h5 : raw < (q + 1) * 2 ^ c := by omega
        have h6 : (raw : ℚ) < (q + 1) * 2 ^ c := by exact_mod_cast h5
        calc (raw : ℚ) * 2 ^ b < (q + 1) * 2 ^ c * 2 ^ b := mul_lt_mul_of_pos_right h6 hBq
          _ = (q + 1) * (2 ^ b * 2 ^ c) := by ring
  · intro hb
    unfold toIntervalIndex subU
    rw [if_neg (by omega), ob_none]

/-- a value just below zero is in the last interval of the lower half -/
example : toIntervalIndex (-1) 2 = some 47 ∧ toIntervalIndex (12 * 2 ^ 21) 2 = some 95 := by decide

end Verif.Fixed
