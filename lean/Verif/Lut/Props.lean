import Verif.Lut.Grid
import Verif.Lut.Spec

/-!
# Properties of stretch and squash (C35, C36, C37)
-/

namespace Verif.Lut

open Verif Verif.Fixed

attribute [local irreducible] squashTable stretchTable

theorem gExp_le {n : Nat} (hn : n < 4096) : gExp n ≤ 31 := by unfold gExp; split <;> omega

theorem weight_lt {n d : Nat} (hn : n < 4096) (hd : d < 2 ^ gExp n) : d * 2 ^ (31 - gExp n) < 2147483648 := by
  calc d * 2 ^ (31 - gExp n) < 2 ^ gExp n * 2 ^ (31 - gExp n) := Nat.mul_lt_mul_of_pos_right hd (by positivity)
    _ = 2147483648 := by
      rw [← pow_add, show gExp n + (31 - gExp n) = 31 by have := gExp_le hn; omega]; rfl

theorem stretchMag_le {p : Nat} (h0 : p ≠ 0) (h : p < 2 ^ 30) : stretchMag p ≤ 24711779 := by
  obtain ⟨n, hn, d, hd, rfl⟩ := cell_exists h
  rw [stretch_cell hn hd h0]
  exact le_trans (down_between (weight_lt hn hd) (gVal_step hn)).2 (gVal_le (by omega))

theorem stMag_upper {p : Nat} (h : 2 ^ 30 < p) : stMag p = stretchMag (2 ^ 31 - p) := by
  have hb : Nat.beq p 1073741824 = false := by rw [Bool.eq_false_iff, ne_eq, Nat.beq_eq]; omega
  unfold stMag
  rw [hb, cond_false, show (2 : Nat) ^ 31 = 2147483648 from rfl]

theorem stMag_half : stMag (2 ^ 30) = 0 := rfl

theorem stOut_neg {p : Nat} (h0 : 0 < p) (h : p < 2 ^ 31) : stOut (2 ^ 31 - p) = -stOut p := by
  unfold stOut
  rcases Nat.lt_trichotomy p (2 ^ 30) with h1 | h1 | h1
  · rw [if_neg (by omega), if_pos h1, stMag_upper (by omega), show 2 ^ 31 - (2 ^ 31 - p) = p by omega]
    omega
  · subst h1
    rw [show 2 ^ 31 - 2 ^ 30 = 2 ^ 30 from rfl, if_neg (by omega), stMag_half]
    rfl
  · rw [if_pos (by omega), if_neg (by omega), stMag_upper h1]

theorem stOut_bounds {p : Nat} (h0 : 0 < p) (h : p < 2 ^ 31) :
    |stOut p| ≤ stretchLimit ∧ (p ≤ 2 ^ 30 → stOut p ≤ 0) ∧ (2 ^ 30 ≤ p → 0 ≤ stOut p) := by
  unfold stOut stretchLimit
  rcases Nat.lt_trichotomy p (2 ^ 30) with h1 | h1 | h1
  · rw [if_pos h1, abs_le]
    have := stretchMag_le (p := p) (by omega) h1
    omega
  · subst h1
    rw [if_neg (by omega), stMag_half]
    norm_num
  · rw [if_neg (by omega), stMag_upper h1, abs_le]
    have := stretchMag_le (p := 2 ^ 31 - p) (by omega) (by omega)
    omega

/-- C35: the stretch table can be built; stretch is then defined for every probability strictly between zero and
one, is bounded, odd, zero at one half, and never has the wrong sign. -/
theorem C35_stretch : ∃ lut, stretchLutNew = some lut ∧ stretch lut (2 ^ 30) = some 0 ∧
    ∀ p, 0 < p → p < 2 ^ 31 → ∃ r, stretch lut p = some r ∧ stretch lut (2 ^ 31 - p) = some (-r) ∧
      |r| ≤ stretchLimit ∧ |r| ≤ 12 * 2 ^ 21 ∧ (p ≤ 2 ^ 30 → r ≤ 0) ∧ (2 ^ 30 ≤ p → 0 ≤ r) := by
  refine ⟨stretchTable, stretchLut_eq, rfl, ?_⟩
  intro p h0 h
  obtain ⟨b1, b2, b3⟩ := stOut_bounds h0 h
  refine ⟨stOut p, (stretch_eq stretchTable_ok h0 h).1, ?_, b1, ?_, b2, b3⟩
  · rw [← stOut_neg h0 h]
    exact (stretch_eq stretchTable_ok (by omega) (by omega)).1
  · unfold stretchLimit at b1; omega

/-- the hypotheses hold for a concrete probability -/
example : (0 < 12345678 ∧ 12345678 < 2 ^ 31) := by decide

/-- C35: stretch rejects zero. -/
theorem C35_zero (lut : List (List Int)) : stretch lut 0 = none := rfl

theorem segment_cell {a s : Nat} (h : Segment a s) : ∃ n, 0 < n ∧ n < 4096 ∧ a = gPoint n ∧ s = 2 ^ gExp n := by
  obtain ⟨⟨q, rfl⟩, h⟩ := h
  rcases h with ⟨rfl, h1, h2⟩ | ⟨e, h1, h2, rfl, h3, h4⟩
  · refine ⟨q, by omega, by omega, ?_, ?_⟩
    · unfold gPoint; rw [if_pos (by omega)]; omega
    · unfold gExp; rw [if_pos (by omega)]
  · have e1 : 2 ^ e = 2 ^ (e - 9) * 512 := by
      rw [show (512 : Nat) = 2 ^ 9 from rfl, ← pow_add]; congr 1; omega
    have e2 : 2 ^ (e + 1) = 2 ^ (e - 9) * 1024 := by
      rw [show (1024 : Nat) = 2 ^ 10 from rfl, ← pow_add]; congr 1; omega
    rw [e1] at h3
    rw [e2] at h4
    have q1 := Nat.le_of_mul_le_mul_left h3 (by positivity)
    have q2 := Nat.lt_of_mul_lt_mul_left h4
    refine ⟨512 * (e - 22) + (q - 512), by omega, by omega, ?_, ?_⟩
    · unfold gPoint
      rw [if_neg (by omega), show 512 + (512 * (e - 22) + (q - 512)) % 512 = q by omega,
        show 13 + (512 * (e - 22) + (q - 512)) / 512 = e - 9 by omega, Nat.mul_comm]
    · unfold gExp
      rw [if_neg (by omega), show 13 + (512 * (e - 22) + (q - 512)) / 512 = e - 9 by omega]

theorem stOut_lower {p : Nat} (h : p < 2 ^ 30) : stOut p = -(stretchMag p : Int) := by
  unfold stOut; rw [if_pos h]

theorem gPoint_lt {n : Nat} (h : n < 4096) : gPoint n < 2 ^ 30 := by
  have h1 := gPoint_succ n
  have h2 := gPoint_mono (m := n + 1) (n := 4096) (by omega)
  have : 0 < 2 ^ gExp n := by positivity
  rw [gPoint_end] at h2
  omega

theorem gPoint_pos {n : Nat} (h : 0 < n) : 0 < gPoint n := by
  have := gPoint_mono (m := 1) (n := n) (by omega)
  have h1 : gPoint 1 = 16384 := rfl
  omega

/-- value at grid points, including one half -/
theorem stOut_point {n : Nat} (h0 : 0 < n) (hn : n ≤ 4096) : stOut (gPoint n) = -(gVal n : Int) := by
  by_cases h : n = 4096
  · subst h
    rfl
  · rw [stOut_lower (gPoint_lt (by omega)), stretch_point (by omega) (by omega)]

/-- C35: on each segment of the grid, stretch lies between its values at the ends of the segment and less than
one unit away from the straight line between them. -/
theorem C35_interpolates (lut : List (List Int)) (hlut : stretchLutNew = some lut) (a s d : Nat) (h : Segment a s)
    (hd : d < s) : ∃ l u r, stretch lut a = some l ∧ stretch lut (a + s) = some u ∧ stretch lut (a + d) = some r ∧
      l ≤ r ∧ r ≤ u ∧ OnLine l u s d r := by
  rw [stretchLut_eq] at hlut
  obtain rfl := Option.some.inj hlut
  obtain ⟨n, h0, hn, rfl, rfl⟩ := segment_cell h
  have hp := gPoint_pos h0
  have hs := gPoint_succ n
  have hm := gPoint_mono (m := n + 1) (n := 4096) (by omega)
  rw [gPoint_end] at hm
  have hlt := gPoint_lt hn
  refine ⟨_, _, _, (stretch_eq stretchTable_ok hp (by omega)).1,
    (stretch_eq stretchTable_ok (by omega) (by omega)).1, (stretch_eq stretchTable_ok (by omega) (by omega)).1, ?_⟩
  rw [hs, stOut_point h0 (by omega), stOut_point (by omega) (by omega), stOut_lower (by omega),
    stretch_cell hn hd (by omega)]
  have hw := weight_lt hn hd
  obtain ⟨b1, b2⟩ := down_between hw (gVal_step hn)
  have hx := interp_exact (l := gVal n) (r := gVal (n + 1)) hw
  refine ⟨by omega, by omega, ?_⟩
  unfold OnLine
  have e : (2 : Int) ^ gExp n * 2 ^ (31 - gExp n) = 2147483648 := by
    rw [← pow_add, show gExp n + (31 - gExp n) = 31 by have := gExp_le hn; omega]; rfl
  generalize gVal n - sq31 (gVal n) (d * 2 ^ (31 - gExp n)) +
    sq31 (gVal (n + 1)) (d * 2 ^ (31 - gExp n)) = v at *
  generalize gVal n = x at *
  generalize gVal (n + 1) = y at *
  have hpos : (0 : Int) < 2 ^ (31 - gExp n) := by positivity
  push_cast at hx ⊢
  generalize (2 : Int) ^ gExp n = S at *
  generalize (2 : Int) ^ (31 - gExp n) = W at *
  have key : (-(v : Int) * S - (-x * (S - d) + -y * d)) * W = -((v : Int) * 2147483648 -
      (x * (2147483648 - d * W) + y * (d * W))) := by
    rw [← e]; ring
  have k2 : |(-(v : Int) * S - (-x * (S - d) + -y * d)) * W| < S * W := by
    rw [key, abs_neg, e]; exact hx
  rw [abs_mul, abs_of_pos hpos] at k2
  exact lt_of_mul_lt_mul_right k2 hpos.le

/-- a segment of the grid -/
example : Segment (700 * 2 ^ 18) (2 ^ 18) := ⟨⟨700, by norm_num⟩, .inr ⟨27, by norm_num, by norm_num, rfl, by norm_num,
  by norm_num⟩⟩

/-- C35: probabilities up to `2^-17` all have the value of `2^-17`. -/
theorem C35_floor (lut : List (List Int)) (hlut : stretchLutNew = some lut) (p : Nat) (h0 : 0 < p)
    (h : p ≤ 2 ^ 14) : stretch lut p = some (-stretchLimit) := by
  rw [stretchLut_eq] at hlut
  obtain rfl := Option.some.inj hlut
  rw [(stretch_eq stretchTable_ok h0 (by omega)).1, stOut_lower (by omega)]
  unfold stretchLimit
  by_cases he : p = 2 ^ 14
  · subst he
    rw [show (2 : Nat) ^ 14 = 16384 from rfl, stretch_min]
    rfl
  · have := stretch_cell (n := 0) (d := p) (by omega) (by unfold gExp; rw [if_pos (by omega)]; omega)
      (by rw [gPoint_zero]; omega)
    rw [gPoint_zero, Nat.zero_add] at this
    have e1 : gVal (0 + 1) = gVal 0 := rfl
    have hw := weight_lt (n := 0) (d := p) (by omega) (by unfold gExp; rw [if_pos (by omega)]; omega)
    have hl := sq31_le (a := gVal 0) hw
    rw [this, e1, Nat.sub_add_cancel hl, gVal_zero]
    rfl

example : (0 < 5 ∧ 5 ≤ 2 ^ 14) := by decide

/-- near monotonicity of the decreasing interpolation -/
theorem down_near {l r v w : Nat} (hw : w < 2147483648) (h : r ≤ l) (hvw : v ≤ w) :
    l - sq31 l w + sq31 r w ≤ l - sq31 l v + sq31 r v + 1 := by
  have h1 := sq31_le (a := l) hw
  have h2 := sq31_le (a := l) (w := v) (by omega)
  obtain ⟨a1, a2⟩ := sq31_exact l w
  obtain ⟨b1, b2⟩ := sq31_exact r w
  obtain ⟨c1, c2⟩ := sq31_exact l v
  obtain ⟨d1, d2⟩ := sq31_exact r v
  have e1 : l * w = l * v + l * (w - v) := by rw [← Nat.mul_add]; congr 1; omega
  have e2 : r * w = r * v + r * (w - v) := by rw [← Nat.mul_add]; congr 1; omega
  have e3 : r * (w - v) ≤ l * (w - v) := Nat.mul_le_mul_right _ h
  generalize sq31 l w = s1 at *
  generalize sq31 r w = s2 at *
  generalize sq31 l v = s3 at *
  generalize sq31 r v = s4 at *
  omega

theorem stretchMag_near {p q : Nat} (h0 : 0 < p) (hpq : p ≤ q) (h : q < 2 ^ 30) : stretchMag q ≤ stretchMag p + 1 := by
  obtain ⟨m, hm, d, hd, rfl⟩ := cell_exists (p := p) (by omega)
  obtain ⟨n, hn, e, he, rfl⟩ := cell_exists h
  have hmn : m ≤ n := by
    by_contra hc
    have h1 := gPoint_mono (m := n + 1) (n := m) (by omega)
    rw [← gPoint_succ] at h1
    omega
  rw [stretch_cell hm hd (by omega), stretch_cell hn he (by omega)]
  obtain ⟨a1, a2⟩ := down_between (weight_lt hm hd) (gVal_step hm)
  obtain ⟨b1, b2⟩ := down_between (weight_lt hn he) (gVal_step hn)
  by_cases hc : m = n
  · subst hc
    exact down_near (weight_lt hn he) (gVal_step hn) (Nat.mul_le_mul_right _ (by omega))
  · have := gVal_mono (m := m + 1) (n := n) (by omega) (by omega)
    omega

/-- C35: stretch never decreases by more than one unit of its last place. -/
theorem C35_near_monotone (lut : List (List Int)) (hlut : stretchLutNew = some lut) (p q : Nat) (h0 : 0 < p)
    (hpq : p ≤ q) (h : q < 2 ^ 31) : ∃ r t, stretch lut p = some r ∧ stretch lut q = some t ∧ r ≤ t + 1 := by
  rw [stretchLut_eq] at hlut
  obtain rfl := Option.some.inj hlut
  refine ⟨_, _, (stretch_eq stretchTable_ok h0 (by omega)).1, (stretch_eq stretchTable_ok (by omega) h).1, ?_⟩
  by_cases c1 : q < 2 ^ 30
  · rw [stOut_lower c1, stOut_lower (by omega)]
    have := stretchMag_near h0 hpq c1
    omega
  · have hq := (stOut_bounds (p := q) (by omega) h).2.2 (by omega)
    by_cases c2 : p ≤ 2 ^ 30
    · have := (stOut_bounds (p := p) h0 (by omega)).2.1 c2
      omega
    · unfold stOut
      rw [if_neg (by omega), if_neg c1, stMag_upper (by omega), stMag_upper (by omega)]
      have := stretchMag_near (p := 2 ^ 31 - q) (q := 2 ^ 31 - p) (by omega) (by omega) (by omega)
      omega

example : (0 < 153535390 ∧ 153535390 ≤ 153535391 ∧ 153535391 < 2 ^ 31) := by decide

/-- C35, a defect: stretch is not monotone; the two rounded products of the interpolation can step back. -/
theorem C35_not_monotone (lut : List (List Int)) (hlut : stretchLutNew = some lut) :
    stretch lut 153535390 = some (-5376974) ∧ stretch lut 153535391 = some (-5376975) := by
  rw [stretchLut_eq] at hlut
  obtain rfl := Option.some.inj hlut
  have h1 : stretchMag 153535390 = 5376974 := by decide +kernel
  have h2 : stretchMag 153535391 = 5376975 := by decide +kernel
  rw [(stretch_eq stretchTable_ok (by norm_num) (by norm_num)).1,
    (stretch_eq stretchTable_ok (by norm_num) (by norm_num)).1, stOut_lower (by norm_num), stOut_lower (by norm_num),
    h1, h2]
  exact ⟨rfl, rfl⟩

/-! ## Squash -/

theorem sub_sq {l w : Nat} (hl : l < 2 ^ 31) (hw : w < 2 ^ 31) :
    subU32 fractOnlyU32 l (sq31 l w) = some (l - sq31 l w) := by
  have h1 := sq31_le (a := l) (w := w) (by omega)
  unfold subU32
  rw [subU_eq h1, ob_some, fu_new (by omega)]

/-- squash at cell `j`, offset `d` -/
def sqOut (j d : Nat) : Nat :=
  if j = 3072 then sqAt 3072 else
  sqAt j - sq31 (sqAt j) (d * 131072) + sq31 (sqAt (j + 1)) (d * 131072)

theorem squash_cell {j d : Nat} (hd : d < 16384) (hj : 16384 * j + d ≤ 16384 * 3072) :
    squash squashTable ((16384 * j + d : Nat) - 25165824) = some (sqOut j d) := by
  have hdiv : (((16384 * j + d : Nat) : Int) - 25165824) / 2 ^ 14 + 12 * 2 ^ 7 = j := by
    rw [show ((2 : Int) ^ 14) = 16384 by norm_num]
    omega
  have hmod : ((((16384 * j + d : Nat) : Int) - 25165824) % 2 ^ 14).toNat = d := by
    rw [show ((2 : Int) ^ 14) = 16384 by norm_num]
    omega
  unfold squash sqOut
  rw [hdiv, i32_eq (by omega), ob_some, check_pos (by omega), ob_some]
  dsimp only
  rw [Int.toNat_natCast, hmod, show squashSize - 1 = 3072 from rfl]
  by_cases h : j = 3072
  · rw [if_pos h, if_pos h, h, squashTable_get (le_refl _)]
  · rw [if_neg h, if_neg h, squashTable_get (by omega), ob_some, squashTable_get (by omega), ob_some,
      show (31 - 14) = 17 from rfl, show (2 : Nat) ^ 17 = 131072 from rfl, fu_new (by omega), ob_some]
    obtain ⟨b1, b2⟩ := sqAt_bounds (j := j) (by omega)
    obtain ⟨c1, c2⟩ := sqAt_bounds (j := j + 1) (by omega)
    have hm := sqAt_mono (j := j) (by omega)
    obtain ⟨m1, m2⟩ := up_between (w := d * 131072) (by omega) hm
    rw [(mulU32_eq (a := sqAt j) (b := d * 131072) (by omega) (by omega)).1, ob_some,
      sub_sq (by omega) (by omega), ob_some,
      (mulU32_eq (a := sqAt (j + 1)) (b := d * 131072) (by omega) (by omega)).1, ob_some]
    unfold addU32
    rw [u32_eq (by omega), ob_some, fu_new (by omega)]

theorem squash_at {j d : Nat} {x : Int} (hd : d < 16384) (hj : 16384 * j + d ≤ 16384 * 3072)
    (hx : x = ((16384 * j + d : Nat) : Int) - 25165824) : squash squashTable x = some (sqOut j d) := by
  rw [hx]; exact squash_cell hd hj

theorem sqOut_zero (j : Nat) : sqOut j 0 = sqAt j := by
  unfold sqOut
  by_cases h : j = 3072
  · rw [if_pos h, h]
  · rw [if_neg h, Nat.zero_mul, sq31_zero, sq31_zero, Nat.sub_zero, Nat.add_zero]

theorem sqOut_between {j d : Nat} (hd : d < 16384) (hj : j < 3072) :
    sqAt j ≤ sqOut j d ∧ sqOut j d ≤ sqAt (j + 1) := by
  unfold sqOut
  rw [if_neg (by omega)]
  exact up_between (by omega) (sqAt_mono hj)

/-- the product with complements -/
theorem sq31_compl {a w : Nat} (ha : a ≤ 2147483648) (hw : w ≤ 2147483648) :
    sq31 (2147483648 - a) (2147483648 - w) + a + w = 2147483648 + sq31 a w := by
  unfold sq31
  obtain ⟨b, rfl⟩ : ∃ b, a = 2147483648 - b := ⟨2147483648 - a, by omega⟩
  obtain ⟨hb⟩ : Nonempty (2147483648 - (2147483648 - b) = min b 2147483648) := ⟨by omega⟩
  rw [hb]
  generalize hc : min b 2147483648 = c
  have hc2 : c ≤ 2147483648 := by omega
  have hc3 : 2147483648 - b = 2147483648 - c := by omega
  rw [hc3]
  clear hb hc hc3 ha
  obtain ⟨v, hv⟩ : ∃ v, v = 2147483648 - w := ⟨_, rfl⟩
  have hw2 : w = 2147483648 - v := by omega
  have hv2 : v ≤ 2147483648 := by omega
  rw [← hv, hw2]
  have e : (2147483648 - c) * (2147483648 - v) + 2147483648 * c + 2147483648 * v =
      2147483648 * 2147483648 + c * v := by
    obtain ⟨x, hx⟩ : ∃ x, x = 2147483648 - c := ⟨_, rfl⟩
    obtain ⟨y, hy⟩ : ∃ y, y = 2147483648 - v := ⟨_, rfl⟩
    rw [← hx, ← hy]
    have e1 : c = 2147483648 - x := by omega
    have e2 : v = 2147483648 - y := by omega
    zify [hc2, hv2] at *
    rw [hx, hy]
    ring
  generalize (2147483648 - c) * (2147483648 - v) = X at *
  generalize c * v = Y at *
  omega

theorem sqOut_symm {j d : Nat} (hd : 0 < d) (hd2 : d < 16384) (hj : j < 3072) :
    sqOut (3071 - j) (16384 - d) + sqOut j d = 2147483648 := by
  obtain ⟨b1, b2⟩ := sqAt_bounds (j := j) (by omega)
  obtain ⟨c1, c2⟩ := sqAt_bounds (j := j + 1) (by omega)
  have s1 := sqAt_symm (j := j) (by omega)
  have s2 := sqAt_symm (j := j + 1) (by omega)
  have hbt := sqOut_between hd2 hj
  unfold sqOut at *
  rw [if_neg (by omega)] at *
  rw [if_neg (by omega)]
  rw [show 3072 - j = 3071 - j + 1 by omega] at s1
  rw [show 3072 - (j + 1) = 3071 - j by omega] at s2
  have k1 := sq31_compl (a := sqAt j) (w := d * 131072) (by omega) (by omega)
  have k2 := sq31_compl (a := sqAt (j + 1)) (w := d * 131072) (by omega) (by omega)
  rw [show 2147483648 - d * 131072 = (16384 - d) * 131072 by omega] at k1 k2
  rw [show 2147483648 - sqAt j = sqAt (3071 - j + 1) by omega] at k1
  rw [show 2147483648 - sqAt (j + 1) = sqAt (3071 - j) by omega] at k2
  have l1 := sq31_le (a := sqAt (3071 - j)) (w := (16384 - d) * 131072) (by omega)
  have l2 := sq31_le (a := sqAt j) (w := d * 131072) (by omega)
  omega

theorem squash_int {x : Int} (h : |x| ≤ 12 * 2 ^ 21) : ∃ j d : Nat, d < 16384 ∧ j ≤ 3072 ∧
    16384 * j + d ≤ 16384 * 3072 ∧ x = ((16384 * j + d : Nat) : Int) - 25165824 := by
  rw [abs_le] at h
  norm_num at h
  refine ⟨(x + 25165824).toNat / 16384, (x + 25165824).toNat % 16384, by omega, by omega, by omega, by omega⟩

theorem sqOut_bounds {j d : Nat} (hd : d < 16384) (hj : j ≤ 3072) :
    16384 ≤ sqOut j d ∧ sqOut j d ≤ 2147467264 := by
  by_cases h : j = 3072
  · unfold sqOut
    rw [if_pos h]
    exact sqAt_bounds (le_refl _)
  · obtain ⟨b1, b2⟩ := sqAt_bounds (j := j) (by omega)
    obtain ⟨c1, c2⟩ := sqAt_bounds (j := j + 1) (by omega)
    have := sqOut_between hd (show j < 3072 by omega)
    omega

/-- C36: the squash table can be built; squash is then defined on the whole range, stays between `2^-17` and
`1 - 2^-17`, and `squash(-x) = 1 - squash(x)` exactly. -/
theorem C36_squash : ∃ lut table, stretchLutNew = some lut ∧ squashLutNew lut = some table ∧
    squash table 0 = some (2 ^ 30) ∧
    ∀ x : Int, |x| ≤ 12 * 2 ^ 21 → ∃ r, squash table x = some r ∧ squash table (-x) = some (2 ^ 31 - r) ∧
      2 ^ 14 ≤ r ∧ r ≤ 2 ^ 31 - 2 ^ 14 := by
  have hz : squash squashTable 0 = some (2 ^ 30) := by
    have := squash_cell (j := 1536) (d := 0) (by omega) (by omega)
    rw [sqOut_zero] at this
    have e : sqAt 1536 = 2 ^ 30 := by unfold sqAt; rw [if_neg (by omega), Nat.sub_self, squash_zero]; rfl
    rw [e] at this
    exact this
  refine ⟨stretchTable, squashTable, stretchLut_eq, squashLut_eq stretchTable_ok, hz, ?_⟩
  intro x hx
  obtain ⟨j, d, hd, hj, hjd, rfl⟩ := squash_int hx
  obtain ⟨b1, b2⟩ := sqOut_bounds hd hj
  refine ⟨sqOut j d, squash_cell hd hjd, ?_, by omega, by omega⟩
  by_cases h0 : d = 0
  · subst h0
    have := squash_cell (j := 3072 - j) (d := 0) (by omega) (by omega)
    rw [sqOut_zero] at this
    rw [sqOut_zero, show -(((16384 * j + 0 : Nat) : Int) - 25165824) =
      ((16384 * (3072 - j) + 0 : Nat) : Int) - 25165824 by omega, this]
    have hs := sqAt_symm hj
    have e : sqAt (3072 - j) = 2 ^ 31 - sqAt j := by omega
    rw [e]
  · have := squash_cell (j := 3071 - j) (d := 16384 - d) (by omega) (by omega)
    rw [show -(((16384 * j + d : Nat) : Int) - 25165824) =
      ((16384 * (3071 - j) + (16384 - d) : Nat) : Int) - 25165824 by omega, this]
    have hs := sqOut_symm (j := j) (by omega) hd (by omega)
    have e : sqOut (3071 - j) (16384 - d) = 2 ^ 31 - sqOut j d := by omega
    rw [e]

example : |(-24346603 : Int)| ≤ 12 * 2 ^ 21 := by norm_num

/-- C36: between two adjacent table points (multiples of `2^-7`) squash lies between its values there and less
than one unit away from the straight line between them; in particular the table is monotone. -/
theorem C36_interpolates (lut : List (List Int)) (table : List Nat) (hlut : stretchLutNew = some lut)
    (htab : squashLutNew lut = some table) (j : Int) (d : Nat) (h1 : -1536 ≤ j) (h2 : j < 1536) (hd : d < 2 ^ 14) :
    ∃ l u r, squash table (j * 2 ^ 14) = some l ∧ squash table ((j + 1) * 2 ^ 14) = some u ∧
      squash table (j * 2 ^ 14 + d) = some r ∧ l ≤ r ∧ r ≤ u ∧ OnLine l u (2 ^ 14) d r := by
  rw [stretchLut_eq] at hlut
  obtain rfl := Option.some.inj hlut
  rw [squashLut_eq stretchTable_ok] at htab
  obtain rfl := Option.some.inj htab
  obtain ⟨i, hi⟩ : ∃ i : Nat, (i : Int) = j + 1536 := ⟨(j + 1536).toNat, by omega⟩
  have hj : j = (i : Int) - 1536 := by omega
  subst hj
  have s1 := squash_at (j := i) (d := 0) (x := ((i : Int) - 1536) * 2 ^ 14) (by omega) (by omega) (by omega)
  have s2 := squash_at (j := i + 1) (d := 0) (x := ((i : Int) - 1536 + 1) * 2 ^ 14) (by omega) (by omega)
    (by omega)
  have s3 := squash_at (j := i) (d := d) (x := ((i : Int) - 1536) * 2 ^ 14 + d) (by omega) (by omega) (by omega)
  rw [sqOut_zero] at s1 s2
  refine ⟨sqAt i, sqAt (i + 1), sqOut i d, s1, s2, s3, (sqOut_between (by omega) (by omega)).1,
    (sqOut_between (by omega) (by omega)).2, ?_⟩
  · unfold OnLine sqOut
    rw [if_neg (by omega)]
    have hx := interp_exact (l := sqAt i) (r := sqAt (i + 1)) (w := d * 131072) (by omega)
    generalize sqAt i - sq31 (sqAt i) (d * 131072) + sq31 (sqAt (i + 1)) (d * 131072) = v at *
    generalize sqAt i = x at *
    generalize sqAt (i + 1) = y at *
    rw [abs_lt] at hx ⊢
    push_cast at hx ⊢
    norm_num
    constructor <;> nlinarith [hx.1, hx.2]

example : (-1536 ≤ (-1480 : Int) ∧ (-1480 : Int) < 1536 ∧ 5000 < 2 ^ 14) := by norm_num

theorem up_near {l r v w : Nat} (hw : w < 2147483648) (h : l ≤ r) (hvw : v ≤ w) :
    l - sq31 l v + sq31 r v ≤ l - sq31 l w + sq31 r w + 1 := by
  have h1 := sq31_le (a := l) hw
  have h2 := sq31_le (a := l) (w := v) (by omega)
  obtain ⟨a1, a2⟩ := sq31_exact l w
  obtain ⟨b1, b2⟩ := sq31_exact r w
  obtain ⟨c1, c2⟩ := sq31_exact l v
  obtain ⟨d1, d2⟩ := sq31_exact r v
  have e1 : l * w = l * v + l * (w - v) := by rw [← Nat.mul_add]; congr 1; omega
  have e2 : r * w = r * v + r * (w - v) := by rw [← Nat.mul_add]; congr 1; omega
  have e3 : l * (w - v) ≤ r * (w - v) := Nat.mul_le_mul_right _ h
  generalize sq31 l w = s1 at *
  generalize sq31 r w = s2 at *
  generalize sq31 l v = s3 at *
  generalize sq31 r v = s4 at *
  omega

theorem sqAt_le {m n : Nat} (h : m ≤ n) (hn : n ≤ 3072) : sqAt m ≤ sqAt n := by
  induction n, h using Nat.le_induction with
  | base => exact le_refl _
  | succ n _ ih => exact le_trans (ih (by omega)) (sqAt_mono (by omega))

/-- C36: squash never decreases by more than one unit of its last place. -/
theorem C36_near_monotone (lut : List (List Int)) (table : List Nat) (hlut : stretchLutNew = some lut)
    (htab : squashLutNew lut = some table) (x y : Int) (hx : |x| ≤ 12 * 2 ^ 21) (hy : |y| ≤ 12 * 2 ^ 21)
    (hxy : x ≤ y) : ∃ r t, squash table x = some r ∧ squash table y = some t ∧ r ≤ t + 1 := by
  rw [stretchLut_eq] at hlut
  obtain rfl := Option.some.inj hlut
  rw [squashLut_eq stretchTable_ok] at htab
  obtain rfl := Option.some.inj htab
  obtain ⟨i, d, hd, hi, hid, rfl⟩ := squash_int hx
  obtain ⟨j, e, he, hj, hje, rfl⟩ := squash_int hy
  refine ⟨_, _, squash_cell hd hid, squash_cell he hje, ?_⟩
  by_cases hij : i = j
  · subst hij
    unfold sqOut
    by_cases h : i = 3072
    · rw [if_pos h, if_pos h]; omega
    · rw [if_neg h, if_neg h]
      exact up_near (by omega) (sqAt_mono (by omega)) (by omega)
  · have b1 := (sqOut_between hd (show i < 3072 by omega)).2
    have b2 : sqAt j ≤ sqOut j e := by
      by_cases h : j = 3072
      · have : e = 0 := by omega
        subst this
        rw [sqOut_zero]
      · exact (sqOut_between he (by omega)).1
    have := sqAt_le (m := i + 1) (n := j) (by omega) hj
    omega

/-- C36, a defect: squash is not monotone. -/
theorem C36_not_monotone (lut : List (List Int)) (table : List Nat) (hlut : stretchLutNew = some lut)
    (htab : squashLutNew lut = some table) :
    squash table (-24346603) = some 20501 ∧ squash table (-24346602) = some 20500 := by
  rw [stretchLut_eq] at hlut
  obtain rfl := Option.some.inj hlut
  rw [squashLut_eq stretchTable_ok] at htab
  obtain rfl := Option.some.inj htab
  have s1 := squash_cell (j := 50) (d := 21) (by omega) (by omega)
  have s2 := squash_cell (j := 50) (d := 22) (by omega) (by omega)
  have e1 : sqOut 50 21 = 20501 := by decide +kernel
  have e2 : sqOut 50 22 = 20500 := by decide +kernel
  rw [e1] at s1
  rw [e2] at s2
  exact ⟨s1, s2⟩

/-! ## Squash inverts stretch -/

/-- what the search guarantees -/
theorem search_best {t : Nat} (ht : 0 < t) : ∀ (k lo hi : Nat), 2 ^ 30 ≤ lo → lo < hi → hi < 2 ^ 31 → stMag lo < t →
    (t < stMag hi ∨ hi = 2 ^ 31 - 1) → searchFast t k lo hi ≠ 0 →
    stMag (searchFast t k lo hi) = t ∧ 2 ^ 30 ≤ searchFast t k lo hi ∧ searchFast t k lo hi < 2 ^ 31 ∨
    (∃ l, 2 ^ 30 ≤ l ∧ l + 1 < 2 ^ 31 ∧ stMag l < t ∧ t ≤ stMag (l + 1) ∧
      ((searchFast t k lo hi = l ∧ t - stMag l < stMag (l + 1) - t) ∨
       (searchFast t k lo hi = l + 1 ∧ stMag (l + 1) - t ≤ t - stMag l))) ∨
    (searchFast t k lo hi = 2147467264 ∧ stMag (2 ^ 31 - 1) < t) := by
  have fin : ∀ lo hi : Nat, 2 ^ 30 ≤ lo → lo < hi → hi < 2 ^ 31 → stMag lo < t →
      (t < stMag hi ∨ hi = 2 ^ 31 - 1) → hi - lo ≤ 1 → chooseFast t lo hi ≠ 0 →
      (∃ l, 2 ^ 30 ≤ l ∧ l + 1 < 2 ^ 31 ∧ stMag l < t ∧ t ≤ stMag (l + 1) ∧
        ((chooseFast t lo hi = l ∧ t - stMag l < stMag (l + 1) - t) ∨
         (chooseFast t lo hi = l + 1 ∧ stMag (l + 1) - t ≤ t - stMag l))) ∨
      (chooseFast t lo hi = 2147467264 ∧ stMag (2 ^ 31 - 1) < t) := by
    intro lo hi h0 h1 h2 hl hh hd hz
    obtain rfl : hi = lo + 1 := by omega
    unfold chooseFast at hz ⊢
    dsimp only at hz ⊢
    by_cases he : stMag lo = stMag (lo + 1)
    · right
      have hb : Nat.beq (stMag lo) (stMag (lo + 1)) = true := by rw [Nat.beq_eq]; exact he
      rw [hb, cond_true]
      have : lo + 1 = 2 ^ 31 - 1 := by omega
      rw [← this, ← he]
      exact ⟨by omega, hl⟩
    · left
      have hb : Nat.beq (stMag lo) (stMag (lo + 1)) = false := by rw [Bool.eq_false_iff, ne_eq, Nat.beq_eq]; exact he
      rw [hb, cond_false] at hz ⊢
      by_cases hc : (Nat.ble (stMag lo) t && Nat.ble t (stMag (lo + 1)) && Nat.beq (lo + 1) (lo + 1)) = true
      · rw [hc, cond_true]
        simp only [Bool.and_eq_true, Nat.ble_eq] at hc
        refine ⟨lo, h0, h2, hl, hc.1.2, ?_⟩
        by_cases hlt : t - stMag lo < stMag (lo + 1) - t
        · have : Nat.blt (t - stMag lo) (stMag (lo + 1) - t) = true := by rw [Nat.blt_eq]; exact hlt
          rw [this, cond_true]
          exact .inl ⟨rfl, hlt⟩
        · have : Nat.blt (t - stMag lo) (stMag (lo + 1) - t) = false := by
            rw [Bool.eq_false_iff, ne_eq, Nat.blt_eq]; exact hlt
          rw [this, cond_false]
          exact .inr ⟨rfl, by omega⟩
      · rw [Bool.not_eq_true] at hc
        rw [hc, cond_false] at hz
        exact absurd rfl hz
  intro k
  induction k with
  | zero =>
    intro lo hi h0 h1 h2 hl hh hz
    unfold searchFast at hz ⊢
    by_cases hc : hi - lo ≤ 1
    · have hb : Nat.ble (hi - lo) 1 = true := by rw [Nat.ble_eq]; exact hc
      rw [hb, cond_true] at hz ⊢
      exact .inr (fin lo hi h0 h1 h2 hl hh hc hz)
    · have hb : Nat.ble (hi - lo) 1 = false := by rw [Bool.eq_false_iff, ne_eq, Nat.ble_eq]; exact hc
      rw [hb, cond_false] at hz
      exact absurd rfl hz
  | succ k ih =>
    intro lo hi h0 h1 h2 hl hh hz
    unfold searchFast at hz ⊢
    by_cases hc : hi - lo ≤ 1
    · have hb : Nat.ble (hi - lo) 1 = true := by rw [Nat.ble_eq]; exact hc
      rw [hb, cond_true] at hz ⊢
      exact .inr (fin lo hi h0 h1 h2 hl hh hc hz)
    · have hb : Nat.ble (hi - lo) 1 = false := by rw [Bool.eq_false_iff, ne_eq, Nat.ble_eq]; exact hc
      rw [hb, cond_false] at hz ⊢
      dsimp only at hz ⊢
      have hm1 : lo < lo + (hi - lo) / 2 := by omega
      have hm2 : lo + (hi - lo) / 2 < hi := by omega
      generalize lo + (hi - lo) / 2 = m at *
      by_cases c1 : t < stMag m
      · have hb1 : Nat.blt t (stMag m) = true := by rw [Nat.blt_eq]; exact c1
        rw [hb1, cond_true] at hz ⊢
        exact ih lo m h0 hm1 (by omega) hl (.inl c1) hz
      · have hb1 : Nat.blt t (stMag m) = false := by rw [Bool.eq_false_iff, ne_eq, Nat.blt_eq]; exact c1
        rw [hb1, cond_false] at hz ⊢
        by_cases c2 : stMag m < t
        · have hb2 : Nat.blt (stMag m) t = true := by rw [Nat.blt_eq]; exact c2
          rw [hb2, cond_true] at hz ⊢
          exact ih m hi (by omega) hm2 h2 c2 hh hz
        · have hb2 : Nat.blt (stMag m) t = false := by rw [Bool.eq_false_iff, ne_eq, Nat.blt_eq]; exact c2
          rw [hb2, cond_false]
          exact .inl ⟨by omega, by omega, by omega⟩

theorem sqAt_upper (k : Nat) : sqAt (k + 1536) = sqField k := by
  unfold sqAt
  rw [if_neg (by omega), Nat.add_sub_cancel]

/-- C37: the value of squash at each table point from zero up is the best inverse image under stretch; the lower
half follows from the symmetry in C36. -/
theorem C37_best_inverse (lut : List (List Int)) (table : List Nat) (hlut : stretchLutNew = some lut)
    (htab : squashLutNew lut = some table) (k : Nat) (hk : k ≤ 1536) :
    ∃ r, squash table (k * 2 ^ 14) = some r ∧ BestInverse (stretch lut) (k * 2 ^ 14) r := by
  rw [stretchLut_eq] at hlut
  obtain rfl := Option.some.inj hlut
  rw [squashLut_eq stretchTable_ok] at htab
  obtain rfl := Option.some.inj htab
  have s1 := squash_at (j := k + 1536) (d := 0) (x := (k : Int) * 2 ^ 14) (by omega) (by omega) (by omega)
  rw [sqOut_zero, sqAt_upper] at s1
  refine ⟨sqField k, s1, ?_⟩
  by_cases h0 : k = 0
  · subst h0
    left
    rw [squash_zero]
    rfl
  · have hT := stretchTable_ok
    obtain ⟨f1, f2, f3⟩ := sq_facts hk
    have f3 := f3 (by omega)
    have hb := search_best (t := k * 16384) (by omega) 30 1073741824 2147483647 (by norm_num) (by norm_num)
      (by norm_num) (by rw [show (1073741824 : Nat) = 2 ^ 30 from rfl, stMag_half]; omega) (.inr rfl)
      (by rw [f3]; omega)
    rw [f3] at hb
    have ht : ((k : Int) * 2 ^ 14) = ((k * 16384 : Nat) : Int) := by push_cast; norm_num
    rw [ht]
    generalize k * 16384 = t at *
    rcases hb with ⟨b1, b2, b3⟩ | ⟨l, b1, b2, b3, b4, b5⟩ | ⟨b1, b2⟩
    · left
      rw [(stretch_upper hT b2 b3).1, b1]
    · by_cases he : t = stMag (l + 1)
      · left
        rcases b5 with ⟨-, b5⟩ | ⟨b5, -⟩
        · omega
        · rw [b5, (stretch_upper hT (by omega) b2).1, he]
      · right; left
        refine ⟨l, stMag l, stMag (l + 1), stMag (sqField k), (stretch_upper hT b1 (by omega)).1,
          (stretch_upper hT (by omega) b2).1, by omega, by omega, ?_, (stretch_upper hT f1 f2).1, ?_⟩
        · rcases b5 with ⟨b5, -⟩ | ⟨b5, -⟩
          · exact .inl b5
          · exact .inr b5
        · rcases b5 with ⟨b5, b6⟩ | ⟨b5, b6⟩ <;> rw [b5] <;> constructor <;> rw [abs_le] <;> constructor <;> omega
    · right; right
      refine ⟨b1, ?_⟩
      intro q hq1 hq2
      refine ⟨_, (stretch_eq hT hq1 hq2).1, ?_⟩
      have hq := (stOut_bounds hq1 hq2).1
      unfold stretchLimit at hq
      rw [abs_le] at hq
      have hend : stMag (2 ^ 31 - 1) = 24711779 := by decide +kernel
      omega

example : (1000 : Nat) ≤ 1536 := by norm_num

/-- C37: at the table points within the range of stretch, stretch and squash are inverse to each other up to
`45 · 2^-21`. -/
theorem C37_round_trip (lut : List (List Int)) (table : List Nat) (hlut : stretchLutNew = some lut)
    (htab : squashLutNew lut = some table) (j : Int) (h : |j * 2 ^ 14| ≤ stretchLimit) :
    ∃ r s, squash table (j * 2 ^ 14) = some r ∧ stretch lut r = some s ∧ |s - j * 2 ^ 14| ≤ 45 := by
  obtain ⟨lut', table', g1, g2, -, g3⟩ := C36_squash
  obtain ⟨lut'', g4, -, g5⟩ := C35_stretch
  obtain rfl := Option.some.inj (hlut.symm.trans g1)
  obtain rfl := Option.some.inj (hlut.symm.trans g4)
  obtain rfl := Option.some.inj (htab.symm.trans g2)
  have key : ∀ k : Nat, k ≤ 1508 → ∃ r s, squash table (k * 2 ^ 14) = some r ∧ stretch lut r = some s ∧
      |s - k * 2 ^ 14| ≤ 45 := by
    intro k hk
    obtain rfl := Option.some.inj (stretchLut_eq.symm.trans g1)
    obtain rfl := Option.some.inj ((squashLut_eq stretchTable_ok).symm.trans g2)
    have s1 := squash_at (j := k + 1536) (d := 0) (x := (k : Int) * 2 ^ 14) (by omega) (by omega) (by omega)
    rw [sqOut_zero, sqAt_upper] at s1
    obtain ⟨f1, f2, -⟩ := sq_facts (k := k) (by omega)
    refine ⟨sqField k, stMag (sqField k), s1, (stretch_upper stretchTable_ok f1 f2).1, ?_⟩
    have := List.all_eq_true.mp back_ok k (List.mem_range.mpr (by omega))
    unfold backOk at this
    have hb : Nat.ble k 1508 = true := by rw [Nat.ble_eq]; exact hk
    rw [hb, cond_true, Bool.and_eq_true, Nat.ble_eq, Nat.ble_eq] at this
    rw [abs_le]
    omega
  unfold stretchLimit at h
  rw [abs_le] at h
  by_cases hj : 0 ≤ j
  · obtain ⟨k, rfl⟩ := Int.eq_ofNat_of_zero_le hj
    exact key k (by omega)
  · obtain ⟨k, hk⟩ := Int.eq_ofNat_of_zero_le (show 0 ≤ -j by omega)
    obtain rfl : j = -(k : Int) := by omega
    obtain ⟨r, s, q1, q2, q3⟩ := key k (by omega)
    obtain ⟨r', p1, p2, p3, p4⟩ := g3 ((k : Int) * 2 ^ 14) (by rw [abs_le]; constructor <;> norm_num <;> omega)
    rw [q1] at p1
    cases p1
    obtain ⟨s', e1, e2, -⟩ := g5 r (by omega) (by omega)
    rw [q2] at e1
    cases e1
    refine ⟨2 ^ 31 - r, -s, ?_, e2, ?_⟩
    · rw [neg_mul]; exact p2
    · rw [abs_le] at q3 ⊢
      constructor <;> omega

example : |(-1500 : Int) * 2 ^ 14| ≤ stretchLimit := by unfold stretchLimit; norm_num

end Verif.Lut
