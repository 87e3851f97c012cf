import Verif.Lut.Props

/-!
# Squash and stretch undo each other (C100)

Both functions are piecewise linear up to rounding. On the part of a segment of stretch that falls into one cell of
squash the composition is a straight line, so its distance from the identity is largest at the ends of that part.
The kernel computes the distance at all these ends.
-/

namespace Verif.Lut

open Verif Verif.Fixed

attribute [local irreducible] squashTable stretchTable

/-- the distance at magnitude `x`, for segment `n` of stretch and cell `k` of squash, is less than `b - 1` with room for
the rounding of stretch -/
def endOk (n k x b : Nat) : Bool :=
  (Nat.ble ((gVal n - gVal (n + 1)) * (sqField k * 16384 + (sqField (k + 1) - sqField k) * (x - 16384 * k)) +
      16384 * ((gVal n - x) * 2 ^ gExp n) + 16384 * 2 ^ gExp n)
    (16384 * ((gVal n - gVal (n + 1)) * (2147483648 - gPoint n)) + 16384 * ((gVal n - gVal (n + 1)) * (b - 1)))) &&
  (Nat.ble (16384 * ((gVal n - gVal (n + 1)) * (2147483648 - gPoint n)) + 16384 * 2 ^ gExp n)
    ((gVal n - gVal (n + 1)) * (sqField k * 16384 + (sqField (k + 1) - sqField k) * (x - 16384 * k)) +
      16384 * ((gVal n - x) * 2 ^ gExp n) + 16384 * ((gVal n - gVal (n + 1)) * (b - 1))))

/-- allowed distance on a segment -/
def segTol (n : Nat) : Nat := bif Nat.blt n 1024 then 214 else 2147

/-- all cells met by segment `n` -/
def segOk (n : Nat) : Bool :=
  Nat.blt (gVal (n + 1)) (gVal n) &&
  (List.range (gVal n / 16384 + 1 - gVal (n + 1) / 16384)).all fun i =>
    endOk n (gVal (n + 1) / 16384 + i) (max (gVal (n + 1)) (16384 * (gVal (n + 1) / 16384 + i))) (segTol n) &&
    endOk n (gVal (n + 1) / 16384 + i) (min (gVal n) (16384 * (gVal (n + 1) / 16384 + i + 1))) (segTol n)

set_option maxRecDepth 100000 in
theorem seg_ok : (List.range 4095).all (fun i => segOk (i + 1)) = true := by decide +kernel

/-- a straight line between two points -/
theorem line_le {α β a b m c : Int} (h1 : a ≤ m) (h2 : m ≤ b) (ha : α * a + β ≤ c) (hb : α * b + β ≤ c) :
    α * m + β ≤ c := by
  rcases le_total 0 α with h | h
  · have := mul_le_mul_of_nonneg_left h2 h
    linarith
  · have := mul_le_mul_of_nonpos_left h1 h
    linarith

/-- the distance between the ends of a part -/
theorem part_near {S D A E Q V K B a b m y e : Int} (hD : 0 < D) (h1 : a ≤ m) (h2 : m ≤ b)
    (ha1 : D * (A * 16384 + E * (a - 16384 * K)) + 16384 * ((V - a) * S) + 16384 * S ≤
      16384 * (D * Q) + 16384 * (D * (B - 1)))
    (ha2 : 16384 * (D * Q) + 16384 * S ≤
      D * (A * 16384 + E * (a - 16384 * K)) + 16384 * ((V - a) * S) + 16384 * (D * (B - 1)))
    (hb1 : D * (A * 16384 + E * (b - 16384 * K)) + 16384 * ((V - b) * S) + 16384 * S ≤
      16384 * (D * Q) + 16384 * (D * (B - 1)))
    (hb2 : 16384 * (D * Q) + 16384 * S ≤
      D * (A * 16384 + E * (b - 16384 * K)) + 16384 * ((V - b) * S) + 16384 * (D * (B - 1)))
    (hy : |16384 * y - (A * 16384 + E * (m - 16384 * K))| < 16384) (he : |D * e - (V - m) * S| < S) :
    |y - (Q - e)| < B := by
  have k1 : (D * E - 16384 * S) * m + (D * (A * 16384 - E * (16384 * K)) + 16384 * (V * S)) ≤
      16384 * (D * Q) + 16384 * (D * (B - 1)) - 16384 * S :=
    line_le h1 h2 (by linarith) (by linarith)
  have k2 : -(D * E - 16384 * S) * m + -(D * (A * 16384 - E * (16384 * K)) + 16384 * (V * S)) ≤
      16384 * (D * (B - 1)) - 16384 * (D * Q) - 16384 * S :=
    line_le h1 h2 (by linarith) (by linarith)
  rw [abs_lt] at hy he ⊢
  have y1 := mul_lt_mul_of_pos_left hy.1 hD
  have y2 := mul_lt_mul_of_pos_left hy.2 hD
  constructor
  · have : D * (-B) < D * (y - (Q - e)) := by linarith
    exact lt_of_mul_lt_mul_left this hD.le
  · have : D * (y - (Q - e)) < D * B := by linarith
    exact lt_of_mul_lt_mul_left this hD.le

theorem endOk_int {n k x b : Nat} (h : endOk n k x b = true) (hV : gVal (n + 1) ≤ gVal n) (hk : k < 1536)
    (hx : 16384 * k ≤ x) (hx2 : x ≤ gVal n) (hp : gPoint n ≤ 2147483648) (hb : 1 ≤ b) :
    ((gVal n : Int) - gVal (n + 1)) * (sqField k * 16384 + ((sqField (k + 1) : Int) - sqField k) * (x - 16384 * k)) +
      16384 * ((gVal n - x) * 2 ^ gExp n) + 16384 * 2 ^ gExp n ≤
      16384 * (((gVal n : Int) - gVal (n + 1)) * (2147483648 - gPoint n)) +
        16384 * (((gVal n : Int) - gVal (n + 1)) * (b - 1)) ∧
    16384 * (((gVal n : Int) - gVal (n + 1)) * (2147483648 - gPoint n)) + 16384 * 2 ^ gExp n ≤
      ((gVal n : Int) - gVal (n + 1)) * (sqField k * 16384 + ((sqField (k + 1) : Int) - sqField k) * (x - 16384 * k)) +
      16384 * ((gVal n - x) * 2 ^ gExp n) + 16384 * (((gVal n : Int) - gVal (n + 1)) * (b - 1)) := by
  unfold endOk at h
  rw [Bool.and_eq_true, Nat.ble_eq, Nat.ble_eq] at h
  have hm := sqField_mono hk
  obtain ⟨h1, h2⟩ := h
  zify [hV, hx, hx2, hp, hb, hm] at h1 h2
  exact ⟨h1, h2⟩

/-- stretch on a segment is a straight line up to rounding -/
theorem stretch_line {n d : Nat} (hn : n < 4096) (hd : d < 2 ^ gExp n) (h0 : gPoint n + d ≠ 0) :
    |((gVal n : Int) - gVal (n + 1)) * d - (gVal n - stretchMag (gPoint n + d)) * 2 ^ gExp n| < 2 ^ gExp n := by
  have hx := interp_exact (l := gVal n) (r := gVal (n + 1)) (weight_lt hn hd)
  rw [← stretch_cell hn hd h0] at hx
  have he : (2 : Int) ^ gExp n * 2 ^ (31 - gExp n) = 2147483648 := by
    rw [← pow_add, show gExp n + (31 - gExp n) = 31 by have := gExp_le hn; omega]; rfl
  have hW : (0 : Int) < 2 ^ (31 - gExp n) := by positivity
  generalize stretchMag (gPoint n + d) = v at *
  generalize gVal n = x at *
  generalize gVal (n + 1) = w at *
  push_cast at hx
  have e2 : (((x : Int) - w) * d - (x - v) * 2 ^ gExp n) * 2 ^ (31 - gExp n) =
      (v : Int) * 2147483648 - (x * (2147483648 - d * 2 ^ (31 - gExp n)) + w * (d * 2 ^ (31 - gExp n))) := by
    rw [← he]; ring
  have k2 : |(((x : Int) - w) * d - (x - v) * 2 ^ gExp n) * 2 ^ (31 - gExp n)| <
      2 ^ gExp n * 2 ^ (31 - gExp n) := by
    rw [e2, he]; exact hx
  rw [abs_mul, abs_of_pos hW] at k2
  exact lt_of_mul_lt_mul_right k2 hW.le

/-- squash on a cell is a straight line up to rounding -/
theorem squash_line {v : Nat} (hv : v / 16384 < 1536) :
    |16384 * ((sqOut (v / 16384 + 1536) (v % 16384) : Nat) : Int) - (sqField (v / 16384) * 16384 +
      ((sqField (v / 16384 + 1) : Int) - sqField (v / 16384)) * (v - 16384 * ((v / 16384 : Nat) : Int)))| < 16384 := by
  have hy := interp_exact (l := sqAt (v / 16384 + 1536)) (r := sqAt (v / 16384 + 1536 + 1))
    (w := v % 16384 * 131072) (by omega)
  unfold sqOut
  rw [if_neg (by omega)]
  rw [show v / 16384 + 1536 + 1 = v / 16384 + 1 + 1536 by omega, sqAt_upper, sqAt_upper] at hy ⊢
  have hdm : (v : Int) - 16384 * ((v / 16384 : Nat) : Int) = ((v % 16384 : Nat) : Int) := by omega
  rw [hdm]
  generalize sqField (v / 16384) - sq31 (sqField (v / 16384)) (v % 16384 * 131072) +
    sq31 (sqField (v / 16384 + 1)) (v % 16384 * 131072) = z at *
  generalize sqField (v / 16384) = l at *
  generalize sqField (v / 16384 + 1) = r at *
  generalize v % 16384 = t at *
  rw [abs_lt] at hy ⊢
  push_cast at hy
  constructor <;> linarith

/-- stretch and back, for probabilities below one half -/
theorem compose_lower {p : Nat} (h1 : 2 ^ 14 ≤ p) (h2 : p < 2 ^ 30) : ∃ y : Nat,
    squash squashTable (stretchMag p : Int) = some y ∧ |(y : Int) - (2147483648 - p)| < 2147 ∧
      (p < 2 ^ 24 → |(y : Int) - (2147483648 - p)| < 214) := by
  obtain ⟨n, hn, d, hd, rfl⟩ := cell_exists h2
  have h0 : 0 < n := by
    by_contra hc
    obtain rfl : n = 0 := by omega
    have : gExp 0 = 14 := rfl
    rw [gPoint_zero] at h1
    rw [this] at hd
    omega
  have hs := List.all_eq_true.mp seg_ok (n - 1) (List.mem_range.mpr (by omega))
  rw [show n - 1 + 1 = n by omega] at hs
  unfold segOk at hs
  rw [Bool.and_eq_true, Nat.blt_eq, List.all_eq_true] at hs
  obtain ⟨hD, hs⟩ := hs
  obtain ⟨b1, b2⟩ := down_between (weight_lt hn hd) (gVal_step hn)
  rw [← stretch_cell hn hd (by omega)] at b1 b2
  have hx := stretch_line hn hd (by omega)
  have hle := gVal_le (n := n) (by omega)
  have hpt := gPoint_lt hn
  generalize stretchMag (gPoint n + d) = v at *
  have hq := squash_at (j := v / 16384 + 1536) (d := v % 16384) (x := (v : Int)) (by omega) (by omega) (by omega)
  refine ⟨_, hq, ?_⟩
  have hi := hs (v / 16384 - gVal (n + 1) / 16384) (List.mem_range.mpr (by omega))
  rw [show gVal (n + 1) / 16384 + (v / 16384 - gVal (n + 1) / 16384) = v / 16384 by omega, Bool.and_eq_true] at hi
  obtain ⟨i1, i2⟩ := hi
  have hB : 1 ≤ segTol n := by unfold segTol; cases Nat.blt n 1024 <;> norm_num
  obtain ⟨a1, a2⟩ := endOk_int i1 hD.le (by omega) (by omega) (by omega) (by omega) hB
  obtain ⟨c1, c2⟩ := endOk_int i2 hD.le (by omega) (by omega) (by omega) (by omega) hB
  have key : |((sqOut (v / 16384 + 1536) (v % 16384) : Nat) : Int) - ((2147483648 - gPoint n) - d)| < segTol n :=
    part_near (S := 2 ^ gExp n) (D := (gVal n : Int) - gVal (n + 1)) (m := v) (by omega) (by omega) (by omega)
      a1 a2 c1 c2 (squash_line (by omega)) hx
  rw [show (2147483648 : Int) - gPoint n - d = 2147483648 - ((gPoint n + d : Nat) : Int) by push_cast; ring] at key
  refine ⟨lt_of_lt_of_le key ?_, ?_⟩
  · unfold segTol; cases Nat.blt n 1024 <;> norm_num
  · intro h24
    have : n < 1024 := by
      by_contra hc
      have h3 := gPoint_mono (m := 1024) (n := n) (by omega)
      have h4 : gPoint 1024 = 2 ^ 24 := rfl
      omega
    have hb : Nat.blt n 1024 = true := by rw [Nat.blt_eq]; exact this
    unfold segTol at key
    rw [hb, cond_true] at key
    exact key

/-- C100: for every probability between `2^-17` and `1 - 2^-17`, squash after stretch returns that probability up to
`10^-6`, and up to `10^-7` when it is within `2^-7` of zero or one. -/
theorem C100_squash_stretch (lut : List (List Int)) (table : List Nat) (hlut : stretchLutNew = some lut)
    (htab : squashLutNew lut = some table) (p : Nat) (h1 : 2 ^ 14 ≤ p) (h2 : p ≤ 2 ^ 31 - 2 ^ 14) :
    ∃ x r, stretch lut p = some x ∧ squash table x = some r ∧ 10 ^ 6 * |(r : Int) - p| ≤ 2 ^ 31 ∧
      (p < 2 ^ 24 ∨ 2 ^ 31 - 2 ^ 24 < p → 10 ^ 7 * |(r : Int) - p| ≤ 2 ^ 31) := by
  obtain ⟨lut', table', g1, g2, gz, g3⟩ := C36_squash
  obtain rfl := Option.some.inj (hlut.symm.trans g1)
  obtain rfl := Option.some.inj (htab.symm.trans g2)
  obtain rfl := Option.some.inj (stretchLut_eq.symm.trans g1)
  obtain rfl := Option.some.inj ((squashLut_eq stretchTable_ok).symm.trans g2)
  refine ⟨stOut p, ?_⟩
  rw [(stretch_eq stretchTable_ok (p := p) (by omega) (by omega)).1]
  rcases Nat.lt_trichotomy p (2 ^ 30) with h | h | h
  · obtain ⟨y, y1, y2, y3⟩ := compose_lower h1 h
    have hm := stretchMag_le (p := p) (by omega) h
    obtain ⟨r, r1, r2, r3, r4⟩ := g3 (stretchMag p : Int) (by rw [Nat.abs_cast]; omega)
    rw [y1] at r1
    obtain rfl := Option.some.inj r1
    rw [stOut_lower h]
    refine ⟨_, rfl, r2, ?_, ?_⟩
    · rw [abs_lt] at y2
      have : |((2 ^ 31 - y : Nat) : Int) - p| ≤ 2147 := by rw [abs_le]; constructor <;> omega
      norm_num at this ⊢
      linarith
    · intro h24
      have y3 := y3 (by omega)
      rw [abs_lt] at y3
      have : |((2 ^ 31 - y : Nat) : Int) - p| ≤ 214 := by rw [abs_le]; constructor <;> omega
      norm_num at this ⊢
      linarith
  · subst h
    refine ⟨2 ^ 30, rfl, ?_, ?_, ?_⟩
    · exact gz
    · norm_num
    · norm_num
  · obtain ⟨y, y1, y2, y3⟩ := compose_lower (p := 2 ^ 31 - p) (by omega) (by omega)
    have e : stOut p = (stretchMag (2 ^ 31 - p) : Int) := by
      unfold stOut
      rw [if_neg (by omega), stMag_upper h]
    rw [e]
    refine ⟨y, rfl, y1, ?_, ?_⟩
    · rw [abs_lt] at y2
      have : |(y : Int) - p| ≤ 2147 := by rw [abs_le]; constructor <;> omega
      norm_num at this ⊢
      linarith
    · intro h24
      have y3 := y3 (by omega)
      rw [abs_lt] at y3
      have : |(y : Int) - p| ≤ 214 := by rw [abs_le]; constructor <;> omega
      norm_num at this ⊢
      linarith

/-- a probability near one half and one in the tail -/
example : (2 ^ 14 ≤ 493283456 ∧ 493283456 ≤ 2 ^ 31 - 2 ^ 14) ∧ (2 ^ 14 ≤ 214748 ∧ 214748 < 2 ^ 24) := by norm_num

/-! ## Stretch after squash -/

/-- the index of the segment of a probability -/
def segIdx (p : Nat) : Nat :=
  bif Nat.blt p 8388608 then p / 16384 else
  512 * (Nat.log2 p - 22) + (p / 2 ^ (Nat.log2 p - 9) - 512)

/-- the distance at probability `r`, for cell `k` of squash and segment `n` of stretch -/
def backEndOk (n k r b : Nat) : Bool :=
  (Nat.ble ((sqField (k + 1) - sqField k) * (gVal n * 2 ^ gExp n) + 16384 * 2 ^ gExp n)
    ((sqField (k + 1) - sqField k) * ((gVal n - gVal (n + 1)) * (r - gPoint n)) +
      2 ^ gExp n * ((sqField (k + 1) - sqField k) * (16384 * k) + 16384 * (2147483648 - r - sqField k)) +
      (sqField (k + 1) - sqField k) * (2 ^ gExp n * (b - 1)))) &&
  (Nat.ble ((sqField (k + 1) - sqField k) * ((gVal n - gVal (n + 1)) * (r - gPoint n)) +
      2 ^ gExp n * ((sqField (k + 1) - sqField k) * (16384 * k) + 16384 * (2147483648 - r - sqField k)) +
      16384 * 2 ^ gExp n)
    ((sqField (k + 1) - sqField k) * (gVal n * 2 ^ gExp n) + (sqField (k + 1) - sqField k) * (2 ^ gExp n * (b - 1))))

/-- allowed distance in a cell -/
def cellTol (k : Nat) : Nat := bif Nat.blt k 800 then 20 else 2097

/-- all segments met by cell `k` -/
def cellOk (k : Nat) : Bool :=
  Nat.blt (sqField k) (sqField (k + 1)) &&
  Nat.ble (gPoint (segIdx (2147483648 - sqField (k + 1)))) (2147483648 - sqField (k + 1)) &&
  (Nat.beq (min 4095 (segIdx (2147483648 - sqField k))) 4095 ||
    Nat.blt (2147483648 - sqField k) (gPoint (min 4095 (segIdx (2147483648 - sqField k)) + 1))) &&
  (List.range (min 4095 (segIdx (2147483648 - sqField k)) + 1 - segIdx (2147483648 - sqField (k + 1)))).all fun i =>
    backEndOk (segIdx (2147483648 - sqField (k + 1)) + i) k
      (max (2147483648 - sqField (k + 1)) (gPoint (segIdx (2147483648 - sqField (k + 1)) + i))) (cellTol k) &&
    backEndOk (segIdx (2147483648 - sqField (k + 1)) + i) k
      (min (2147483648 - sqField k) (gPoint (segIdx (2147483648 - sqField (k + 1)) + i + 1))) (cellTol k)

set_option maxRecDepth 100000 in
theorem cell_ok : (List.range 1508).all cellOk = true := by decide +kernel

/-- the distance between the ends of a part -/
theorem back_near {S D E L V G K B a b r m x : Int} (hS : 0 < S) (hE : 0 < E) (h1 : a ≤ r) (h2 : r ≤ b)
    (ha1 : E * (V * S) + 16384 * S ≤ E * (D * (a - G)) + S * (E * (16384 * K) + 16384 * (2147483648 - a - L)) +
      E * (S * (B - 1)))
    (ha2 : E * (D * (a - G)) + S * (E * (16384 * K) + 16384 * (2147483648 - a - L)) + 16384 * S ≤
      E * (V * S) + E * (S * (B - 1)))
    (hb1 : E * (V * S) + 16384 * S ≤ E * (D * (b - G)) + S * (E * (16384 * K) + 16384 * (2147483648 - b - L)) +
      E * (S * (B - 1)))
    (hb2 : E * (D * (b - G)) + S * (E * (16384 * K) + 16384 * (2147483648 - b - L)) + 16384 * S ≤
      E * (V * S) + E * (S * (B - 1)))
    (hy : |16384 * (2147483648 - r) - (L * 16384 + E * (x - 16384 * K))| < 16384)
    (hm : |D * (r - G) - (V - m) * S| < S) : |m - x| < B := by
  have k1 : (16384 * S - E * D) * r + (E * (V * S) + 16384 * S + E * (D * G) -
      S * (E * (16384 * K) + 16384 * (2147483648 - L))) ≤ E * (S * (B - 1)) :=
    line_le h1 h2 (by linarith) (by linarith)
  have k2 : -(16384 * S - E * D) * r + -(E * (V * S) - 16384 * S + E * (D * G) -
      S * (E * (16384 * K) + 16384 * (2147483648 - L))) ≤ E * (S * (B - 1)) :=
    line_le h1 h2 (by linarith) (by linarith)
  rw [abs_lt] at hy hm ⊢
  have y1 := mul_lt_mul_of_pos_left hy.1 hS
  have y2 := mul_lt_mul_of_pos_left hy.2 hS
  have m1 := mul_lt_mul_of_pos_left hm.1 hE
  have m2 := mul_lt_mul_of_pos_left hm.2 hE
  have hES : 0 < E * S := mul_pos hE hS
  constructor
  · have : (E * S) * (-B) < (E * S) * (m - x) := by linarith
    exact lt_of_mul_lt_mul_left this hES.le
  · have : (E * S) * (m - x) < (E * S) * B := by linarith
    exact lt_of_mul_lt_mul_left this hES.le

theorem backEndOk_int {n k r b : Nat} (h : backEndOk n k r b = true) (hV : gVal (n + 1) ≤ gVal n) (hk : k < 1536)
    (hr : gPoint n ≤ r) (hr2 : r ≤ 2147483648) (hr3 : sqField k ≤ 2147483648 - r) (hb : 1 ≤ b) :
    ((sqField (k + 1) : Int) - sqField k) * (gVal n * 2 ^ gExp n) + 16384 * 2 ^ gExp n ≤
      ((sqField (k + 1) : Int) - sqField k) * (((gVal n : Int) - gVal (n + 1)) * (r - gPoint n)) +
      2 ^ gExp n * (((sqField (k + 1) : Int) - sqField k) * (16384 * k) + 16384 * (2147483648 - r - sqField k)) +
      ((sqField (k + 1) : Int) - sqField k) * (2 ^ gExp n * (b - 1)) ∧
    ((sqField (k + 1) : Int) - sqField k) * (((gVal n : Int) - gVal (n + 1)) * (r - gPoint n)) +
      2 ^ gExp n * (((sqField (k + 1) : Int) - sqField k) * (16384 * k) + 16384 * (2147483648 - r - sqField k)) +
      16384 * 2 ^ gExp n ≤
      ((sqField (k + 1) : Int) - sqField k) * (gVal n * 2 ^ gExp n) +
        ((sqField (k + 1) : Int) - sqField k) * (2 ^ gExp n * (b - 1)) := by
  unfold backEndOk at h
  rw [Bool.and_eq_true, Nat.ble_eq, Nat.ble_eq] at h
  have hm := sqField_mono hk
  obtain ⟨h1, h2⟩ := h
  zify [hV, hr, hr2, hr3, hb, hm] at h1 h2
  exact ⟨h1, h2⟩

/-- squash and back, for non negative arguments -/
theorem back_upper {x : Nat} (h : x < 1508 * 16384) : ∃ y m : Nat, squash squashTable (x : Int) = some y ∧
    2 ^ 30 ≤ y ∧ y < 2 ^ 31 ∧ stretch stretchTable y = some (m : Int) ∧ |(m : Int) - x| < cellTol (x / 16384) := by
  have hB : 1 ≤ cellTol (x / 16384) := by unfold cellTol; cases Nat.blt (x / 16384) 800 <;> norm_num
  have hq := squash_at (j := x / 16384 + 1536) (d := x % 16384) (x := (x : Int)) (by omega) (by omega) (by omega)
  have hl := squash_line (v := x) (by omega)
  obtain ⟨l1, l2⟩ := sqOut_between (j := x / 16384 + 1536) (d := x % 16384) (by omega) (by omega)
  rw [show x / 16384 + 1536 + 1 = x / 16384 + 1 + 1536 by omega, sqAt_upper] at l2
  rw [sqAt_upper] at l1
  have f1 := (sq_facts (k := x / 16384) (by omega)).1
  have f2 := sqField_le (k := x / 16384 + 1) (by omega)
  have hc := List.all_eq_true.mp cell_ok (x / 16384) (List.mem_range.mpr (by omega))
  unfold cellOk at hc
  rw [Bool.and_eq_true, Bool.and_eq_true, Bool.and_eq_true, Nat.blt_eq, Nat.ble_eq, Bool.or_eq_true, Nat.beq_eq,
    Nat.blt_eq, List.all_eq_true] at hc
  obtain ⟨⟨⟨c1, c2⟩, c3⟩, c4⟩ := hc
  generalize hy : sqOut (x / 16384 + 1536) (x % 16384) = y at *
  obtain ⟨u1, u2⟩ := stretch_upper stretchTable_ok (p := y) (by omega) (by omega)
  refine ⟨y, stMag y, hq, by omega, by omega, u1, ?_⟩
  by_cases hz : y = 2 ^ 30
  · have hL : sqField (x / 16384) = 2 ^ 30 := by omega
    have s1 : sqField 1 = 1077936127 := by decide +kernel
    have s0 : sqField 0 = 1073741824 := by decide +kernel
    have hk : x / 16384 = 0 := by
      by_contra hcon
      have := sqAt_le (m := 1 + 1536) (n := x / 16384 + 1536) (by omega) (by omega)
      rw [sqAt_upper, sqAt_upper] at this
      omega
    rw [hk, s0, s1, hz, abs_lt] at hl
    obtain rfl : x = 0 := by omega
    rw [hz, stMag_half]
    rw [show cellTol (0 / 16384) = 20 from rfl]
    norm_num
  · rw [stMag_upper (by omega)]
    obtain ⟨r, rfl⟩ : ∃ r, y = 2 ^ 31 - r := ⟨2 ^ 31 - y, by omega⟩
    rw [show 2 ^ 31 - (2 ^ 31 - r) = r by omega]
    obtain ⟨n, hn, d, hd, rfl⟩ := cell_exists (p := r) (by omega)
    have hs := gPoint_succ n
    have hge : segIdx (2147483648 - sqField (x / 16384 + 1)) ≤ n := by
      by_contra hcon
      have := gPoint_mono (m := n + 1) (n := segIdx (2147483648 - sqField (x / 16384 + 1))) (by omega)
      omega
    have hle : n ≤ min 4095 (segIdx (2147483648 - sqField (x / 16384))) := by
      by_contra hcon
      have := gPoint_mono (m := min 4095 (segIdx (2147483648 - sqField (x / 16384))) + 1) (n := n) (by omega)
      omega
    have hi := c4 (n - segIdx (2147483648 - sqField (x / 16384 + 1))) (List.mem_range.mpr (by omega))
    rw [Nat.add_sub_cancel' hge, Bool.and_eq_true] at hi
    obtain ⟨i1, i2⟩ := hi
    have hm := gPoint_lt hn
    have hx := stretch_line hn hd (by omega)
    obtain ⟨a1, a2⟩ := backEndOk_int i1 (gVal_step hn) (by omega) (by omega) (by omega) (by omega) hB
    obtain ⟨e1, e2⟩ := backEndOk_int i2 (gVal_step hn) (by omega) (by omega) (by omega) (by omega) hB
    refine back_near (S := 2 ^ gExp n) (E := (sqField (x / 16384 + 1) : Int) - sqField (x / 16384))
      (r := ((gPoint n + d : Nat) : Int)) (by positivity) (by omega) ?_ ?_ a1 a2 e1 e2 ?_ ?_
    · omega
    · omega
    · rw [show (2147483648 : Int) - ((gPoint n + d : Nat) : Int) = ((2 ^ 31 - (gPoint n + d) : Nat) : Int) by omega]
      exact hl
    · rw [show ((gPoint n + d : Nat) : Int) - gPoint n = d by push_cast; ring]
      exact hx

/-- C100: for every number of magnitude below `1508 / 128`, about 11.78, stretch after squash returns that number up to
`10^-3`, and up to `10^-5` when its magnitude is below 6.25. -/
theorem C100_stretch_squash (lut : List (List Int)) (table : List Nat) (hlut : stretchLutNew = some lut)
    (htab : squashLutNew lut = some table) (x : Int) (h : |x| < 1508 * 2 ^ 14) :
    ∃ r s, squash table x = some r ∧ stretch lut r = some s ∧ 10 ^ 3 * |s - x| ≤ 2 ^ 21 ∧
      (|x| < 800 * 2 ^ 14 → 10 ^ 5 * |s - x| ≤ 2 ^ 21) := by
  obtain ⟨lut', table', g1, g2, -, g3⟩ := C36_squash
  obtain ⟨lut'', g4, -, g5⟩ := C35_stretch
  obtain rfl := Option.some.inj (hlut.symm.trans g1)
  obtain rfl := Option.some.inj (hlut.symm.trans g4)
  obtain rfl := Option.some.inj (htab.symm.trans g2)
  obtain rfl := Option.some.inj (stretchLut_eq.symm.trans g1)
  obtain rfl := Option.some.inj ((squashLut_eq stretchTable_ok).symm.trans g2)
  have key : ∀ k : Nat, k < 1508 * 16384 → ∀ m : Nat, |(m : Int) - k| < cellTol (k / 16384) →
      10 ^ 3 * |(m : Int) - k| ≤ 2 ^ 21 ∧ (k < 800 * 16384 → 10 ^ 5 * |(m : Int) - k| ≤ 2 ^ 21) := by
    intro k _ m hm
    generalize |(m : Int) - k| = z at *
    unfold cellTol at hm
    by_cases hc : k / 16384 < 800
    · rw [show Nat.blt (k / 16384) 800 = true by rw [Nat.blt_eq]; exact hc, cond_true] at hm
      exact ⟨by omega, fun _ => by omega⟩
    · rw [show Nat.blt (k / 16384) 800 = false by rw [Bool.eq_false_iff, ne_eq, Nat.blt_eq]; exact hc,
        cond_false] at hm
      exact ⟨by omega, fun _ => by omega⟩
  rcases le_total 0 x with hx | hx
  · obtain ⟨k, rfl⟩ := Int.eq_ofNat_of_zero_le hx
    rw [Nat.abs_cast] at h ⊢
    obtain ⟨y, m, q1, q2, q3, q4, q5⟩ := back_upper (x := k) (by omega)
    obtain ⟨e1, e2⟩ := key k (by omega) m q5
    exact ⟨y, m, q1, q4, e1, fun hh => e2 (by omega)⟩
  · obtain ⟨k, hk⟩ := Int.eq_ofNat_of_zero_le (show 0 ≤ -x by omega)
    obtain rfl : x = -(k : Int) := by omega
    rw [abs_neg, Nat.abs_cast] at h ⊢
    obtain ⟨y, m, q1, q2, q3, q4, q5⟩ := back_upper (x := k) (by omega)
    obtain ⟨e1, e2⟩ := key k (by omega) m q5
    obtain ⟨r', p1, p2, p3, p4⟩ := g3 (k : Int) (by rw [Nat.abs_cast]; omega)
    rw [q1] at p1
    cases p1
    obtain ⟨s', t1, t2, -⟩ := g5 y (by omega) (by omega)
    rw [q4] at t1
    cases t1
    refine ⟨2 ^ 31 - y, -(m : Int), p2, t2, ?_⟩
    rw [show -(m : Int) - -(k : Int) = -((m : Int) - k) by ring, abs_neg]
    exact ⟨e1, fun hh => e2 (by omega)⟩

/-- an argument in the tail and one in the middle -/
example : |(-24000000 : Int)| < 1508 * 2 ^ 14 ∧ |(7654321 : Int)| < 800 * 2 ^ 14 := by norm_num

end Verif.Lut
