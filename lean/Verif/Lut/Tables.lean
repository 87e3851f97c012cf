import Verif.Lut.Model
import Verif.Lut.Kernel
import Verif.Fixed.Convert

/-!
# The tables computed by the constructors are the packed ones
-/

namespace Verif.Lut

open Verif Verif.Fixed Verif.Log2

theorem fu_new {x : Nat} (h : x < 2 ^ 31) : fractOnlyU32.new x = some x := by
  unfold fractOnlyU32
  dsimp only
  rw [check_pos (Nat.div_eq_of_lt h)]; rfl

theorem fi_new {x : Int} (h : 0 ≤ x) : fractOnlyI32.new x = some x := by
  unfold fractOnlyI32
  dsimp only
  rw [check_pos h]; rfl

theorem sp_new {x : Int} (h : -25165824 ≤ x ∧ x ≤ 25165824) : stretchedProbD.new x = some x := by
  unfold stretchedProbD
  dsimp only
  rw [check_pos h]; rfl

theorem flip_eq {p : Nat} (h0 : 0 < p) (h : p < 2 ^ 31) : flipU32 p = some (2147483648 - p) := by
  obtain ⟨h1, -⟩ := C09_flip p h
  rw [(h1 h0).1, show (2 : Nat) ^ 31 = 2147483648 from rfl]

/-- signed product of a non positive and a non negative number -/
theorem mulI32_neg (A B R : FixI) (a b : Nat) (ha : a < 2 ^ 31) (hb : b < 2 ^ 31) (hf : A.frac + B.frac < 256)
    (h1 : R.frac < A.frac + B.frac) (h2 : A.frac + B.frac - R.frac < 62)
    (hr : (a * b + 2 ^ (A.frac + B.frac - R.frac - 1)) / 2 ^ (A.frac + B.frac - R.frac) < 2 ^ 31) :
    mulI32 A B R (-(a : Int)) b = R.new (-(((a * b + 2 ^ (A.frac + B.frac - R.frac - 1)) /
      2 ^ (A.frac + B.frac - R.frac) : Nat) : Int)) := by
  obtain ⟨r, hn, he⟩ := C08_mul_signed A B R (-(a : Int)) b (by omega) (by omega) hf h1 h2
  have h4 := nearest_nat (a * b) (A.frac + B.frac - R.frac) (by omega)
  rw [Nat.cast_mul] at h4
  have h5 : Nearest (-((a : Int) * b)) (A.frac + B.frac - R.frac) _ := NearestDiv.neg h4
  rw [neg_mul] at hn
  have h6 := Nearest.unique hn h5
  generalize (a * b + 2 ^ (A.frac + B.frac - R.frac - 1)) / 2 ^ (A.frac + B.frac - R.frac) = q at *
  rw [he, if_pos (by omega), h6]

theorem mulU32_eq {a b : Nat} (ha : a < 2 ^ 31) (hb : b < 2 ^ 31) :
    mulU32 fractOnlyU32 fractOnlyU32 fractOnlyU32 a b = some (sq31 a b) ∧ sq31 a b < 2 ^ 31 := by
  obtain ⟨r, h1, h2, h3⟩ := C08_mul_probabilities a b ha hb
  have h4 := nearest_nat (a * b) 31 (by norm_num)
  rw [Nat.cast_mul] at h4
  have h5 := Nearest.unique h3 h4
  have h6 : r = sq31 a b := by
    unfold sq31
    norm_num at h5
    exact_mod_cast h5
  rw [← h6]
  exact ⟨h1, h2⟩

theorem sq31_le {a w : Nat} (hw : w < 2147483648) : sq31 a w ≤ a := by
  unfold sq31
  rw [Nat.div_le_iff_le_mul_add_pred (by norm_num)]
  nlinarith

theorem leading {f : Nat} (h0 : f ≠ 0) (h : f < 2 ^ 31) :
    leadingZeros 32 f = 31 - Nat.log2 f ∧ Nat.log2 f ≤ 30 ∧ 2 ^ 30 ≤ f * 2 ^ (30 - Nat.log2 f) ∧
      f * 2 ^ (30 - Nat.log2 f) < 2 ^ 31 := by
  have h1 : Nat.log2 f < 31 := (Nat.log2_lt h0).mpr h
  have h2 := Nat.log2_self_le h0
  have h3 : f < 2 ^ (Nat.log2 f + 1) := Nat.lt_log2_self
  unfold leadingZeros
  rw [if_neg h0]
  refine ⟨by omega, by omega, ?_, ?_⟩
  · calc 2 ^ 30 = 2 ^ Nat.log2 f * 2 ^ (30 - Nat.log2 f) := by rw [← pow_add]; congr 1; omega
      _ ≤ f * 2 ^ (30 - Nat.log2 f) := Nat.mul_le_mul_right _ h2
  · calc f * 2 ^ (30 - Nat.log2 f) < 2 ^ (Nat.log2 f + 1) * 2 ^ (30 - Nat.log2 f) :=
        Nat.mul_lt_mul_of_pos_right h3 (by positivity)
      _ = 2 ^ 31 := by rw [← pow_add]; congr 1; omega

theorem stretchLog2_eq {f : Nat} (h0 : f ≠ 0) (h : f < 2 ^ 31)
    (hl : fastLoop 31 0 (f * 2 ^ (30 - Nat.log2 f)) ≤ 2147483615) :
    stretchLog2 f = some ((preLog f : Int) - ((31 - Nat.log2 f : Nat) : Int) * 33554432) ∧
      preLog f ≤ 33554432 := by
  obtain ⟨h1, h2, h3, h4⟩ := leading h0 h
  obtain ⟨o1, o2⟩ := onePlusLog2_eq h3 h4
  have hpre : preLog f ≤ 33554432 := by unfold preLog; omega
  refine ⟨?_, hpre⟩
  unfold stretchLog2
  rw [check_pos h0, ob_some]
  dsimp only
  rw [h1, check_pos (by omega), ob_some, show 31 - Nat.log2 f - 1 = 30 - Nat.log2 f by omega,
    show wrapU32 (f * 2 ^ (30 - Nat.log2 f)) = f * 2 ^ (30 - Nat.log2 f) by rw [wrapU32_eq (by omega)],
    fu_new h4, ob_some, o1, ob_some, wrapI32_eq (by omega), fi_new (by omega), ob_some]
  obtain ⟨-, c2⟩ := C46_signed 32 fractOnlyI32 stretchHelper (fastLoop 31 0 (f * 2 ^ (30 - Nat.log2 f)) : Nat)
    (by norm_num; omega) (by norm_num; omega)
  obtain ⟨r, hn, he⟩ := c2 (by decide) (by decide) (by
    simp only [fractOnlyI32, stretchHelper]
    rw [Nat.abs_cast]
    norm_num
    omega)
  have h5 := nearest_nat (fastLoop 31 0 (f * 2 ^ (30 - Nat.log2 f))) 6 (by norm_num)
  have h6 := Nearest.unique hn h5
  have h7 : r = (preLog f : Int) := by
    rw [h6]; unfold preLog; norm_num
  rw [he, h7]
  obtain ⟨c1, -⟩ := C46_signed 32 noFractI32 stretchHelper ((31 - Nat.log2 f : Nat) : Int)
    (by norm_num; omega) (by norm_num; omega)
  have c3 := c1 (by decide) (by decide)
  change (some _ >>= _) = _
  rw [ob_some, i32_eq (by omega), ob_some,
    show (1 + ((31 - Nat.log2 f : Nat) : Int) - (32 - 31)) = ((31 - Nat.log2 f : Nat) : Int) by omega, c3]
  rw [if_pos (by simp only [noFractI32, stretchHelper]; norm_num; omega)]
  change (some (((31 - Nat.log2 f : Nat) : Int) * 33554432) >>= _) = _
  rw [ob_some]
  unfold subI32
  rw [i32_eq (by omega), ob_some]
  rfl

theorem entryInput_eq {l i : Nat} (hl : l < 8) (hi : i < 512) :
    entryInput l i = some (entryIn l i) ∧ entryIn l i < 2 ^ 30 := by
  unfold entryInput
  have hstep : levelStep l * i < 2 ^ 31 ∧ levelStart l + levelStep l * i = entryIn l i ∧ entryIn l i < 2 ^ 30 := by
    have hall : ∀ l < 8, levelStep l ≤ 2 ^ 20 ∧ levelStart l + levelStep l * 511 < 2 ^ 30 := by decide
    obtain ⟨a1, a2⟩ := hall l hl
    have a3 : levelStep l * i ≤ levelStep l * 511 := Nat.mul_le_mul_left _ (by omega)
    have a4 : levelStart l + levelStep l * i = entryIn l i := by
      unfold levelStart levelStep entryIn
      by_cases h7 : l = 7
      · subst h7
        rw [if_pos rfl, if_pos rfl, show Nat.beq 7 7 = true from rfl, cond_true, Nat.zero_add]
      · have : Nat.beq l 7 = false := by
          rw [Bool.eq_false_iff]; simpa using h7
        rw [if_neg h7, if_neg h7, this, cond_false, show 31 - 2 - l = 29 - l by omega,
          show 29 - l - 9 = 20 - l by omega]
    exact ⟨by omega, a4, by omega⟩
  obtain ⟨b1, b2, b3⟩ := hstep
  refine ⟨?_, b3⟩
  unfold mulU32
  rw [u64_eq (by omega), ob_some]
  rw [u8_eq (by decide), ob_some, if_neg (by decide)]
  dsimp only
  rw [check_pos (by decide), ob_some, show fractOnlyU32.frac - (fractOnlyU32.frac + noFractU32.frac) = 0 from rfl,
    pow_zero, Nat.mul_one, wrapU64_eq (by omega), check_pos (wrapU32_eq (by omega)), ob_some, Nat.div_one,
    check_pos rfl, ob_some, wrapU32_eq (by omega), fu_new b1, ob_some]
  unfold addU32
  rw [b2, u32_eq (by omega), ob_some]
  exact fu_new (by omega)

theorem entry_facts {k : Nat} (hk : k < 4096) (h : k ≠ 3584) :
    entryMag (k / 512) (k % 512) = field k ∧
    fastLoop 31 0 (entryIn (k / 512) (k % 512) * 2 ^ (30 - Nat.log2 (entryIn (k / 512) (k % 512)))) ≤ 2147483615 ∧
    fastLoop 31 0 ((2147483648 - entryIn (k / 512) (k % 512)) *
      2 ^ (30 - Nat.log2 (2147483648 - entryIn (k / 512) (k % 512)))) ≤ 2147483615 ∧
    preLog (entryIn (k / 512) (k % 512)) ≤ (30 - Nat.log2 (entryIn (k / 512) (k % 512))) * 33554432 +
      preLog (2147483648 - entryIn (k / 512) (k % 512)) ∧ field k ≤ 24711779 := by
  have := List.all_eq_true.mp entries_ok k (List.mem_range.mpr hk)
  unfold entryOk at this
  simp only [Bool.or_eq_true, Bool.and_eq_true, Nat.beq_eq, h, false_or, Nat.ble_eq] at this
  obtain ⟨⟨⟨⟨⟨⟨h1, -⟩, -⟩, h2⟩, h3⟩, h4⟩, h5⟩ := this
  exact ⟨h1, h2, h3, h4, h5⟩

theorem entryIn_pos {l i : Nat} (hl : l < 8) (h : ¬ (l = 7 ∧ i = 0)) : 0 < entryIn l i := by
  unfold entryIn
  by_cases h7 : l = 7
  · subst h7
    rw [show Nat.beq 7 7 = true from rfl, cond_true]
    omega
  · have : Nat.beq l 7 = false := by
      rw [Bool.eq_false_iff]; simpa using h7
    rw [this, cond_false]
    positivity

theorem stretchEntry_eq {l i : Nat} (hl : l < 8) (hi : i < 512) (h : ¬ (l = 7 ∧ i = 0)) :
    stretchEntry l i = some (-(field (512 * l + i) : Int)) ∧ field (512 * l + i) ≤ 24711779 := by
  obtain ⟨e1, e2⟩ := entryInput_eq hl hi
  have e0 := entryIn_pos hl h
  have hk := entry_facts (k := 512 * l + i) (by omega) (by omega)
  rw [show (512 * l + i) / 512 = l by omega, show (512 * l + i) % 512 = i by omega] at hk
  obtain ⟨h1, h2, h3, h4, h5⟩ := hk
  refine ⟨?_, h5⟩
  obtain ⟨s1, s1'⟩ := stretchLog2_eq (by omega) (by omega) h2
  obtain ⟨s2, s2'⟩ := stretchLog2_eq (f := 2147483648 - entryIn l i) (by omega) (by omega) h3
  have hlog : Nat.log2 (2147483648 - entryIn l i) = 30 := by
    rw [Nat.log2_eq_iff (by omega)]; omega
  unfold stretchEntry
  rw [e1, ob_some, s1, ob_some, flip_eq e0 (by omega), ob_some, s2, ob_some]
  have hlz : Nat.log2 (entryIn l i) ≤ 29 := by
    have := (Nat.log2_lt (show entryIn l i ≠ 0 by omega) (k := 30)).mpr e2
    omega
  have hsub : subI32 stretchHelper ((preLog (entryIn l i) : Int) -
      ((31 - Nat.log2 (entryIn l i) : Nat) : Int) * 33554432)
      ((preLog (2147483648 - entryIn l i) : Int) -
      ((31 - Nat.log2 (2147483648 - entryIn l i) : Nat) : Int) * 33554432) =
      some (-(entryLog (entryIn l i) : Int)) := by
    unfold subI32
    rw [hlog]
    have : ((preLog (entryIn l i) : Int) - ((31 - Nat.log2 (entryIn l i) : Nat) : Int) * 33554432) -
      ((preLog (2147483648 - entryIn l i) : Int) - ((31 - 30 : Nat) : Int) * 33554432) =
      -(entryLog (entryIn l i) : Int) := by
      unfold entryLog
      omega
    rw [this, i32_eq (by unfold entryLog; omega), ob_some]
    rfl
  rw [hsub, ob_some]
  have hm := mulI32_neg stretchHelper fractOnlyI32 stretchedProbD (entryLog (entryIn l i)) 1488522236
    (by unfold entryLog; omega) (by norm_num) (by decide) (by decide) (by decide) (by
      simp only [stretchHelper, fractOnlyI32, stretchedProbD]
      rw [Nat.div_lt_iff_lt_mul (by norm_num)]
      have : entryLog (entryIn l i) < 2 ^ 31 := by unfold entryLog; omega
      norm_num at this ⊢
      omega)
  change mulI32 stretchHelper fractOnlyI32 stretchedProbD _ ((1488522236 : Nat) : Int) = _
  rw [hm]
  have he : (entryLog (entryIn l i) * 1488522236 +
      2 ^ (stretchHelper.frac + fractOnlyI32.frac - stretchedProbD.frac - 1)) /
      2 ^ (stretchHelper.frac + fractOnlyI32.frac - stretchedProbD.frac) = field (512 * l + i) := by
    rw [← h1]
    rfl
  rw [he]
  exact sp_new (by omega)

/-- the contents of the stretch table -/
def StretchOk (lut : List (List Int)) : Prop :=
  ∀ l < 8, ∀ i < 512, ¬ (l = 7 ∧ i = 0) → lutGet lut l i = some (-(field (512 * l + i) : Int))

theorem mapM_some {α β : Type} (f : α → Option β) (g : α → β) : ∀ (l : List α), (∀ a ∈ l, f a = some (g a)) →
    l.mapM f = some (l.map g) := by
  intro l
  induction l with
  | nil => intro _; rfl
  | cons a l ih =>
    intro h
    rw [List.mapM_cons, h a (by simp), ih (fun b hb => h b (by simp [hb]))]
    rfl

/-- the table of the constructor -/
def stretchTable : List (List Int) :=
  (List.range 8).map fun l => (List.range 512).map fun i =>
    if l = 7 ∧ i = 0 then 2 ^ 31 - 1 else -(field (512 * l + i) : Int)

theorem stretchLut_eq : stretchLutNew = some stretchTable := by
  unfold stretchLutNew
  have h1 : addU32 fractOnlyU32 (levelStart 7) (levelStep 7) = some minAccurate := by decide
  rw [h1, ob_some, check_pos rfl, ob_some]
  unfold stretchTable
  apply mapM_some
  intro l hl
  rw [List.mem_range] at hl
  unfold stretchLevel
  apply mapM_some
  intro i hi
  rw [List.mem_range] at hi
  by_cases h : l = 7 ∧ i = 0
  · rw [if_pos h, if_pos h]
  · rw [if_neg h, if_neg h, (stretchEntry_eq hl hi h).1]

theorem stretchTable_ok : StretchOk stretchTable := by
  intro l hl i hi h
  unfold lutGet stretchTable
  rw [List.getElem?_map, List.getElem?_range hl, Option.map_some, ob_some, List.getElem?_map,
    List.getElem?_range hi, Option.map_some, if_neg h]

theorem field_le {l i : Nat} (hl : l < 8) (hi : i < 512) (h : ¬ (l = 7 ∧ i = 0)) :
    field (512 * l + i) ≤ 24711779 := (stretchEntry_eq hl hi h).2

/-- negated left bound -/
def leftMag (level idx : Nat) : Nat :=
  bif idx.beq 0 && level.beq 7 then field 3585 else field (512 * level + idx)

/-- negated right bound -/
def rightMag (level idx : Nat) : Nat :=
  bif idx.beq 511 then (bif level.beq 0 then 0 else field (512 * (level - 1)))
    else field (512 * level + idx + 1)

theorem left_eq {lut : List (List Int)} (hT : StretchOk lut) {l i : Nat} (hl : l < 8) (hi : i < 512) :
    stretchLeft lut l i = some (-(leftMag l i : Int)) ∧ leftMag l i ≤ 24711779 := by
  unfold stretchLeft leftMag
  by_cases h : i = 0 ∧ l = 7
  · obtain ⟨rfl, rfl⟩ := h
    rw [if_neg (by omega), hT 7 (by omega) 1 (by omega) (by omega)]
    exact ⟨rfl, field_le (l := 7) (i := 1) (by omega) (by omega) (by omega)⟩
  · have hb : (Nat.beq i 0 && Nat.beq l 7) = false := by
      rw [Bool.eq_false_iff]; simpa using h
    rw [hb, cond_false, if_pos (by omega), hT l hl i hi (by omega)]
    exact ⟨rfl, field_le hl hi (by omega)⟩

theorem right_eq {lut : List (List Int)} (hT : StretchOk lut) {l i : Nat} (hl : l < 8) (hi : i < 512) :
    stretchRight lut l i = some (-(rightMag l i : Int)) ∧ rightMag l i ≤ 24711779 := by
  unfold stretchRight rightMag
  by_cases h : i = 511
  · subst h
    rw [show Nat.beq 511 511 = true from rfl, cond_true, if_neg (by omega)]
    by_cases h0 : l = 0
    · subst h0
      rw [show Nat.beq 0 0 = true from rfl, cond_true, if_neg (by omega)]
      exact ⟨rfl, by omega⟩
    · have hb : Nat.beq l 0 = false := by rw [Bool.eq_false_iff]; simpa using h0
      rw [hb, cond_false, if_pos (by omega), hT (l - 1) (by omega) 0 (by omega) (by omega)]
      exact ⟨rfl, field_le (l := l - 1) (i := 0) (by omega) (by omega) (by omega)⟩
  · have hb : Nat.beq i 511 = false := by rw [Bool.eq_false_iff]; simpa using h
    rw [hb, cond_false, if_pos h, hT l hl (i + 1) (by omega) (by omega)]
    exact ⟨rfl, field_le (l := l) (i := i + 1) hl (by omega) (by omega)⟩

theorem mul_stretch {a w : Nat} (ha : a ≤ 24711779) (hw : w < 2 ^ 31) :
    mulI32 stretchedProbD fractOnlyI32 stretchedProbD (-(a : Int)) w = some (-(sq31 a w : Int)) := by
  have h1 := sq31_le (a := a) (w := w) (by omega)
  have := mulI32_neg stretchedProbD fractOnlyI32 stretchedProbD a w (by omega) hw (by decide) (by decide)
    (by decide) (by
      change sq31 a w < 2 ^ 31
      omega)
  rw [this]
  exact sp_new (x := -(sq31 a w : Int)) (by omega)

/-- the index within a level and the weight -/
theorem stretch_parts {p : Nat} (h0 : p ≠ 0) (h : p < 2 ^ 30) :
    Nat.log2 p ≤ 29 ∧ min 7 (29 - Nat.log2 p) < 8 := by
  have := (Nat.log2_lt h0 (k := 30)).mpr h
  omega

/-- convex combinations stay within the bounds, up to one unit -/
theorem interp_le {lb rb w M : Nat} (hw : w < 2147483648) (h1 : lb ≤ M) (h2 : rb ≤ M) :
    lb - sq31 lb w + sq31 rb w ≤ M + 1 := by
  have a1 := sq31_le (a := lb) hw
  have a2 : lb * w < 2147483648 * (sq31 lb w) + 1073741824 := by unfold sq31; omega
  have a3 : 2147483648 * (sq31 rb w) ≤ rb * w + 1073741824 := by unfold sq31; omega
  have a4 : rb * w ≤ M * w := Nat.mul_le_mul_right _ h2
  have a5 : lb * w + M * (2147483648 - w) ≥ lb * 2147483648 := by
    have : lb * (2147483648 - w) ≤ M * (2147483648 - w) := Nat.mul_le_mul_right _ h1
    have e : lb * w + lb * (2147483648 - w) = lb * 2147483648 := by rw [← Nat.mul_add]; congr 1; omega
    omega
  have a6 : M * w + M * (2147483648 - w) = M * 2147483648 := by rw [← Nat.mul_add]; congr 1; omega
  generalize sq31 lb w = x at *
  generalize sq31 rb w = y at *
  omega

theorem stretchLower_eq {lut : List (List Int)} (hT : StretchOk lut) {p : Nat} (h0 : p ≠ 0) (h : p < 2 ^ 30) :
    stretchLower lut p = some (-(stretchMag p : Int)) ∧ stretchMag p ≤ 24711780 := by
  obtain ⟨h1, h2, -, -⟩ := leading h0 (by omega)
  obtain ⟨h3, h4⟩ := stretch_parts h0 h
  have hsub : 31 - Nat.log2 p - 2 = 29 - Nat.log2 p := by omega
  have hidx : ∀ s, p * 2 ^ s % 4294967296 / 8388608 < 512 := by
    intro s
    have := Nat.mod_lt (p * 2 ^ s) (show 0 < 4294967296 by norm_num)
    omega
  have hwt : ∀ s, p * 2 ^ s % 4294967296 / 2 < 2147483648 := by
    intro s
    have := Nat.mod_lt (p * 2 ^ s) (show 0 < 4294967296 by norm_num)
    omega
  have hshift : (if min 7 (29 - Nat.log2 p) = 7 then min 7 (29 - Nat.log2 p) + 2 else min 7 (29 - Nat.log2 p) + 3) =
      bif (min 7 (29 - Nat.log2 p)).beq 7 then 9 else min 7 (29 - Nat.log2 p) + 3 := by
    generalize min 7 (29 - Nat.log2 p) = l
    by_cases h7 : l = 7
    · subst h7; rfl
    · have hb : Nat.beq l 7 = false := by rw [Bool.eq_false_iff]; simpa using h7
      rw [hb, cond_false, if_neg h7]
  have hmag : stretchMag p =
      leftMag (min 7 (29 - Nat.log2 p)) (p * 2 ^ (bif (min 7 (29 - Nat.log2 p)).beq 7 then 9 else
        min 7 (29 - Nat.log2 p) + 3) % 4294967296 / 8388608) -
      sq31 (leftMag (min 7 (29 - Nat.log2 p)) (p * 2 ^ (bif (min 7 (29 - Nat.log2 p)).beq 7 then 9 else
        min 7 (29 - Nat.log2 p) + 3) % 4294967296 / 8388608)) (p * 2 ^ ((bif (min 7 (29 - Nat.log2 p)).beq 7 then 9 else
        min 7 (29 - Nat.log2 p) + 3) + 9) % 4294967296 / 2) +
      sq31 (rightMag (min 7 (29 - Nat.log2 p)) (p * 2 ^ (bif (min 7 (29 - Nat.log2 p)).beq 7 then 9 else
        min 7 (29 - Nat.log2 p) + 3) % 4294967296 / 8388608)) (p * 2 ^ ((bif (min 7 (29 - Nat.log2 p)).beq 7 then 9 else
        min 7 (29 - Nat.log2 p) + 3) + 9) % 4294967296 / 2) := rfl
  unfold stretchLower
  rw [check_pos h0, ob_some]
  dsimp only
  rw [h1, subU_eq (by omega), ob_some, hsub, hshift, hmag]
  generalize min 7 (29 - Nat.log2 p) = l at *
  generalize (bif l.beq 7 then 9 else l + 3) = s at *
  unfold wrapU32
  have hi := hidx s
  have hw := hwt (s + 9)
  rw [show (0x100000000 : Nat) = 4294967296 from rfl, show 2 ^ (32 - 9) = 8388608 by norm_num]
  generalize p * 2 ^ s % 4294967296 / 8388608 = i at *
  obtain ⟨l1, l2⟩ := left_eq hT h4 hi
  obtain ⟨r1, r2⟩ := right_eq hT h4 hi
  have hwI : (((p * 2 ^ (s + 9) % 4294967296 : Nat) : Int) / 2) =
      ((p * 2 ^ (s + 9) % 4294967296 / 2 : Nat) : Int) := by omega
  rw [l1, ob_some, r1, ob_some, hwI]
  generalize p * 2 ^ (s + 9) % 4294967296 / 2 = w at *
  have b1 := sq31_le (a := leftMag l i) hw
  have b2 := sq31_le (a := rightMag l i) hw
  have b3 := interp_le hw l2 r2
  rw [wrapI32_eq (by omega), fi_new (by omega), ob_some, mul_stretch l2 hw, ob_some]
  unfold subI32
  rw [i32_eq (by omega), ob_some, sp_new (by omega), ob_some, mul_stretch r2 hw, ob_some]
  unfold addI32
  rw [i32_eq (by omega), ob_some, sp_new (by omega)]
  exact ⟨by congr 1; omega, b3⟩

/-- stretch of every probability -/
def stOut (p : Nat) : Int := if p < 2 ^ 30 then -(stretchMag p : Int) else (stMag p : Int)

theorem stretch_eq {lut : List (List Int)} (hT : StretchOk lut) {p : Nat} (h0 : 0 < p) (h : p < 2 ^ 31) :
    stretch lut p = some (stOut p) ∧ -24711780 ≤ stOut p ∧ stOut p ≤ 24711780 := by
  unfold stretch stOut
  by_cases h1 : p = 2 ^ 30
  · subst h1
    rw [if_pos rfl, if_neg (by omega)]
    unfold stMag
    rw [show Nat.beq (2 ^ 30) 1073741824 = true from rfl, cond_true]
    exact ⟨rfl, by omega, by omega⟩
  · have hb : Nat.beq p 1073741824 = false := by
      rw [Bool.eq_false_iff]; simpa using h1
    have hst : stMag p = stretchMag (2147483648 - p) := by
      unfold stMag; rw [hb, cond_false]
    rw [if_neg h1, flip_eq h0 h, ob_some]
    by_cases h2 : p > 2 ^ 30
    · obtain ⟨e, f⟩ := stretchLower_eq hT (p := 2147483648 - p) (by omega) (by omega)
      rw [if_pos h2, e, ob_some, if_neg (by omega), hst]
      unfold negI32
      rw [i32_eq (by omega), ob_some, sp_new (by omega)]
      exact ⟨by congr 1; omega, by omega, by omega⟩
    · obtain ⟨e, f⟩ := stretchLower_eq hT (p := p) (by omega) (by omega)
      rw [if_neg h2, e, if_pos (by omega)]
      exact ⟨rfl, by omega, by omega⟩

end Verif.Lut
