import Verif.Log2.Model
import Verif.Est.Lemmas
import Mathlib.Analysis.SpecialFunctions.Log.Base

/-! # The logarithm table computed in the kernel -/

namespace Verif.Log2

open Verif Verif.Fixed

/-- the table loop without overflow checks -/
def fastLoop : Nat → Nat → Nat → Nat
  | 0, l, _ => l
  | k + 1, l, a =>
    let a := (a * a + 1073741824) / 2147483648
    bif a.blt 1073741824 then fastLoop k (l * 2) (a * 2) else fastLoop k (l * 2 + 1) a

theorem mul_self_eq {a : Nat} (ha : a < 2 ^ 31) :
    mulU32 fractOnlyU32 fractOnlyU32 fractOnlyU32 a a = some ((a * a + 1073741824) / 2147483648) := by
  obtain ⟨r, h1, h2, h3⟩ := C08_mul_probabilities a a ha ha
  rw [h1]
  have h4 := nearest_nat (a * a) 31 (by norm_num)
  rw [Nat.cast_mul] at h4
  have := Nearest.unique h3 h4
  norm_num at this
  congr 1
  exact_mod_cast this

theorem onePlusLoop_eq : ∀ (k l a : Nat), a < 2 ^ 31 → (l + 1) * 2 ^ k ≤ 2 ^ 31 → l < 2 ^ 31 →
    ∃ a', onePlusLoop k l a = some (fastLoop k l a, a') ∧ fastLoop k l a < (l + 1) * 2 ^ k := by
  intro k
  induction k with
  | zero => intro l a _ _ _; exact ⟨a, rfl, by simp [fastLoop]⟩
  | succ k ih =>
    intro l a ha hl hl2
    rw [pow_succ] at hl
    have hk : 1 ≤ 2 ^ k := Nat.one_le_two_pow
    have hl3 : (l + 1) * 2 ≤ 2 ^ 31 := by
      calc (l + 1) * 2 ≤ (l + 1) * (2 ^ k * 2) := Nat.mul_le_mul_left _ (by omega)
        _ ≤ 2 ^ 31 := hl
    have hw : wrapU32 (l * 2) = l * 2 := by unfold wrapU32; omega
    have haa : a * a ≤ (2 ^ 31 - 1) * (2 ^ 31 - 1) := Nat.mul_le_mul (by omega) (by omega)
    have hq : (a * a + 1073741824) / 2147483648 < 2 ^ 31 := by norm_num at haa; omega
    unfold onePlusLoop fastLoop
    dsimp only
    rw [hw, mul_self_eq ha, ob_some]
    generalize (a * a + 1073741824) / 2147483648 = q at *
    by_cases hlt : q < 1073741824
    · rw [if_pos (by norm_num; exact hlt)]
      have hb : Nat.blt q 1073741824 = true := by simpa [Nat.blt_eq] using hlt
      rw [hb, cond_true, u32_eq (by omega), ob_some]
      have hnew : fractOnlyU32.new (q * 2) = some (q * 2) := by
        unfold fractOnlyU32
        dsimp only
        rw [check_pos (Nat.div_eq_of_lt (by omega))]; rfl
      rw [hnew, ob_some]
      obtain ⟨a', e, f⟩ := ih (l * 2) (q * 2) (by omega) (by nlinarith) (by omega)
      refine ⟨a', e, ?_⟩
      calc _ < (l * 2 + 1) * 2 ^ k := f
        _ ≤ (l + 1) * 2 ^ (k + 1) := by rw [pow_succ]; nlinarith
    · rw [if_neg (by norm_num; omega)]
      have hb : Nat.blt q 1073741824 = false := by
        rw [Bool.eq_false_iff]; simpa [Nat.blt_eq] using hlt
      have hor : l * 2 ||| 1 = l * 2 + 1 := by
        rw [Nat.mul_comm, show 2 * l = 2 ^ 1 * l by norm_num,
          ← Nat.two_pow_add_eq_or_of_lt (by norm_num : 1 < 2 ^ 1)]
      rw [hb, cond_false, hor]
      obtain ⟨a', e, f⟩ := ih (l * 2 + 1) q (by omega) (by nlinarith) (by omega)
      refine ⟨a', e, ?_⟩
      calc _ < (l * 2 + 1 + 1) * 2 ^ k := f
        _ ≤ (l + 1) * 2 ^ (k + 1) := by rw [pow_succ]; nlinarith

theorem onePlusLog2_eq {input : Nat} (h1 : 2 ^ 30 ≤ input) (h2 : input < 2 ^ 31) :
    onePlusLog2 input = some (fastLoop 31 0 input) ∧ fastLoop 31 0 input < 2 ^ 31 := by
  obtain ⟨a', e, f⟩ := onePlusLoop_eq 31 0 input h2 (by norm_num) (by norm_num)
  have f' : fastLoop 31 0 input < 2 ^ 31 := by simpa using f
  refine ⟨?_, f'⟩
  unfold onePlusLog2
  rw [check_pos (Nat.div_eq_of_lt h2), ob_some, check_pos h1, ob_some, e, ob_some]
  unfold fractOnlyU32
  dsimp only
  rw [check_pos (Nat.div_eq_of_lt f'), ob_some]

/-- value of the restricted logarithm at index `i`, in units of `1 / 2048` -/
def tval (i : Nat) : Nat := (fastLoop 31 0 ((i + 2048) * 524288) + 524288) / 1048576

/-- the kernel check of one entry -/
def entryOk (i : Nat) : Bool :=
  let t := tval i
  i.ble t && (t - i).ble 176 && t.ble 2047 &&
    (2 ^ (2 * t + 45055)).ble ((i + 2048) ^ 4096) && ((i + 2048) ^ 4096).blt (2 ^ (2 * t + 45057))

set_option maxRecDepth 100000 in
/-- all 2048 entries, by kernel computation -/
theorem entries_ok : (List.range 2048).all entryOk = true := by decide +kernel

theorem entry_spec {i : Nat} (h : i < 2048) :
    i ≤ tval i ∧ tval i - i ≤ 176 ∧ tval i ≤ 2047 ∧
      2 ^ (2 * tval i + 45055) ≤ (i + 2048) ^ 4096 ∧
      (i + 2048) ^ 4096 < 2 ^ (2 * tval i + 45057) := by
  have := List.all_eq_true.mp entries_ok i (List.mem_range.mpr h)
  unfold entryOk at this
  simp only [Bool.and_eq_true] at this
  obtain ⟨⟨⟨⟨h1, h2⟩, h3⟩, h4⟩, h5⟩ := this
  exact ⟨Nat.le_of_ble_eq_true h1, Nat.le_of_ble_eq_true h2, Nat.le_of_ble_eq_true h3,
    Nat.le_of_ble_eq_true h4, by rwa [Nat.blt_eq] at h5⟩

theorem entry_small {i : Nat} (h : i < 2048) : i ≤ tval i ∧ tval i - i ≤ 176 ∧ tval i ≤ 2047 :=
  ⟨(entry_spec h).1, (entry_spec h).2.1, (entry_spec h).2.2.1⟩

end Verif.Log2

namespace Verif.Log2

open Verif Verif.Fixed

theorem log2Entry_eq {i : Nat} (h : i < 2048) : log2Entry i = some (tval i - i) := by
  obtain ⟨h1, h2, h3⟩ := entry_small h
  unfold log2Entry
  dsimp only
  have e : (i + 2 ^ 11) * 2 ^ 19 = (i + 2048) * 524288 := by norm_num
  have hw : wrapU32 ((i + 2 ^ 11) * 2 ^ 19) = (i + 2048) * 524288 := by
    rw [e]; unfold wrapU32; omega
  rw [hw]
  have hnew : fractOnlyU32.new ((i + 2048) * 524288) = some ((i + 2048) * 524288) := by
    unfold fractOnlyU32
    dsimp only
    rw [check_pos (Nat.div_eq_of_lt (by omega))]; rfl
  obtain ⟨hl, hb⟩ := onePlusLog2_eq (input := (i + 2048) * 524288) (by omega) (by omega)
  rw [hnew, ob_some, hl, ob_some, scaledDownU_nosat (by norm_num) (by norm_num) (by norm_num at *; omega),
    ob_some]
  have ht : (fastLoop 31 0 ((i + 2048) * 524288) + 2 ^ (20 - 1)) / 2 ^ 20 = tval i := by
    unfold tval; norm_num
  rw [ht, subU_eq h1, ob_some, check_pos h2, ob_some]
  unfold wrapU8
  rw [Nat.mod_eq_of_lt (by omega)]

/-- the table exists and its entries are `tval` -/
theorem lut_spec : ∃ lut, log2LutNew = some lut ∧ lut.length = 2048 ∧
    ∀ i, i < 2048 → lut[i]? = some (tval i - i) := by
  obtain ⟨r, hr⟩ := Est.mapM_total log2Entry (List.range 2048)
    (fun a ha => ⟨_, log2Entry_eq (by simpa using ha)⟩)
  obtain ⟨h1, h2⟩ := Est.mapM_getElem _ _ _ hr
  refine ⟨r, hr, by simpa using h1, ?_⟩
  intro i hi
  rw [h2 i (by simpa using hi), List.getElem_range]
  exact log2Entry_eq hi

/-- `lut` is the table built by `Log2Lut::new` -/
def IsLut (lut : List Nat) : Prop := ∀ i, i < 2048 → lut[i]? = some (tval i - i)

theorem isLut_of {lut : List Nat} (h : log2LutNew = some lut) : IsLut lut := by
  obtain ⟨l, h1, -, h2⟩ := lut_spec
  rw [h, Option.some.injEq] at h1
  subst h1
  exact h2

theorem restricted_eq {lut : List Nat} (h : IsLut lut) {i : Nat} (hi : i < 2048) :
    log2Restricted lut (i + 2048) = some (tval i) := by
  obtain ⟨h1, h2, h3⟩ := entry_small hi
  unfold log2Restricted
  rw [subU_eq (by omega), ob_some, show i + 2048 - 2 ^ 11 = i by omega, h i hi, ob_some,
    u32_eq (by omega)]
  congr 1; omega

/-- top twelve bits of a positive number, as an index into the table -/
def mant (raw : Nat) : Nat := raw * 2048 / 2 ^ Nat.log2 raw - 2048

theorem mant_spec {raw : Nat} (h : raw ≠ 0) :
    mant raw < 2048 ∧ (mant raw + 2048) * 2 ^ Nat.log2 raw ≤ raw * 2048 ∧
      raw * 2048 < (mant raw + 2048 + 1) * 2 ^ Nat.log2 raw := by
  have h1 := Nat.log2_self_le h
  have h2 := Nat.lt_log2_self (n := raw)
  rw [pow_succ] at h2
  have hp : 0 < 2 ^ Nat.log2 raw := by positivity
  unfold mant
  generalize 2 ^ Nat.log2 raw = q at *
  have a1 : 2048 ≤ raw * 2048 / q := by
    rw [Nat.le_div_iff_mul_le hp]; nlinarith
  have a2 : raw * 2048 / q < 4096 := by
    rw [Nat.div_lt_iff_lt_mul hp]; nlinarith
  have a3 := Nat.div_add_mod (raw * 2048) q
  have a4 := Nat.mod_lt (raw * 2048) hp
  generalize raw * 2048 / q = d at *
  rw [Nat.sub_add_cancel a1]
  refine ⟨by omega, ?_, ?_⟩
  · rw [Nat.mul_comm d]; omega
  · rw [Nat.add_mul, one_mul, Nat.mul_comm d]; omega

/-- the logarithm in closed form -/
theorem log2_eq {lut : List Nat} (hl : IsLut lut) {w frac raw : Nat} (hw : 12 ≤ w) (hw2 : w ≤ 64)
    (hf : frac ≤ w) (h0 : raw ≠ 0) (hr : raw < 2 ^ w) :
    log2 lut w frac raw = some ((tval (mant raw) : Int) + ((Nat.log2 raw : Int) - frac) * 2048) := by
  obtain ⟨m1, m2, m3⟩ := mant_spec h0
  have hlg : Nat.log2 raw < w := (Nat.log2_lt h0).mpr hr
  obtain ⟨-, -, t3⟩ := entry_small m1
  unfold log2
  rw [check_pos h0, ob_some]
  have hlz : leadingZeros w raw = w - 1 - Nat.log2 raw := by unfold leadingZeros; rw [if_neg h0]
  dsimp only
  rw [hlz]
  have hsh : raw * 2 ^ (w - 1 - Nat.log2 raw) % 2 ^ w / 2 ^ (w - 11 - 1) = mant raw + 2048 := by
    have hlt : raw * 2 ^ (w - 1 - Nat.log2 raw) < 2 ^ w := by
      calc raw * 2 ^ (w - 1 - Nat.log2 raw)
          < 2 ^ (Nat.log2 raw + 1) * 2 ^ (w - 1 - Nat.log2 raw) :=
            Nat.mul_lt_mul_of_pos_right Nat.lt_log2_self (by positivity)
        _ = 2 ^ w := by rw [← pow_add]; congr 1; omega
    rw [Nat.mod_eq_of_lt hlt]
    have e1 : 2 ^ (w - 1) = 2 ^ (w - 1 - Nat.log2 raw) * 2 ^ Nat.log2 raw := by
      rw [← pow_add]; congr 1; omega
    have e2 : 2 ^ (w - 1) = 2 ^ (w - 11 - 1) * 2048 := by
      rw [show 2048 = 2 ^ 11 by norm_num, ← pow_add]; congr 1; omega
    have hA : 0 < 2 ^ (w - 1 - Nat.log2 raw) := by positivity
    have hB : 0 < 2 ^ (w - 11 - 1) := by positivity
    have hQ : 0 < 2 ^ Nat.log2 raw := by positivity
    rw [e2] at e1
    generalize 2 ^ (w - 1 - Nat.log2 raw) = A at *
    generalize 2 ^ (w - 11 - 1) = B at *
    generalize 2 ^ Nat.log2 raw = Q at *
    generalize mant raw + 2048 = m at *
    -- raw * A / B, with B * 2048 = A * Q
    apply Nat.div_eq_of_lt_le
    · have : m * B * 2048 ≤ raw * A * 2048 := by nlinarith
      omega
    · have : raw * A * 2048 < (m + 1) * B * 2048 := by
        calc raw * A * 2048 = A * (raw * 2048) := by ring
          _ < A * ((m + 1) * Q) := Nat.mul_lt_mul_of_pos_left m3 hA
          _ = (m + 1) * (A * Q) := by ring
          _ = (m + 1) * B * 2048 := by rw [← e1]; ring
      omega
  rw [hsh]
  have hwr : wrapU32 (mant raw + 2048) = mant raw + 2048 := by unfold wrapU32; omega
  rw [hwr, restricted_eq hl m1, ob_some]
  have htr : (((w - frac : Nat) : Int) - ((w - 1 - Nat.log2 raw : Nat) : Int) - 1) =
      (Nat.log2 raw : Int) - frac := by omega
  rw [htr, i32_eq (by omega)]
  norm_num

theorem round_mono {N A B x y t u : Nat} (hB : B = A + 2) (hxy : x ≤ y)
    (a : 2 ^ (2 * t + A) ≤ x ^ N) (b : y ^ N < 2 ^ (2 * u + B)) : t ≤ u := by
  have c : x ^ N ≤ y ^ N := Nat.pow_le_pow_left hxy _
  have := (Nat.pow_lt_pow_iff_right (by norm_num : 1 < 2)).mp (lt_of_le_of_lt (le_trans a c) b)
  clear a b c
  omega

theorem tval_mono {i j : Nat} (hij : i ≤ j) (hj : j < 2048) : tval i ≤ tval j :=
  round_mono rfl (Nat.add_le_add_right hij 2048) (entry_spec (lt_of_le_of_lt hij hj)).2.2.2.1
    (entry_spec hj).2.2.2.2

theorem logb_two_pow (n : ℕ) : Real.logb 2 ((2 : ℝ) ^ n) = n := by
  rw [Real.logb_pow, Real.logb_self_eq_one (by norm_num), mul_one]

theorem round_real {N A B x t : Nat} (hx : 0 < x)
    (a : 2 ^ (2 * t + A) ≤ x ^ N) (b : x ^ N < 2 ^ (2 * t + B)) :
    2 * (t : ℝ) + A ≤ N * Real.logb 2 x ∧ N * Real.logb 2 x < 2 * (t : ℝ) + B := by
  have hpos : (0 : ℝ) < (x : ℝ) := by exact_mod_cast hx
  have a' : ((2 : ℝ) ^ (2 * t + A)) ≤ (x : ℝ) ^ N := by exact_mod_cast a
  have b' : (x : ℝ) ^ N < (2 : ℝ) ^ (2 * t + B) := by exact_mod_cast b
  have c1 := Real.logb_le_logb_of_le (b := 2) (by norm_num) (by positivity) a'
  have c2 := Real.logb_lt_logb (b := 2) (by norm_num) (by positivity) b'
  rw [logb_two_pow, Real.logb_pow] at c1
  rw [logb_two_pow, Real.logb_pow] at c2
  push_cast at c1 c2
  exact ⟨c1, c2⟩

/-- each table entry is the real logarithm rounded to nearest -/
theorem tval_real {i : Nat} (h : i < 2048) :
    (2 * (tval i : ℝ) - 1) / 4096 ≤ Real.logb 2 (((i : ℝ) + 2048) / 2048) ∧
      Real.logb 2 (((i : ℝ) + 2048) / 2048) < (2 * (tval i : ℝ) + 1) / 4096 := by
  have hr := round_real (Nat.add_pos_right i (by norm_num)) (entry_spec h).2.2.2.1
    (entry_spec h).2.2.2.2
  generalize tval i = t at *
  have hpos : (0 : ℝ) < (i : ℝ) + 2048 := by positivity
  have hL : Real.logb 2 (((i : ℝ) + 2048) / 2048) = Real.logb 2 ((i : ℝ) + 2048) - 11 := by
    rw [Real.logb_div hpos.ne' (by norm_num)]
    congr 1
    rw [show (2048 : ℝ) = (2 : ℝ) ^ 11 by norm_num, logb_two_pow]
    norm_num
  rw [hL]
  push_cast at hr
  constructor
  · linarith [hr.1]
  · linarith [hr.2]

end Verif.Log2
