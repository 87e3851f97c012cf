import Verif.Mix.ApmStops
import Verif.Mix.MixerLemmas

/-! # Helper lemmas about the adaptive probability map -/

namespace Verif.Mix

open Verif Verif.Fixed Verif.Lut

attribute [local irreducible] squashTable stretchTable

theorem sq31_comm (a b : Nat) : sq31 a b = sq31 b a := by unfold sq31; rw [Nat.mul_comm]

theorem sq31_one (a : Nat) : sq31 a (2 ^ 31) = a := by unfold sq31; omega

theorem sq31_le' {a w : Nat} (hw : w ≤ 2 ^ 31) : sq31 a w ≤ a := by
  rcases Nat.lt_or_ge w (2 ^ 31) with h | h
  · exact sq31_le (by omega)
  · rw [show w = 2 ^ 31 by omega, sq31_one]

theorem mulP_eq {a b : Nat} (ha : a ≤ 2 ^ 31) (hb : b ≤ 2 ^ 31) (h : sq31 a b < 2 ^ 31) :
    mulP a b = some (sq31 a b) := by
  unfold mulP mulU32
  have hm : a * b ≤ 2 ^ 31 * 2 ^ 31 := Nat.mul_le_mul ha hb
  rw [u64_eq (by norm_num at *; omega), ob_some, show fractOnlyU32.frac + fractOnlyU32.frac = 62 from rfl,
    u8_eq (by omega), ob_some, if_pos (by decide), show 62 - fractOnlyU32.frac = 31 from rfl,
    scaledDownU_nosat (by omega) (by omega) (by norm_num at *; omega), ob_some]
  have e : (a * b + 2 ^ (31 - 1)) / 2 ^ 31 = sq31 a b := by unfold sq31; norm_num
  rw [e, wrapU32_eq (by omega), check_pos rfl, fu_new h]; rfl

theorem add_eq {a b : Nat} (h : a + b < 2 ^ 31) : addU32 fractOnlyU32 a b = some (a + b) := by
  unfold addU32
  rw [u32_eq (by omega), ob_some, fu_new h]

theorem add_none {a b : Nat} (h : 2 ^ 31 ≤ a + b) : addU32 fractOnlyU32 a b = none := by
  unfold addU32
  by_cases h2 : a + b < 2 ^ 32
  · rw [u32_eq (by omega), ob_some]
    unfold fractOnlyU32
    dsimp only
    rw [check_neg]; rfl
    have : 1 ≤ (a + b) / 2 ^ 31 := by rw [Nat.le_div_iff_mul_le (by norm_num)]; omega
    omega
  · unfold u32
    rw [if_neg (by omega)]; rfl

theorem sub_eq {a b : Nat} (h : b ≤ a) (h2 : a - b < 2 ^ 31) : subU32 fractOnlyU32 a b = some (a - b) := by
  unfold subU32
  rw [subU_eq h, ob_some, fu_new h2]

theorem flip_eq {a : Nat} (h0 : 0 < a) (h : a ≤ 2 ^ 31) : flipU32 a = some (2 ^ 31 - a) := by
  unfold flipU32 oneUnsafe
  exact sub_eq h (by omega)

/-! ## The extra factor -/

theorem extraLoop_eq {s R : Nat} (hs : s < 2 ^ 31) : ∀ (fuel low high : Nat), low < high → high < 2 ^ 31 →
    sq31 low s < R → R ≤ sq31 high s → high - low ≤ 2 ^ fuel →
    ∃ e, extraLoop s R fuel low high = some e ∧ e < 2 ^ 31 ∧ sq31 e s + 1 = R := by
  have fin : ∀ low high, low < high → high < 2 ^ 31 → sq31 low s < R → R ≤ sq31 high s → high - low ≤ 1 →
      low < 2 ^ 31 ∧ sq31 low s + 1 = R := by
    intro low high h1 h2 h3 h4 h5
    have : high = low + 1 := by omega
    subst this
    have := sq31_gap (a := low) (b := low + 1) (w := s) (by omega) (by omega)
    omega
  intro fuel
  induction fuel with
  | zero =>
    intro low high h1 h2 h3 h4 h5
    rw [extraLoop, if_pos (by simpa using h5)]
    exact ⟨low, rfl, fin low high h1 h2 h3 h4 (by simpa using h5)⟩
  | succ n ih =>
    intro low high h1 h2 h3 h4 h5
    rw [extraLoop]
    by_cases h6 : high - low ≤ 1
    · rw [if_pos h6]
      exact ⟨low, rfl, fin low high h1 h2 h3 h4 h6⟩
    · rw [if_neg h6, add_eq (by omega), ob_some]
      have hmid : low + (high - low) / 2 < 2 ^ 31 := by omega
      rw [pow_succ] at h5
      have hlt : sq31 (low + (high - low) / 2) s < 2 ^ 31 := lt_of_le_of_lt (sq31_le' (by omega)) hmid
      rw [mulP_eq (by omega) (by omega) hlt, ob_some]
      by_cases h7 : sq31 (low + (high - low) / 2) s < R
      · rw [if_pos h7]
        exact ih _ _ (by omega) h2 h7 h4 (by omega)
      · rw [if_neg h7]
        exact ih _ _ (by omega) hmid h3 (by omega) (by omega)

/-- the extra factor fills an interval up to one unit below one -/
theorem extraFactor_eq {s : Nat} (h1 : 2 ^ 30 ≤ s) (h2 : s < 2 ^ 31) :
    ∃ e, extraFactor s = some e ∧ e < 2 ^ 31 ∧ s + sq31 s e + 1 = 2 ^ 31 := by
  unfold extraFactor
  rw [if_neg (by omega), flip_eq (by omega) (by omega), ob_some, sub_eq (by unfold oneUnsafe; omega)
    (by unfold oneUnsafe; omega), ob_some]
  unfold oneUnsafe
  obtain ⟨e, a, b, c⟩ := extraLoop_eq (R := 2 ^ 31 - s) h2 31 0 (2 ^ 31 - 1) (by norm_num) (by norm_num)
    (by unfold sq31; omega)
    (by
      unfold sq31
      rw [Nat.le_div_iff_mul_le (by norm_num)]
      omega) (by norm_num)
  refine ⟨e, a, b, ?_⟩
  rw [sq31_comm] at c
  omega

/-- shift of an interval -/
def shiftOf (len : Nat) : Nat := Log2.leadingZeros 32 len - 1

/-- extra factor of an interval -/
def extraOf (len : Nat) : Nat := (extraFactor (len * 2 ^ shiftOf len)).getD 0

/-- weight of an offset in an interval -/
def weightAt (len d : Nat) : Nat := d * 2 ^ shiftOf len + sq31 (d * 2 ^ shiftOf len) (extraOf len)

theorem shift_facts {len : Nat} (h : len < 2 ^ 31) :
    subU (Log2.leadingZeros 32 len) 1 = some (shiftOf len) ∧ len * 2 ^ shiftOf len < 2 ^ 31 ∧
      (len ≠ 0 → 2 ^ 30 ≤ len * 2 ^ shiftOf len) := by
  by_cases h0 : len = 0
  · subst h0
    exact ⟨rfl, by omega, by simp⟩
  · obtain ⟨a, b, c, d⟩ := leading h0 h
    unfold shiftOf
    rw [a, subU_eq (by omega), show 31 - Nat.log2 len - 1 = 30 - Nat.log2 len by omega]
    exact ⟨rfl, d, fun _ => c⟩

theorem extra_facts {len : Nat} (h : len < 2 ^ 31) :
    extraFactor (len * 2 ^ shiftOf len) = some (extraOf len) ∧ extraOf len < 2 ^ 31 ∧
      (len ≠ 0 → weightAt len len + 1 = 2 ^ 31) := by
  by_cases h0 : len = 0
  · subst h0
    refine ⟨?_, ?_, by simp⟩ <;> simp [extraOf, extraFactor]
  · obtain ⟨-, a, b⟩ := shift_facts h
    obtain ⟨e, c, d, f⟩ := extraFactor_eq (b h0) a
    have : extraOf len = e := by unfold extraOf; rw [c]; rfl
    unfold weightAt
    rw [this]
    exact ⟨c, d, fun _ => f⟩

theorem weightAt_mono {len d d' : Nat} (h : d ≤ d') : weightAt len d ≤ weightAt len d' := by
  unfold weightAt
  have : d * 2 ^ shiftOf len ≤ d' * 2 ^ shiftOf len := Nat.mul_le_mul_right _ h
  exact Nat.add_le_add this (sq31_mono _ this)

theorem weightAt_lt {len d : Nat} (h : len < 2 ^ 31) (hd : d ≤ len) : weightAt len d < 2 ^ 31 := by
  by_cases h0 : len = 0
  · have : d = 0 := by omega
    subst this
    unfold weightAt
    rw [Nat.zero_mul, sq31_comm, sq31_zero]
    norm_num
  · have := weightAt_mono (len := len) hd
    have := (extra_facts h).2.2 h0
    omega

/-! ## The table -/

/-- length of an interval -/
def lenAt (fb i : Nat) : Nat := stopAt fb (i + 1) - stopAt fb i

theorem lenAt_lt {fb i : Nat} (hfb : fb ≤ 7) (hi : i < 24 * 2 ^ fb) : lenAt fb i < 2 ^ 31 := by
  have := stopAt_bounds hfb (i := i + 1) (by omega)
  unfold lenAt
  omega

theorem lenAt_symm {fb i : Nat} (hfb : fb ≤ 7) (hi : i < 24 * 2 ^ fb) :
    lenAt fb (24 * 2 ^ fb - i - 1) = lenAt fb i := by
  have h1 := stopAt_symm hfb (i := i) (by omega)
  have h2 := stopAt_symm hfb (i := i + 1) (by omega)
  unfold lenAt
  rw [show 24 * 2 ^ fb - i - 1 + 1 = 24 * 2 ^ fb - i by omega]
  rw [show 24 * 2 ^ fb - (i + 1) = 24 * 2 ^ fb - i - 1 by omega] at h2
  omega

theorem mapM_range {α : Type} {f : Nat → Option α} {g : Nat → α} {n : Nat} (h : ∀ i, i < n → f i = some (g i)) :
    (List.range n).mapM f = some ((List.range n).map g) :=
  mapM_map f g fun i hi => h i (List.mem_range.mp hi)

theorem get_range {α : Type} {g : Nat → α} {n i : Nat} (h : i < n) : ((List.range n).map g)[i]? = some (g i) := by
  rw [List.getElem?_map, List.getElem?_range h]; rfl

theorem intervalData_eq {fb i n : Nat} (hfb : fb ≤ 7) (hi : i < 24 * 2 ^ fb) (hn : n = 24 * 2 ^ fb + 1) :
    intervalData ((List.range n).map (stopAt fb)) i =
      some (lenAt fb i, shiftOf (lenAt fb i), extraOf (lenAt fb i)) := by
  have hm := stopAt_mono hfb (i := i) (by omega)
  have hl := lenAt_lt hfb hi
  obtain ⟨s1, s2, -⟩ := shift_facts hl
  obtain ⟨e1, e2, e3⟩ := extra_facts hl
  have hw := weightAt_lt hl (le_refl _)
  unfold intervalData
  rw [get_range (by omega), ob_some, get_range (by omega), ob_some, sub_eq hm hl, ob_some]
  rw [show stopAt fb (i + 1) - stopAt fb i = lenAt fb i from rfl]
  rw [s1, ob_some, wrapU32_eq (lt_trans s2 (by norm_num)), fu_new s2, ob_some, e1, ob_some,
    mulP_eq (by omega) (by omega) (lt_of_le_of_lt (sq31_le' (by omega)) s2), ob_some, add_eq hw, ob_some]

theorem lengthSum_eq {fb : Nat} (hfb : fb ≤ 7) : ∀ (k a acc : Nat), a + k ≤ 24 * 2 ^ fb →
    acc + stopAt fb 0 = stopAt fb a →
    ∃ r, lengthSum acc ((List.range' a k).map fun i => (lenAt fb i, shiftOf (lenAt fb i), extraOf (lenAt fb i))) =
      some r := by
  intro k
  induction k with
  | zero => intro a acc _ _; exact ⟨acc, rfl⟩
  | succ k ih =>
    intro a acc h1 h2
    rw [List.range'_succ, List.map_cons, lengthSum]
    have hm := stopAt_mono hfb (i := a) (by omega)
    have hb := stopAt_bounds hfb (i := a + 1) (by omega)
    rw [add_eq (by unfold lenAt; omega), ob_some]
    exact ih (a + 1) _ (by omega) (by unfold lenAt; omega)

/-- the table of an adaptive probability map -/
def lutAt (fb : Nat) : ApmLut where
  stops := (List.range (24 * 2 ^ fb + 1)).map (stopAt fb)
  shifts := (List.range (24 * 2 ^ fb)).map fun i => shiftOf (lenAt fb i)
  extras := (List.range (24 * 2 ^ fb)).map fun i => extraOf (lenAt fb i)
  fb := fb

theorem symm_range {g : Nat → Nat} {n : Nat} (h : ∀ i, i < n → g (n - i - 1) = g i) {i : Nat} (hi : i < n) :
    listSymmetric ((List.range n).map g) i = some () := by
  unfold listSymmetric
  rw [get_range hi, ob_some, List.length_map, List.length_range, get_range (by omega), ob_some, h i hi, check_pos rfl]

theorem apmLut_eq {fb : Nat} (hfb : fb ≤ 7) : apmLutNew fb squashTable = some (lutAt fb) := by
  have hn : intervalStopsCount fb = 24 * 2 ^ fb + 1 := by unfold intervalStopsCount intervalsCount; omega
  unfold apmLutNew
  dsimp only
  rw [hn, Nat.add_sub_cancel, mapM_range fun i hi => stopValue_eq hfb (by omega), ob_some,
    mapM_range fun i hi => intervalData_eq hfb hi rfl, ob_some]
  obtain ⟨r, hr⟩ := lengthSum_eq hfb (24 * 2 ^ fb) 0 0 (by omega) (by omega)
  rw [← List.range_eq_range'] at hr
  rw [hr, ob_some, List.map_map, List.map_map]
  have h1 : ∀ i, i < 24 * 2 ^ fb + 1 → stopsSymmetric ((List.range (24 * 2 ^ fb + 1)).map (stopAt fb)) i =
      some () := by
    intro i hi
    have hs := stopAt_symm hfb (i := i) (by omega)
    have hb := stopAt_bounds hfb (i := i) (by omega)
    unfold stopsSymmetric
    rw [get_range hi, ob_some, List.length_map, List.length_range, get_range (by omega), ob_some,
      show 24 * 2 ^ fb + 1 - i - 1 = 24 * 2 ^ fb - i by omega, flip_eq (by omega) (by omega), ob_some,
      check_pos (by omega)]
  rw [mapM_range h1, ob_some]
  rw [mapM_range fun i hi => symm_range (g := (fun x : Nat × Nat × Nat => x.2.1) ∘ fun i =>
      (lenAt fb i, shiftOf (lenAt fb i), extraOf (lenAt fb i)))
    (fun i hi => by simp only [Function.comp_apply]; rw [lenAt_symm hfb hi]) hi, ob_some]
  rw [mapM_range fun i hi => symm_range (g := (fun x : Nat × Nat × Nat => x.2.2) ∘ fun i =>
      (lenAt fb i, shiftOf (lenAt fb i), extraOf (lenAt fb i)))
    (fun i hi => by simp only [Function.comp_apply]; rw [lenAt_symm hfb hi]) hi, ob_some]
  rfl

/-- a new map -/
def newAt (contexts fb : Nat) : Apm where
  mappings := (List.replicate contexts ((List.range (24 * 2 ^ fb + 1)).map (stopAt fb))).flatten
  fb := fb
  contexts := contexts
  saved := -1
  savedWeight := 0

theorem apmNew_eq {fb : Nat} (hfb : fb ≤ 7) (contexts : Nat) :
    apmNew contexts fb squashTable = some (newAt contexts fb) := by
  have hn : intervalStopsCount fb = 24 * 2 ^ fb + 1 := by unfold intervalStopsCount intervalsCount; omega
  have hmap : apmMappings contexts fb squashTable = some (newAt contexts fb).mappings := by
    unfold apmMappings
    by_cases h0 : contexts = 0
    · rw [if_pos h0]
      subst h0
      rfl
    · rw [if_neg h0]
      dsimp only
      rw [hn, mapM_range fun i hi => stopValue_eq hfb (by omega), ob_some,
        show (24 * 2 ^ fb + 1) / 2 = 12 * 2 ^ fb by omega]
      have h1 : ∀ i, i < 12 * 2 ^ fb + 1 → mapSymmetric ((List.range (24 * 2 ^ fb + 1)).map (stopAt fb))
          (12 * 2 ^ fb) i = some () := by
        intro i hi
        have hs := stopAt_symm hfb (i := 12 * 2 ^ fb + i) (by omega)
        have hb := stopAt_bounds hfb (i := 12 * 2 ^ fb + i) (by omega)
        unfold mapSymmetric
        rw [get_range (by omega), ob_some, flip_eq (by omega) (by omega), ob_some, get_range (by omega), ob_some,
          check_pos (by rw [show 24 * 2 ^ fb - (12 * 2 ^ fb + i) = 12 * 2 ^ fb - i by omega] at hs; omega)]
      rw [mapM_range h1, ob_some]
      rfl
  unfold apmNew
  rw [hmap, ob_some, hn, check_pos]
  · rfl
  · simp [newAt, List.length_flatten]

end Verif.Mix
