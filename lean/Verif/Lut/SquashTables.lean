import Verif.Lut.Tables
import Verif.Lut.Kernel2

/-!
# The squash table computed by the constructor is the packed one
-/

namespace Verif.Lut

open Verif Verif.Fixed

/-- the end of `findSquashed` -/
def finish (lut : List (List Int)) (target : Int) : Nat ⊕ (Nat × Nat) → Option Nat
  | .inl middle => some middle
  | .inr (lower, upper) => searchChoose lut target lower upper

theorem stretch_upper {lut : List (List Int)} (hT : StretchOk lut) {p : Nat} (h0 : 2 ^ 30 ≤ p) (h : p < 2 ^ 31) :
    stretch lut p = some (stMag p : Int) ∧ stMag p ≤ 24711780 := by
  obtain ⟨h1, h2, h3⟩ := stretch_eq hT (p := p) (by omega) h
  have h4 : stOut p = stMag p := by unfold stOut; rw [if_neg (by omega)]
  rw [h4] at h1 h3
  exact ⟨h1, by omega⟩

theorem choose_eq {lut : List (List Int)} (hT : StretchOk lut) {t lo : Nat} (ht : t ≤ 25165824) (h0 : 2 ^ 30 ≤ lo)
    (h : lo + 1 < 2 ^ 31) (hz : chooseFast t lo (lo + 1) ≠ 0) :
    searchChoose lut t lo (lo + 1) = some (chooseFast t lo (lo + 1)) := by
  obtain ⟨a1, a2⟩ := stretch_upper hT h0 (by omega)
  obtain ⟨b1, b2⟩ := stretch_upper hT (p := lo + 1) (by omega) h
  unfold searchChoose
  rw [check_pos rfl, ob_some, fu_new (by omega), ob_some, fu_new h, ob_some, a1, ob_some, b1, ob_some]
  unfold chooseFast at hz ⊢
  dsimp only at hz ⊢
  generalize stMag lo = ls at *
  generalize stMag (lo + 1) = us at *
  by_cases he : ls = us
  · subst he
    rw [if_neg (by simp), flip_eq (by unfold minAccurate; norm_num) (by unfold minAccurate; norm_num), ob_some,
      show Nat.beq ls ls = true by simp, cond_true]
    rfl
  · have hb : Nat.beq ls us = false := by rw [Bool.eq_false_iff]; simpa using he
    rw [hb, cond_false] at hz ⊢
    rw [if_pos (by exact_mod_cast he)]
    by_cases hc : (Nat.ble ls t && Nat.ble t us && Nat.beq (lo + 1) (lo + 1)) = true
    · rw [hc, cond_true]
      rw [hc, cond_true] at hz
      simp only [Bool.and_eq_true, Nat.ble_eq] at hc
      obtain ⟨⟨c1, c2⟩, -⟩ := hc
      rw [check_pos (by omega), ob_some, check_pos (by omega), ob_some]
      unfold subI32
      rw [i32_eq (by omega), ob_some, sp_new (by omega), ob_some, i32_eq (by omega), ob_some, sp_new (by omega),
        ob_some]
      by_cases hd : (t : Int) - ls < us - t
      · rw [if_pos hd]
        have : Nat.blt (t - ls) (us - t) = true := by rw [Nat.blt_eq]; omega
        rw [this, cond_true]
      · rw [if_neg hd]
        have : Nat.blt (t - ls) (us - t) = false := by rw [Bool.eq_false_iff, ne_eq, Nat.blt_eq]; omega
        rw [this, cond_false]
    · rw [Bool.not_eq_true] at hc
      rw [hc, cond_false] at hz
      exact absurd rfl hz

theorem search_eq {lut : List (List Int)} (hT : StretchOk lut) {t : Nat} (ht : t ≤ 25165824) : ∀ (k lo hi : Nat),
    2 ^ 30 ≤ lo → lo < hi → hi < 2 ^ 31 → searchFast t k lo hi ≠ 0 →
    (searchLoop lut t k lo hi >>= finish lut t) = some (searchFast t k lo hi) := by
  intro k
  induction k with
  | zero =>
    intro lo hi h0 h1 h2 hz
    unfold searchFast at hz ⊢
    unfold searchLoop
    by_cases hc : hi - lo ≤ 1
    · have : hi = lo + 1 := by omega
      subst this
      have hb : Nat.ble (lo + 1 - lo) 1 = true := by rw [Nat.ble_eq]; omega
      rw [hb, cond_true] at hz ⊢
      rw [if_neg (by omega), ob_some]
      exact choose_eq hT ht h0 h2 hz
    · have hb : Nat.ble (hi - lo) 1 = false := by rw [Bool.eq_false_iff, ne_eq, Nat.ble_eq]; omega
      rw [hb, cond_false] at hz
      exact absurd rfl hz
  | succ k ih =>
    intro lo hi h0 h1 h2 hz
    unfold searchFast at hz ⊢
    unfold searchLoop
    by_cases hc : hi - lo ≤ 1
    · have : hi = lo + 1 := by omega
      subst this
      have hb : Nat.ble (lo + 1 - lo) 1 = true := by rw [Nat.ble_eq]; omega
      rw [hb, cond_true] at hz ⊢
      rw [if_neg (by omega), ob_some]
      exact choose_eq hT ht h0 h2 hz
    · have hb : Nat.ble (hi - lo) 1 = false := by rw [Bool.eq_false_iff, ne_eq, Nat.ble_eq]; omega
      rw [hb, cond_false] at hz ⊢
      rw [if_pos (by omega)]
      dsimp only at hz ⊢
      have hm1 : lo < lo + (hi - lo) / 2 := by omega
      have hm2 : lo + (hi - lo) / 2 < hi := by omega
      generalize lo + (hi - lo) / 2 = m at *
      obtain ⟨a1, a2⟩ := stretch_upper hT (p := m) (by omega) (by omega)
      rw [a1, ob_some]
      by_cases c1 : t < stMag m
      · have hb1 : Nat.blt t (stMag m) = true := by rw [Nat.blt_eq]; exact c1
        rw [hb1, cond_true] at hz ⊢
        rw [if_pos (by exact_mod_cast c1)]
        exact ih lo m h0 hm1 (by omega) hz
      · have hb1 : Nat.blt t (stMag m) = false := by rw [Bool.eq_false_iff, ne_eq, Nat.blt_eq]; exact c1
        rw [hb1, cond_false] at hz ⊢
        rw [if_neg (by exact_mod_cast c1)]
        by_cases c2 : stMag m < t
        · have hb2 : Nat.blt (stMag m) t = true := by rw [Nat.blt_eq]; exact c2
          rw [hb2, cond_true] at hz ⊢
          rw [if_pos (by exact_mod_cast c2)]
          exact ih m hi (by omega) hm2 h2 hz
        · have hb2 : Nat.blt (stMag m) t = false := by rw [Bool.eq_false_iff, ne_eq, Nat.blt_eq]; exact c2
          rw [hb2, cond_false]
          rw [if_neg (by exact_mod_cast c2), ob_some]
          rfl

theorem sq_facts {k : Nat} (hk : k ≤ 1536) :
    2 ^ 30 ≤ sqField k ∧ sqField k < 2 ^ 31 ∧
      (0 < k → searchFast (k * 16384) 30 1073741824 2147483647 = sqField k) := by
  by_cases h0 : k = 0
  · subst h0
    rw [squash_zero]
    omega
  · have := List.all_eq_true.mp squash_ok k (by rw [List.mem_range'_1]; omega)
    unfold sqOk at this
    simp only [Bool.and_eq_true, Nat.beq_eq, Nat.ble_eq] at this
    obtain ⟨⟨h1, h2⟩, h3⟩ := this
    exact ⟨by omega, by omega, fun _ => h1⟩

theorem find_eq {lut : List (List Int)} (hT : StretchOk lut) {k : Nat} (hk : k ≤ 1536) :
    squashUpper lut k = some (sqField k) := by
  unfold squashUpper
  rw [sp_new (by omega), ob_some]
  have hf : ∀ t, findSquashed lut t = searchLoop lut t 31 1 (2 ^ 31 - 1) >>= finish lut t := by
    intro t
    unfold findSquashed
    congr 1
  rw [hf, show (31 : Nat) = 30 + 1 from rfl]
  have h1 := (stretch_upper hT (p := 1 + (2 ^ (30 + 1) - 1 - 1) / 2) (by norm_num) (by norm_num)).1
  have h2 : stMag (1 + (2 ^ (30 + 1) - 1 - 1) / 2) = 0 := rfl
  rw [h2] at h1
  unfold searchLoop
  rw [if_pos (by norm_num)]
  dsimp only
  rw [h1, ob_some, if_neg (by push_cast; omega)]
  obtain ⟨f1, f2, f3⟩ := sq_facts hk
  by_cases h0 : k = 0
  · subst h0
    rw [if_neg (by norm_num), ob_some, squash_zero]
    rfl
  · rw [if_pos (by push_cast; omega)]
    have h3 := search_eq hT (t := k * 16384) (by omega) 30 1073741824 2147483647 (by norm_num) (by norm_num)
      (by norm_num) (by rw [f3 (by omega)]; omega)
    rw [f3 (by omega)] at h3
    rw [← h3]
    norm_num

/-- entry of the whole table -/
def sqAt (j : Nat) : Nat := if j < 1536 then 2147483648 - sqField (1536 - j) else sqField (j - 1536)

/-- the table of the constructor -/
def squashTable : List Nat :=
  ((List.range' 1 1536).map fun k => 2147483648 - sqField k).reverse ++ (List.range 1537).map sqField

theorem stretch_min : stretchMag 16384 = 24711779 := by decide +kernel

theorem squashLut_eq {lut : List (List Int)} (hT : StretchOk lut) : squashLutNew lut = some squashTable := by
  unfold squashLutNew squashTable
  obtain ⟨a1, -⟩ := stretch_eq hT (p := minAccurate) (by unfold minAccurate; norm_num)
    (by unfold minAccurate; norm_num)
  have a2 : stOut minAccurate = -24711779 := by
    unfold stOut minAccurate
    rw [if_pos (by norm_num), show (2 : Nat) ^ 14 = 16384 from rfl, stretch_min]
    rfl
  rw [a1, ob_some, a2, check_pos (by norm_num), ob_some, show squashSize / 2 + 1 = 1537 from rfl,
    mapM_some (squashUpper lut) sqField, ob_some]
  · have hd : ((List.range 1537).map sqField).drop 1 = (List.range' 1 1536).map sqField := by
      rw [← List.map_drop, List.range_eq_range', List.drop_range']
    rw [hd, mapM_some flipU32 (fun x => 2147483648 - x), ob_some, List.map_map]
    · rfl
    · intro x hx
      rw [List.mem_map] at hx
      obtain ⟨k, hk, rfl⟩ := hx
      rw [List.mem_range'_1] at hk
      obtain ⟨f1, f2, -⟩ := sq_facts (k := k) (by omega)
      exact flip_eq (by omega) f2
  · intro k hk
    rw [List.mem_range] at hk
    exact find_eq hT (by omega)

theorem squashTable_get {j : Nat} (hj : j ≤ 3072) : squashTable[j]? = some (sqAt j) := by
  unfold squashTable sqAt
  by_cases h : j < 1536
  · rw [if_pos h, List.getElem?_append_left (by simpa using h), List.getElem?_reverse (by simpa using h),
      List.length_map, List.length_range', List.getElem?_map, List.getElem?_range' (by omega), Option.map_some]
    congr 3
    omega
  · rw [if_neg h, List.getElem?_append_right (by simpa using h), List.length_reverse, List.length_map,
      List.length_range', List.getElem?_map, List.getElem?_range (by omega), Option.map_some]

theorem sqField_mono {k : Nat} (hk : k < 1536) : sqField k ≤ sqField (k + 1) := by
  have := List.all_eq_true.mp squash_mono_ok k (List.mem_range.mpr hk)
  rwa [Nat.ble_eq] at this

theorem sqField_le {k : Nat} (hk : k ≤ 1536) : sqField k ≤ 2147467264 := by
  have : ∀ n, n ≤ 1536 → sqField (1536 - n) ≤ 2147467264 := by
    intro n
    induction n with
    | zero => intro _; rw [Nat.sub_zero, squash_last]
    | succ n ih =>
      intro hn
      have h1 := sqField_mono (k := 1536 - (n + 1)) (by omega)
      rw [show 1536 - (n + 1) + 1 = 1536 - n by omega] at h1
      have := ih (by omega)
      omega
  have := this (1536 - k) (by omega)
  rwa [show 1536 - (1536 - k) = k by omega] at this

theorem sqAt_bounds {j : Nat} (hj : j ≤ 3072) : 16384 ≤ sqAt j ∧ sqAt j ≤ 2147467264 := by
  unfold sqAt
  by_cases h : j < 1536
  · rw [if_pos h]
    have h1 := sqField_le (k := 1536 - j) (by omega)
    obtain ⟨f1, f2, -⟩ := sq_facts (k := 1536 - j) (by omega)
    omega
  · rw [if_neg h]
    have h1 := sqField_le (k := j - 1536) (by omega)
    obtain ⟨f1, f2, -⟩ := sq_facts (k := j - 1536) (by omega)
    omega

theorem sqAt_mono {j : Nat} (hj : j < 3072) : sqAt j ≤ sqAt (j + 1) := by
  unfold sqAt
  by_cases h : j + 1 < 1536
  · rw [if_pos (by omega), if_pos h]
    have := sqField_mono (k := 1536 - (j + 1)) (by omega)
    rw [show 1536 - (j + 1) + 1 = 1536 - j by omega] at this
    omega
  · by_cases h2 : j < 1536
    · rw [if_pos h2, if_neg h]
      obtain ⟨f1, f2, -⟩ := sq_facts (k := 1536 - j) (by omega)
      obtain ⟨g1, g2, -⟩ := sq_facts (k := j + 1 - 1536) (by omega)
      omega
    · rw [if_neg h2, if_neg h]
      have := sqField_mono (k := j - 1536) (by omega)
      rwa [show j - 1536 + 1 = j + 1 - 1536 by omega] at this

theorem sqAt_symm {j : Nat} (hj : j ≤ 3072) : sqAt (3072 - j) + sqAt j = 2147483648 := by
  have key : ∀ i, i < 1536 → sqAt (3072 - i) + sqAt i = 2147483648 := by
    intro i hi
    unfold sqAt
    rw [if_neg (by omega), if_pos hi, show 3072 - i - 1536 = 1536 - i by omega]
    obtain ⟨f1, f2, -⟩ := sq_facts (k := 1536 - i) (by omega)
    omega
  by_cases h : j < 1536
  · exact key j h
  · by_cases h2 : j = 1536
    · subst h2
      unfold sqAt
      rw [if_neg (by omega), show 3072 - 1536 - 1536 = 0 by rfl, squash_zero]
    · have := key (3072 - j) (by omega)
      rw [show 3072 - (3072 - j) = j by omega] at this
      omega

end Verif.Lut
