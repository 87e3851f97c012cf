import Verif.Float.Print
import Verif.Bin.EntropyReportProps

/-! # The text printed by the entropy simulation (C85) -/

namespace Verif.Bin

open Verif Verif.Fixed Verif.Est Verif.Log2 Verif.Float Verif.Text

/-! ## Model -/

/-- `{}` of a float that is a multiple of 1/2 (`entropy_simulations.rs:32`) -/
def halfText (q : ℚ) : List Char :=
  if q < 0 then '-' :: (dec ⌊-q⌋₊ ++ if (⌊-q⌋₊ : ℚ) = -q then [] else ['.', '5'])
  else dec ⌊q⌋₊ ++ if (⌊q⌋₊ : ℚ) = q then [] else ['.', '5']

/-- one line of the simulation (`entropy_simulations.rs:38`, `79-83`) -/
def simLine (near : ℚ → ℕ) (factor addend : ℕ) (r : SimReport) : List Char :=
  "LUT: factor = ".toList ++ dec factor ++ ", addend = ".toList ++ dec addend ++ " ".toList ++
  "probability: ".toList ++ fixedInt near 7 r.probability ++ ", total cost: ".toList ++ padLeft 14 (fixedInt near 7 r.totalCost) ++
  ", ideal cost: ".toList ++ padLeft 14 (fixedInt near 7 r.idealCost) ++ ", overhead: ".toList ++
  padLeft 11 (fixedInt near 7 r.overhead) ++ ", ratio: ".toList ++ padLeft 11 (fixedInt near 7 r.ratio) ++
  ", zeros: ".toList ++ padLeft 5 (dec r.zeros) ++ ", ones: ".toList ++ padLeft 5 (dec r.ones) ++ "\n".toList

/-- the text of the whole program (`entropy_simulations.rs:30-45`) -/
def simText (near : ℚ → ℕ) (out : List (ℚ × List (List SimReport))) : List Char :=
  out.flatMap fun x =>
    "power: ".toList ++ halfText x.1 ++ "\n".toList ++
    ((simLengths.zip x.2).flatMap fun y =>
      "single run length = ".toList ++ dec y.1 ++ "\n".toList ++
      (simTables.zip y.2).flatMap fun z => simLine near z.1.1 z.1.2 z.2) ++
    "\n".toList

/-! ## Specification -/

/-- the seven numbers of a line are those of the simulation with a probability, a table and a run length, up to the accuracy
`d` of the logarithm and seven decimals -/
def LineShows (d : ℝ) (factor addend : ℕ) (p : ℚ) (runLength : ℕ) (v : List ℚ) : Prop :=
  ∃ pr tc ic ov ra : ℚ, ∃ (total : ℤ) (zeros ones : ℕ), v = [pr, tc, ic, ov, ra, (zeros : ℚ), (ones : ℚ)] ∧
    simulateWith factor addend p runLength = some (total, zeros, ones) ∧
    (let cost : ℝ := (total : ℝ) / 2048
     let ideal := entropyBits zeros ones
     let u : ℝ := 1 / (2 * 10 ^ 7)
     |(pr : ℝ) - p| ≤ u ∧ |(tc : ℝ) - cost| ≤ u ∧ |(ic : ℝ) - ideal| ≤ d * ideal + 1 / 2 ^ 19 + u ∧
     |(ov : ℝ) - (cost / ideal - 1)| ≤ (2 * d + 1 / 2 ^ 18) * (cost / ideal) + u ∧
     |(ra : ℝ) - 10000 / cost| ≤ 10000 / cost / 2 ^ 53 + u)

/-! ## Lemmas -/

theorem numbers_half {n : ℤ} : numbers (halfText (n / 2)) = [(n / 2 : ℚ)] := by
  have key : ∀ m : ℕ, readDecimal (dec ⌊(m : ℚ) / 2⌋₊ ++ if (⌊(m : ℚ) / 2⌋₊ : ℚ) = m / 2 then [] else ['.', '5']) =
      some ((m : ℚ) / 2) ∧ ∀ c ∈ dec ⌊(m : ℚ) / 2⌋₊ ++ (if (⌊(m : ℚ) / 2⌋₊ : ℚ) = m / 2 then [] else ['.', '5']), isGap c = false := by
    intro m
    have hf : ⌊(m : ℚ) / 2⌋₊ = m / 2 := by
      rw [Nat.floor_eq_iff (by positivity)]
      have h1 : ((2 * (m / 2) : ℕ) : ℚ) ≤ m := by exact_mod_cast Nat.mul_div_le m 2
      have h2 : (m : ℚ) < ((2 * (m / 2) + 2 : ℕ) : ℚ) := by exact_mod_cast (by omega)
      push_cast at h1 h2
      constructor <;> linarith
    rw [hf]
    obtain ⟨k, rfl | rfl⟩ := Nat.even_or_odd' m
    · rw [Nat.mul_div_cancel_left _ (by decide), if_pos (by push_cast; ring), List.append_nil]
      refine ⟨?_, dec_gap⟩
      rw [readDecimal_dec]
      push_cast
      congr 1
      ring
    · rw [show (2 * k + 1) / 2 = k by omega, if_neg (by
        push_cast
        intro h
        have : (2 * k : ℚ) = 2 * k + 1 := by linarith
        linarith)]
      constructor
      · have h1 : ∀ c ∈ dec k, c.isDigit = true := fun c hc => dec_digit hc
        unfold readDecimal
        dsimp only
        rw [List.takeWhile_append_of_pos h1, List.dropWhile_append_of_pos h1, List.takeWhile_cons_of_neg (by decide),
          List.dropWhile_cons_of_neg (by decide), List.append_nil, if_neg (dec_ne_nil _), if_neg (List.cons_ne_nil _ _),
          if_pos (by decide), List.tail_cons, Nat.ofDigitChars_append,
          show Nat.ofDigitChars 10 (dec k) 0 = k from Nat.ofDigitChars_ten_toDigits, Nat.ofDigitChars_eq_ofDigitChars_zero]
        norm_num
        rw [show Nat.ofDigitChars 10 ['5'] 0 = 5 by decide]
        push_cast
        ring
      · intro c hc
        rcases List.mem_append.mp hc with h | h
        · exact dec_gap c h
        · exact (by decide : ∀ c ∈ ['.', '5'], isGap c = false) c h
  unfold halfText
  split
  · rename_i h
    have hn : n < 0 := by
      have : (n : ℚ) < 0 := by linarith
      exact_mod_cast this
    have he : -((n : ℚ) / 2) = ((n.natAbs : ℕ) : ℚ) / 2 := by
      rw [Nat.cast_natAbs, abs_of_neg hn]
      push_cast
      ring
    rw [he, numbers_solid (by
      intro c hc
      rcases List.mem_cons.mp hc with rfl | hc
      · decide
      · exact (key _).2 c hc), readNumber_neg (key _).1, ← he, neg_neg]
    rfl
  · rename_i h
    have hn : 0 ≤ n := by
      have : (0 : ℚ) ≤ n := by linarith
      exact_mod_cast this
    have he : (n : ℚ) / 2 = ((n.natAbs : ℕ) : ℚ) / 2 := by
      rw [Nat.cast_natAbs, abs_of_nonneg hn]
    rw [he, numbers_solid (key _).2, readNumber_of (key _).1]
    rfl

/-- a text between two gaps -/
theorem numbers_mid {a : List Char} (ha : a.getLast?.any isGap = true) (h0 : numbers a = []) (x : List Char) {b : List Char}
    (hb : b.head?.any isGap = true) : numbers (a ++ (x ++ b)) = numbers x ++ numbers b := by
  rw [numbers_left ha, h0, List.nil_append, numbers_right x hb]

/-- the numbers of a line -/
def lineNumbers (near : ℚ → ℕ) (r : SimReport) : List ℚ :=
  [shownInt near 7 r.probability, shownInt near 7 r.totalCost, shownInt near 7 r.idealCost, shownInt near 7 r.overhead,
    shownInt near 7 r.ratio, (r.zeros : ℚ), (r.ones : ℚ)]

theorem numbers_line (near : ℚ → ℕ) (factor addend : ℕ) (r : SimReport) :
    numbers (simLine near factor addend r) = (factor : ℚ) :: (addend : ℚ) :: lineNumbers near r := by
  have step : ∀ (l : String) (x y : List Char), l.toList.getLast?.any isGap = true → numbers l.toList = [] →
      y.head?.any isGap = true → numbers (l.toList ++ (x ++ y)) = numbers x ++ numbers y := fun l x y h1 h2 h3 =>
    numbers_mid h1 h2 x h3
  unfold simLine
  simp only [List.append_assoc]
  rw [step "LUT: factor = " _ _ (by decide +kernel) (by decide +kernel) rfl,
    step ", addend = " _ _ (by decide +kernel) (by decide +kernel) rfl,
    numbers_left (a := " ".toList) (by decide +kernel),
    step "probability: " _ _ (by decide +kernel) (by decide +kernel) rfl,
    step ", total cost: " _ _ (by decide +kernel) (by decide +kernel) rfl,
    step ", ideal cost: " _ _ (by decide +kernel) (by decide +kernel) rfl,
    step ", overhead: " _ _ (by decide +kernel) (by decide +kernel) rfl,
    step ", ratio: " _ _ (by decide +kernel) (by decide +kernel) rfl,
    step ", zeros: " _ _ (by decide +kernel) (by decide +kernel) rfl,
    step ", ones: " _ _ (by decide +kernel) (by decide +kernel) (by decide +kernel)]
  simp only [numbers_pad, numbers_fixedInt near (show 0 < 7 by decide), numbers_dec]
  rw [show numbers " ".toList = [] by decide +kernel, show numbers "\n".toList = [] by decide +kernel]
  rfl

/-- texts that end with a gap -/
theorem numbers_flatMap {α : Type} (f : α → List Char) (h : ∀ a, (f a).getLast?.any isGap = true) (l : List α) :
    numbers (l.flatMap f) = l.flatMap fun a => numbers (f a) := by
  induction l with
  | nil => rfl
  | cons a l ih => rw [List.flatMap_cons, List.flatMap_cons, numbers_left (h a), ih]

theorem last_left (a : List Char) {b : List Char} (h : b.getLast?.any isGap = true) : (a ++ b).getLast?.any isGap = true := by
  cases b with
  | nil => cases h
  | cons c b => rw [List.getLast?_append, Option.or_of_isSome (by simp)]; exact h

theorem numbers_label {a : List Char} (ha : a.getLast?.any isGap = true) (h0 : numbers a = []) (x : List Char) :
    numbers (a ++ (x ++ "\n".toList)) = numbers x := by
  rw [numbers_mid ha h0 x (by decide +kernel), show numbers "\n".toList = [] by decide +kernel, List.append_nil]

/-- the numbers of the whole text -/
theorem numbers_simText (near : ℚ → ℕ) (out : List (ℚ × List (List SimReport)))
    (ho : ∀ x ∈ out, ∃ n : ℤ, x.1 = n / 2) : numbers (simText near out) =
    out.flatMap fun x => x.1 :: (simLengths.zip x.2).flatMap fun y => (y.1 : ℚ) :: (simTables.zip y.2).flatMap fun z =>
      (z.1.1 : ℚ) :: (z.1.2 : ℚ) :: lineNumbers near z.2 := by
  have nl : "\n".toList.getLast?.any isGap = true := by decide +kernel
  have l1 : ∀ z : (ℕ × ℕ) × SimReport, (simLine near z.1.1 z.1.2 z.2).getLast?.any isGap = true := fun z => last_left _ nl
  have l2 : ∀ rows : List ((ℕ × ℕ) × SimReport), numbers (rows.flatMap fun z => simLine near z.1.1 z.1.2 z.2) =
      rows.flatMap fun z => (z.1.1 : ℚ) :: (z.1.2 : ℚ) :: lineNumbers near z.2 := by
    intro rows
    rw [numbers_flatMap _ l1]
    simp only [numbers_line]
  have l3 : ∀ y : ℕ × List SimReport, numbers ("single run length = ".toList ++ dec y.1 ++ "\n".toList ++
      (simTables.zip y.2).flatMap fun z => simLine near z.1.1 z.1.2 z.2) =
      (y.1 : ℚ) :: (simTables.zip y.2).flatMap fun z => (z.1.1 : ℚ) :: (z.1.2 : ℚ) :: lineNumbers near z.2 := by
    intro y
    rw [numbers_left (last_left _ nl), l2, List.append_assoc, numbers_label (by decide +kernel) (by decide +kernel), numbers_dec]
    rfl
  have l4 : ∀ y : ℕ × List SimReport, ("single run length = ".toList ++ dec y.1 ++ "\n".toList ++
      (simTables.zip y.2).flatMap fun z => simLine near z.1.1 z.1.2 z.2).getLast?.any isGap = true := by
    intro y
    rcases List.eq_nil_or_concat (simTables.zip y.2) with h | ⟨init, z, h⟩
    · rw [h, List.flatMap_nil, List.append_nil]
      exact last_left _ nl
    · rw [h, List.concat_eq_append, List.flatMap_append, List.flatMap_singleton, ← List.append_assoc]
      exact last_left _ (l1 z)
  have l5 : ∀ x ∈ out, numbers ("power: ".toList ++ halfText x.1 ++ "\n".toList ++
      ((simLengths.zip x.2).flatMap fun y => "single run length = ".toList ++ dec y.1 ++ "\n".toList ++
        (simTables.zip y.2).flatMap fun z => simLine near z.1.1 z.1.2 z.2) ++ "\n".toList) =
      x.1 :: (simLengths.zip x.2).flatMap fun y => (y.1 : ℚ) :: (simTables.zip y.2).flatMap fun z =>
        (z.1.1 : ℚ) :: (z.1.2 : ℚ) :: lineNumbers near z.2 := by
    intro x hx
    obtain ⟨n, hn⟩ := ho x hx
    rw [numbers_right _ (by decide +kernel), numbers_left (last_left _ nl), List.append_assoc ("power: ".toList),
      numbers_label (by decide +kernel) (by decide +kernel), numbers_flatMap _ l4, hn, numbers_half,
      show numbers "\n".toList = [] by decide +kernel, List.append_nil]
    simp only [l3]
    rfl
  unfold simText
  rw [numbers_flatMap _ fun x => last_left _ nl]
  exact List.flatMap_congr l5

/-- going through the pairs of two lists by their numbers -/
theorem zip_flatMap {α β γ : Type} (l : List α) (m : List β) (a : α) (b : β) (h : l.length ≤ m.length) (f : α × β → List γ) :
    (l.zip m).flatMap f = (List.range l.length).flatMap fun i => f (l.getD i a, m.getD i b) := by
  induction l generalizing m with
  | nil => rfl
  | cons x l ih =>
    cases m with
    | nil => cases h
    | cons y m =>
      rw [List.zip_cons_cons, List.flatMap_cons, List.length_cons, List.range_succ_eq_map, List.flatMap_cons, List.flatMap_map,
        ih m (by simpa using h)]
      rfl

theorem range_flatMap {α γ : Type} (l : List α) (a : α) (f : α → List γ) :
    l.flatMap f = (List.range l.length).flatMap fun i => f (l.getD i a) := by
  induction l with
  | nil => rfl
  | cons x l ih =>
    rw [List.flatMap_cons, List.length_cons, List.range_succ_eq_map, List.flatMap_cons, List.flatMap_map, ih]
    rfl

/-! ## Theorem -/

/-- **C85 (entropy simulation).** The program prints 37 times a power, for each of them 16 times a run length, and for each of
them the four tables, each with the seven numbers of its simulation. -/
theorem C85_entropy {near : ℚ → ℕ} (hnear : Text.Nearest near) {ex lg : ℚ → ℚ} (hex : ExpNear ex) {d : ℝ} (hlg : LogNear lg d)
    (hd : 0 ≤ d) (hd8 : d ≤ 1 / 8) : ∃ out, simMain ex lg = some out ∧ ∃ v : ℕ → ℕ → ℕ → List ℚ,
      numbers (simText near out) = ((List.range 37).flatMap fun (i : ℕ) => ((18 - (i : ℚ)) / 2) ::
        (List.range 16).flatMap fun k => [1, 2, 3, 5, 8, 13, 21, 34, 55, 89, 100, 200, 300, 1000, 2000, 10000].getD k 0 ::
          (List.range 4).flatMap fun j => [1, 1, 2, 2].getD j 0 :: [2, 3, 2, 3].getD j 0 :: v i k j) ∧
      ∀ i : ℕ, i < 37 → ∃ p, simProbability (ex ((18 - (i : ℚ)) / 2)) = some p ∧ 1 / 10000 ≤ p ∧ p ≤ 9999 / 10000 ∧
        ∀ k < 16, ∀ j < 4, LineShows d ([1, 1, 2, 2].getD j 0) ([2, 3, 2, 3].getD j 0) p
          ([1, 2, 3, 5, 8, 13, 21, 34, 55, 89, 100, 200, 300, 1000, 2000, 10000].getD k 0) (v i k j) := by
  obtain ⟨out, h1, h2, h3⟩ := C69_main hex hlg hd hd8
  refine ⟨out, h1, fun i k j => lineNumbers near (((out.getD i (0, [])).2.getD k []).getD j ⟨0, 0, 0, 0, 0, 0, 0⟩), ?_, ?_⟩
  · rw [numbers_simText, range_flatMap out (0, []), h2]
    · refine List.flatMap_congr fun i hi => ?_
      have hi' := List.mem_range.mp hi
      obtain ⟨⟨power, reports⟩, ho⟩ : ∃ x, out[i]? = some x := ⟨_, List.getElem?_eq_getElem (by omega)⟩
      obtain ⟨hp, p, -, -, -, hr⟩ := h3 i power reports ho
      have hg : out.getD i (0, []) = (power, reports) := by rw [List.getD_eq_getElem?_getD, ho]; rfl
      rw [hg, ← hp]
      dsimp only
      congr 1
      have hlen : simLengths.length ≤ reports.length := by
        obtain ⟨row, r, h, -⟩ := hr 15 10000 rfl 0 1 2 rfl
        have := (List.getElem?_eq_some_iff.mp h).1
        exact this
      rw [zip_flatMap _ _ 0 [] hlen]
      refine List.flatMap_congr fun k hk => ?_
      have hk' : k < 16 := List.mem_range.mp hk
      obtain ⟨l, hl⟩ : ∃ l, [1, 2, 3, 5, 8, 13, 21, 34, 55, 89, 100, 200, 300, 1000, 2000, 10000][k]? = some l :=
        ⟨_, List.getElem?_eq_getElem hk'⟩
      obtain ⟨row, r, hrow, hr3, -⟩ := hr k l hl 3 2 3 rfl
      have hg' : reports.getD k [] = row := by rw [List.getD_eq_getElem?_getD, hrow]; rfl
      rw [hg']
      dsimp only
      congr 1
      · clear hl hrow hg' hk
        interval_cases k <;> norm_num [simLengths]
      · have h4 : simTables.length ≤ row.length := (List.getElem?_eq_some_iff.mp hr3).1
        rw [zip_flatMap _ _ (0, 0) ⟨0, 0, 0, 0, 0, 0, 0⟩ h4]
        refine List.flatMap_congr fun j hj => ?_
        have hj' : j < 4 := List.mem_range.mp hj
        clear hj
        interval_cases j <;> norm_num [simTables, ho, hrow]
    · intro x hx
      obtain ⟨i, hi⟩ := List.getElem?_of_mem hx
      obtain ⟨hp, -⟩ := h3 i x.1 x.2 hi
      exact ⟨18 - i, by rw [hp]; push_cast; rfl⟩
  · intro i hi
    obtain ⟨⟨power, reports⟩, ho⟩ : ∃ x, out[i]? = some x := ⟨_, List.getElem?_eq_getElem (by omega)⟩
    obtain ⟨hp, p, hp1, hp2, hp3, hr⟩ := h3 i power reports ho
    refine ⟨p, hp ▸ hp1, hp2, hp3, ?_⟩
    intro k hk j hj
    obtain ⟨l, hl⟩ : ∃ l, [1, 2, 3, 5, 8, 13, 21, 34, 55, 89, 100, 200, 300, 1000, 2000, 10000][k]? = some l :=
      ⟨_, List.getElem?_eq_getElem hk⟩
    obtain ⟨⟨f, a⟩, ht⟩ : ∃ t, [(1, 2), (1, 3), (2, 2), (2, 3)][j]? = some t := ⟨_, List.getElem?_eq_getElem hj⟩
    obtain ⟨row, r, hrow, hrj, hrep⟩ := hr k l hl j f a ht
    have hv : (((out.getD i (0, [])).2.getD k []).getD j ⟨0, 0, 0, 0, 0, 0, 0⟩) = r := by
      have hg : out.getD i (0, []) = (power, reports) := by rw [List.getD_eq_getElem?_getD, ho]; rfl
      have hg' : reports.getD k [] = row := by rw [List.getD_eq_getElem?_getD, hrow]; rfl
      rw [hg]
      dsimp only
      rw [hg', List.getD_eq_getElem?_getD, hrj]
      rfl
    dsimp only
    rw [hv]
    have hlk : [1, 2, 3, 5, 8, 13, 21, 34, 55, 89, 100, 200, 300, 1000, 2000, 10000].getD k 0 = l := by
      rw [List.getD_eq_getElem?_getD, hl]; rfl
    have hl0 : 0 < l := by
      have : ∀ x ∈ [1, 2, 3, 5, 8, 13, 21, 34, 55, 89, 100, 200, 300, 1000, 2000, 10000], 0 < x := by decide
      exact this l (List.mem_of_getElem? hl)
    have hfa : [1, 1, 2, 2].getD j 0 = f ∧ [2, 3, 2, 3].getD j 0 = a ∧ Est.Usable f a := by
      clear hrj hv
      unfold Est.Usable
      interval_cases j <;> (injection ht with ht; injection ht with h1 h2; subst h1 h2; decide)
    rw [hlk, hfa.1, hfa.2.1]
    obtain ⟨total, r', q1, q2, q3, q4, q5, q6, q7⟩ := C69_report hfa.2.2 hlg hd hd8 p hp2 hp3 l hl0
    rw [hrep] at q2
    obtain rfl := Option.some.inj q2
    refine ⟨_, _, _, _, _, total, r.zeros, r.ones, rfl, q1, ?_⟩
    have sh : ∀ q : ℚ, |((shownInt near 7 q : ℚ) : ℝ) - q| ≤ 1 / (2 * 10 ^ 7) := by
      intro q
      have : ((|shownInt near 7 q - q| : ℚ) : ℝ) ≤ ((1 / (2 * 10 ^ 7) : ℚ) : ℝ) := by exact_mod_cast shownInt_near hnear 7 q
      push_cast at this
      exact this
    have tri : ∀ {q : ℚ} {t b : ℝ}, |(q : ℝ) - t| ≤ b → |((shownInt near 7 q : ℚ) : ℝ) - t| ≤ b + 1 / (2 * 10 ^ 7) := by
      intro q t b h
      have := abs_sub_le ((shownInt near 7 q : ℚ) : ℝ) q t
      have := sh q
      linarith
    have hc : (r.totalCost : ℝ) = (total : ℝ) / 2048 := by rw [q4]; push_cast; rfl
    have q7' : |(r.ratio : ℝ) - 10000 / ((total : ℝ) / 2048)| ≤ 10000 / ((total : ℝ) / 2048) / 2 ^ 53 := by
      have : ((|r.ratio - 10000 / r.totalCost| : ℚ) : ℝ) ≤ ((10000 / r.totalCost / 2 ^ 53 : ℚ) : ℝ) := by exact_mod_cast q7
      push_cast at this
      rw [hc] at this
      exact this
    rw [hc] at q6
    refine ⟨q3 ▸ sh _, hc ▸ sh _, tri q5, tri q6, tri q7'⟩

/-! ## Examples -/

example : simLine upwards 1 2 ⟨1 / 3, 9183 + 1 / 2048, 9182 + 1 / 3, -1 / 40000, 1 + 1 / 9, 3333, 6667⟩ =
    "LUT: factor = 1, addend = 2 probability: 0.3333333, total cost:   9183.0004883, ideal cost:   9182.3333333, ".toList ++
    "overhead:  -0.0000250, ratio:   1.1111111, zeros:  3333, ones:  6667\n".toList := by decide +kernel

example : halfText (17 / 2) = "8.5".toList ∧ halfText 0 = "0".toList ∧ halfText (-3) = "-3".toList ∧
    halfText (-1 / 2) = "-0.5".toList := by decide +kernel

end Verif.Bin
