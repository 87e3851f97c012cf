import Verif.Pred.LearnProps
import Verif.Pred.ProbSpec

/-! # C78: compressing does little worse than any fixed probabilities of the contexts -/

namespace Verif.Pred

open Verif Verif.Mix Verif.Util Verif.Bits

attribute [local irreducible] Verif.Lut.squashTable Verif.Lut.stretchTable

/-- the estimate and the loss of a file together with any lists -/
theorem list_price {t : Tables} (ht : tablesNew = some t) {W maxOrder : Nat} (hW0 : 0 < W)
    (hW : W ≤ 2 ^ 31) (hM : maxOrder ≤ 8191) {p0 p : Predictor} (h0 : predNew t .light W maxOrder = some p0)
    (bytes : List (List Bool)) (h8 : ∀ b ∈ bytes, b.length = 8) (hn : bytes.length ≤ 2 ^ 35) {fs : List Nat}
    (h : calls t .light p0 (bytes.flatMap byteCalls) = some (fs, p)) (list1 list2 list3 : Nat → Option ℝ)
    (l1 : IsList list1) (l2 : IsList list2) (l3 : IsList list3) :
    ∃ cost : ℝ, cost ≤ 1840 * (listCount list1 65536 + 2 * listCount list2 65536 + listCount list3 65536) +
        1 / 4 * (fileAllowance 1 list1 bytes + 2 * fileAllowance 2 list2 bytes + fileAllowance 3 list3 bytes) +
        8 * bytes.length / 2 ^ 24 ∧
      estimate fs bytes.flatten ≤ 21 / 20 * cost + 8 * bytes.length * (258 / 2 ^ 29) ∧
      loss fs bytes.flatten ≤ 1 / 20 * cost + 8 * bytes.length * (258 / 2 ^ 29) := by
  obtain ⟨cost, k1, k2, k3⟩ := payers_price ht hW0 hW hM h0 bytes h8 hn h
    ⟨probPayer list1 l1, probPayer list2 l2, probPayer list3 l3⟩
  refine ⟨cost, k1.trans ?_, k2, k3⟩
  have q1 := probWorth_new (fb := 0) (by omega) l1 65536
  have q2 := probWorth_new (fb := 0) (by omega) l2 65536
  have q3 := probWorth_new (fb := 0) (by omega) l3 65536
  rw [show 24 * 2 ^ 0 + 1 = 25 by norm_num, show (115 : ℝ) * 2 ^ 0 = 115 by norm_num] at q1 q2 q3
  change 64 * (total (probWorth list1) _ _ _ / 4 + total (probWorth list2) _ _ _ / 2 +
    total (probWorth list3) _ _ _ / 4) + (fileAllowance 1 list1 bytes / 4 + fileAllowance 2 list2 bytes / 2 +
    fileAllowance 3 list3 bytes / 4) + _ ≤ _
  linarith

theorem allowance_nonneg {list : Nat → Option ℝ} (h : IsList list) (c : Nat) (bit : Bool) : 0 ≤ allowance list c bit := by
  unfold allowance
  cases hq : list c with
  | none => norm_num
  | some q =>
    obtain ⟨q0, q1⟩ := h c q hq
    have r1 : chanceOf q bit ≤ 1 := by unfold chanceOf; split <;> linarith
    dsimp only
    split
    · rename_i hr
      have h1 : Real.logb 2 (chanceOf q bit) ≤ 0 := Real.logb_nonpos (by norm_num) (by linarith) r1
      have h2 : 0 ≤ 8 / 5 * (1 - chanceOf q bit) * (1 + 1 / (64 * chanceOf q bit)) := by
        have : 0 < chanceOf q bit := by linarith
        have : 0 ≤ 1 - chanceOf q bit := by linarith
        positivity
      linarith
    · norm_num

theorem fileAllowance_nonneg {list : Nat → Option ℝ} (h : IsList list) (k : Nat) (bytes : List (List Bool)) :
    0 ≤ fileAllowance k list bytes := Finset.sum_nonneg fun _ _ => allowance_nonneg h _ _

/-- **C78 (size).** Compressing with the program's last stage costs little more than coding with fixed probabilities of the
contexts, chosen with hindsight. Let each of three lists name a probability of a zero for some of the contexts of order 1, 2
and 3. Then the program's estimate is at most 1932 bits for each entry of a list, counted twice for the second list, plus
five percent more than the average of the allowances by the three lists, the second list counted twice, plus a millionth of
a bit for each bit of the file. -/
theorem C78_estimate {t : Tables} (ht : tablesNew = some t) {W maxOrder : Nat} (hW0 : 0 < W)
    (hW : W ≤ 2 ^ 31) (hM : maxOrder ≤ 8191) {p0 p : Predictor} (h0 : predNew t .light W maxOrder = some p0)
    (bytes : List (List Bool)) (h8 : ∀ b ∈ bytes, b.length = 8) (hn : bytes.length ≤ 2 ^ 35) {fs : List Nat}
    (h : calls t .light p0 (bytes.flatMap byteCalls) = some (fs, p)) (list1 list2 list3 : Nat → Option ℝ)
    (l1 : IsList list1) (l2 : IsList list2) (l3 : IsList list3) :
    estimate fs bytes.flatten ≤
      1932 * (listCount list1 65536 + 2 * listCount list2 65536 + listCount list3 65536) +
      21 / 20 * ((fileAllowance 1 list1 bytes + 2 * fileAllowance 2 list2 bytes + fileAllowance 3 list3 bytes) / 4) +
      8 * bytes.length / 2 ^ 20 := by
  obtain ⟨cost, h1, h2, -⟩ := list_price ht hW0 hW hM h0 bytes h8 hn h list1 list2 list3 l1 l2 l3
  have hl : (0 : ℝ) ≤ bytes.length := Nat.cast_nonneg _
  linarith

/-- **C78 (compressed form).** The same for the real size of the compressed file, with 2024 bits for each entry and ten
percent more than the average of the allowances. -/
theorem C78_compressed {W maxOrder : Nat} (hW0 : 0 < W) (hW : W ≤ 2 ^ 31) (hM : maxOrder ≤ 8191)
    (bytes : List (List Bool)) (h8 : ∀ b ∈ bytes, b.length = 8) (hn : bytes.length ≤ 87500000)
    (list1 list2 list3 : Nat → Option ℝ) (l1 : IsList list1) (l2 : IsList list2) (l3 : IsList list3) :
    ∃ out, compress .light W maxOrder bytes = some out ∧ 8 * ((out.length : ℝ) - 4) ≤
      2024 * (listCount list1 65536 + 2 * listCount list2 65536 + listCount list3 65536) +
      11 / 10 * ((fileAllowance 1 list1 bytes + 2 * fileAllowance 2 list2 bytes + fileAllowance 3 list3 bytes) / 4) +
      8 * bytes.length / 2 ^ 19 := by
  obtain ⟨t, ht⟩ := C52_tables
  obtain ⟨p0, h0⟩ := C44_new ht .light hW0 hW hM
  obtain ⟨fs, p, h, -⟩ := C44_file ht .light hW0 hW hM h0 bytes h8 (by omega)
  obtain ⟨out, e1, e2, -⟩ := C54_estimate .light hW0 hW hM bytes h8 hn ht h0 h
  refine ⟨out, e1, ?_⟩
  obtain ⟨cost, h1, h2, h3⟩ := list_price ht hW0 hW hM h0 bytes h8 (by omega) h list1 list2 list3 l1 l2 l3
  have hl : (0 : ℝ) ≤ bytes.length := Nat.cast_nonneg _
  linarith

/-! ## Ideal code lengths -/

/-- an allowance is less than three times the ideal code length -/
theorem allowance_ideal {list : Nat → Option ℝ} {c : Nat} {bit : Bool} {q : ℝ} (hq : list c = some q)
    (h : 1 / 32 ≤ chanceOf q bit) (h1 : chanceOf q bit ≤ 1) : allowance list c bit ≤ 8 / 3 * -Real.logb 2 (chanceOf q bit) := by
  unfold allowance
  rw [hq]
  dsimp only
  rw [if_pos h]
  generalize chanceOf q bit = r at *
  have hr : 0 < r := by linarith
  have h6 := Real.log_le_sub_one_of_pos hr
  have h2 := Real.log_two_lt_d9
  have h3 : 0 < Real.log 2 := Real.log_pos (by norm_num)
  have e : Real.log r = Real.logb 2 r * Real.log 2 := by unfold Real.logb; field_simp
  rw [e] at h6
  have h4 : 1 + 1 / (64 * r) ≤ 3 / 2 := by
    have : 1 / (64 * r) ≤ 1 / 2 := by
      rw [div_le_div_iff₀ (by positivity) (by norm_num)]
      linarith
    linarith
  have hb : Real.logb 2 r ≤ 0 := Real.logb_nonpos (by norm_num) (by linarith) h1
  generalize 1 + 1 / (64 * r) = k at *
  have h7 : 8 / 5 * (1 - r) * k ≤ 8 / 5 * (1 - r) * (3 / 2) := mul_le_mul_of_nonneg_left h4 (by linarith)
  generalize Real.logb 2 r = b at *
  norm_num at h2
  have h8 : (-b) * Real.log 2 ≤ (-b) * (25 / 36) := mul_le_mul_of_nonneg_left (by linarith) (by linarith)
  linarith

open Classical in
/-- the list of the contexts of a file -/
noncomputable def seenList (order : Nat) (q : Nat → ℝ) (bytes : List (List Bool)) (c : Nat) : Option ℝ :=
  if c ∈ (List.range (8 * bytes.length)).map (contextOf order bytes) then some (q c) else none

theorem seenList_count (order : Nat) (q : Nat → ℝ) (bytes : List (List Bool)) (contexts : Nat) :
    listCount (seenList order q bytes) contexts ≤ contextsSeen order bytes := by
  unfold listCount contextsSeen
  rw [List.countP_eq_length_filter]
  refine List.Subperm.length_le (List.Nodup.subperm (List.Nodup.filter _ List.nodup_range) fun c hc => ?_)
  have h := (List.mem_filter.mp hc).2
  unfold seenList at h
  rw [List.mem_dedup]
  by_contra hn
  rw [if_neg hn] at h
  cases h

theorem seen_list (k : Nat) (q : Nat → ℝ) (bytes : List (List Bool)) (h : ∀ c, 0 ≤ q c ∧ q c ≤ 1) :
    IsList (seenList k q bytes) := by
  intro c p hp
  unfold seenList at hp
  split at hp
  · obtain rfl := Option.some.inj hp
    exact h c
  · cases hp

theorem seen_allowance (k : Nat) (q : Nat → ℝ) (bytes : List (List Bool)) (h : ∀ c, 0 ≤ q c ∧ q c ≤ 1)
    (he : Expected k q bytes) :
    fileAllowance k (seenList k q bytes) bytes ≤ 8 / 3 * fileIdeal k q bytes ∧ 0 ≤ fileIdeal k q bytes := by
  have hc : ∀ {q : ℝ} {b : Bool}, 0 ≤ q ∧ q ≤ 1 → chanceOf q b ≤ 1 := by
    intro q b h
    unfold chanceOf
    split <;> linarith [h.1, h.2]
  unfold fileAllowance fileIdeal
  rw [Finset.mul_sum]
  refine ⟨Finset.sum_le_sum fun i hi => ?_, Finset.sum_nonneg fun i hi => ?_⟩
  · refine allowance_ideal ?_ (he i (Finset.mem_range.mp hi)) (hc (h _))
    unfold seenList
    rw [if_pos (List.mem_map.mpr ⟨i, List.mem_range.mpr (Finset.mem_range.mp hi), rfl⟩)]
  · have h1 := he i (Finset.mem_range.mp hi)
    have := Real.logb_nonpos (b := 2) (by norm_num) (show 0 ≤ chanceOf (q (contextOf k bytes i)) (bytes.flatten.getD i false) by
      linarith) (hc (h _))
    linarith

/-- **C78 (ideal code length).** Whatever fixed probabilities the contexts of order 1, 2 and 3 are given, as long as no bit
of the file had less than one chance in 32, the compressed size is at most 2024 bits for each different context of the file
plus three times the average of the ideal code lengths, order 2 counted twice. -/
theorem C78_ideal {W maxOrder : Nat} (hW0 : 0 < W) (hW : W ≤ 2 ^ 31) (hM : maxOrder ≤ 8191)
    (bytes : List (List Bool)) (h8 : ∀ b ∈ bytes, b.length = 8) (hn : bytes.length ≤ 87500000)
    (q1 q2 q3 : Nat → ℝ) (l1 : ∀ c, 0 ≤ q1 c ∧ q1 c ≤ 1) (l2 : ∀ c, 0 ≤ q2 c ∧ q2 c ≤ 1) (l3 : ∀ c, 0 ≤ q3 c ∧ q3 c ≤ 1)
    (e1 : Expected 1 q1 bytes) (e2 : Expected 2 q2 bytes) (e3 : Expected 3 q3 bytes) :
    ∃ out, compress .light W maxOrder bytes = some out ∧ 8 * ((out.length : ℝ) - 4) ≤
      2024 * (contextsSeen 1 bytes + 2 * contextsSeen 2 bytes + contextsSeen 3 bytes) +
      3 * ((fileIdeal 1 q1 bytes + 2 * fileIdeal 2 q2 bytes + fileIdeal 3 q3 bytes) / 4) +
      8 * bytes.length / 2 ^ 19 := by
  obtain ⟨out, o1, o2⟩ := C78_compressed hW0 hW hM bytes h8 hn (seenList 1 q1 bytes) (seenList 2 q2 bytes)
    (seenList 3 q3 bytes) (seen_list 1 q1 bytes l1) (seen_list 2 q2 bytes l2) (seen_list 3 q3 bytes l3)
  refine ⟨out, o1, o2.trans ?_⟩
  have c1 : (listCount (seenList 1 q1 bytes) 65536 : ℝ) ≤ contextsSeen 1 bytes := Nat.cast_le.mpr (seenList_count _ _ _ _)
  have c2 : (listCount (seenList 2 q2 bytes) 65536 : ℝ) ≤ contextsSeen 2 bytes := Nat.cast_le.mpr (seenList_count _ _ _ _)
  have c3 : (listCount (seenList 3 q3 bytes) 65536 : ℝ) ≤ contextsSeen 3 bytes := Nat.cast_le.mpr (seenList_count _ _ _ _)
  obtain ⟨a1, b1⟩ := seen_allowance 1 q1 bytes l1 e1
  obtain ⟨a2, b2⟩ := seen_allowance 2 q2 bytes l2 e2
  obtain ⟨a3, b3⟩ := seen_allowance 3 q3 bytes l3 e3
  linarith

/-! ## Two letters -/

/-- the letter `a` -/
def letterA : List Bool := [false, true, true, false, false, false, false, true]

/-- the letter `b` -/
def letterB : List Bool := [false, true, true, false, false, false, true, false]

/-- up to three letters -/
def letterBefores : List (List (List Bool)) :=
  let ls := [letterA, letterB]
  [[]] ++ ls.map (fun x => [x]) ++ ls.flatMap (fun x => ls.map fun y => [x, y]) ++
    ls.flatMap (fun x => ls.flatMap fun y => ls.map fun z => [x, y, z])

/-- what can precede a bit of a file of the two letters: up to three letters and a part of a letter -/
def letterPrefixes : List (List (List Bool) × List Bool) :=
  letterBefores.flatMap fun b => ((List.range 8).map fun j => (b, letterA.take j)) ++ [(b, letterB.take 7)]

/-- the contexts in which both bits can follow -/
def freeContexts (order : Nat) : List Nat :=
  ((letterPrefixes.filter fun p => p.2.length = 6).map fun p => contextHash order p.1 p.2).dedup

/-- the contexts in which a given bit has to follow -/
def sureContexts (order : Nat) (bit : Bool) : List Nat :=
  ((letterPrefixes.filter fun p => p.2.length ≠ 6 ∧
    (if p.2.length = 7 then p.2.getD 6 false = !bit else letterA.getD p.2.length false = bit)).map fun p =>
      contextHash order p.1 p.2).dedup

/-- probabilities for a file of the two letters -/
noncomputable def letterList (order : Nat) (c : Nat) : Option ℝ :=
  if c ∈ freeContexts order then some (1 / 2)
  else if c ∈ sureContexts order false then some 1
  else if c ∈ sureContexts order true then some 0
  else none

theorem letters_apart : ∀ k ∈ [1, 2, 3], (∀ c ∈ sureContexts k false, c ∉ freeContexts k ∧ c ∉ sureContexts k true) ∧
    (∀ c ∈ sureContexts k true, c ∉ freeContexts k) := by decide +kernel

theorem letters_before {bs : List (List Bool)} (h : ∀ b ∈ bs, b = letterA ∨ b = letterB) (hl : bs.length ≤ 3) :
    bs ∈ letterBefores := by
  match bs, h, hl with
  | [], _, _ => decide
  | [x], h, _ => rcases h x (by simp) with rfl | rfl <;> decide
  | [x, y], h, _ => rcases h x (by simp) with rfl | rfl <;> rcases h y (by simp) with rfl | rfl <;> decide
  | [x, y, z], h, _ =>
    rcases h x (by simp) with rfl | rfl <;> rcases h y (by simp) with rfl | rfl <;>
      rcases h z (by simp) with rfl | rfl <;> decide
  | _ :: _ :: _ :: _ :: _, _, hl => simp at hl; omega

theorem letters_prefix {b : List (List Bool)} (hb : b ∈ letterBefores) {l : List Bool} (hl : l = letterA ∨ l = letterB)
    {j : Nat} (hj : j < 8) : (b, l.take j) ∈ letterPrefixes := by
  unfold letterPrefixes
  rw [List.mem_flatMap]
  refine ⟨b, hb, ?_⟩
  rcases hl with rfl | rfl
  · exact List.mem_append_left _ (List.mem_map.mpr ⟨j, List.mem_range.mpr hj, rfl⟩)
  · by_cases h7 : j = 7
    · subst h7
      exact List.mem_append_right _ (by simp)
    · refine List.mem_append_left _ (List.mem_map.mpr ⟨j, List.mem_range.mpr hj, ?_⟩)
      rw [show letterA.take j = letterB.take j by
        rcases (by omega : j = 0 ∨ j = 1 ∨ j = 2 ∨ j = 3 ∨ j = 4 ∨ j = 5 ∨ j = 6) with
          rfl | rfl | rfl | rfl | rfl | rfl | rfl <;> rfl]

theorem prevByte_last {o : Nat} (h1 : 1 ≤ o) (h3 : o ≤ 3) (bytes : List (List Bool)) :
    prevByte o (lastN 3 bytes) = prevByte o bytes := by
  unfold prevByte
  rw [lastN_length]
  by_cases h : o ≤ bytes.length
  · rw [if_pos (by omega), if_pos h]
    unfold lastN
    rw [List.getD_eq_getElem?_getD, List.getElem?_drop, ← List.getD_eq_getElem?_getD]
    congr 2
    omega
  · rw [if_neg (by omega), if_neg h]

theorem contextHash_last {o : Nat} (h1 : 1 ≤ o) (h3 : o ≤ 3) (bytes : List (List Bool)) (part : List Bool) :
    contextHash o (lastN 3 bytes) part = contextHash o bytes part := by
  rcases (by omega : o = 1 ∨ o = 2 ∨ o = 3) with rfl | rfl | rfl
  · rw [hash_one, hash_one, prevByte_last (by omega) (by omega)]
  · rw [hash_two, hash_two, prevByte_last (by omega) (by omega), prevByte_last (by omega) (by omega)]
  · rw [hash_three, hash_three, prevByte_last (by omega) (by omega), prevByte_last (by omega) (by omega),
      prevByte_last (by omega) (by omega)]

theorem letterList_isList (o : Nat) : IsList (letterList o) := by
  intro c q h
  unfold letterList at h
  split at h
  · obtain rfl := Option.some.inj h
    norm_num
  · split at h
    · obtain rfl := Option.some.inj h
      norm_num
    · split at h
      · obtain rfl := Option.some.inj h
        norm_num
      · cases h

theorem letterList_count : listCount (letterList 1) 65536 ≤ 27 ∧ listCount (letterList 2) 65536 ≤ 63 ∧
    listCount (letterList 3) 65536 ≤ 135 := by
  have h : ∀ k, listCount (letterList k) 65536 ≤
      (freeContexts k ++ sureContexts k false ++ sureContexts k true).length := by
    intro k
    unfold listCount
    rw [List.countP_eq_length_filter]
    refine List.Subperm.length_le (List.Nodup.subperm (List.Nodup.filter _ List.nodup_range) fun c hc => ?_)
    have h := (List.mem_filter.mp hc).2
    unfold letterList at h
    rw [List.mem_append, List.mem_append]
    by_contra hn
    rw [not_or, not_or] at hn
    rw [if_neg hn.1.1, if_neg hn.1.2, if_neg hn.2] at h
    cases h
  exact ⟨(h 1).trans (by decide +kernel), (h 2).trans (by decide +kernel), (h 3).trans (by decide +kernel)⟩

/-- the allowance for a bit of a file of the two letters -/
theorem letters_allowance {o : Nat} (h1 : 1 ≤ o) (h3 : o ≤ 3) {bytes : List (List Bool)}
    (h : ∀ b ∈ bytes, b = letterA ∨ b = letterB) {n j : Nat} (hn : n < bytes.length) (hj : j < 8) :
    allowance (letterList o) (contextOf o bytes (8 * n + j)) (bytes.flatten.getD (8 * n + j) false) =
      if j = 6 then 73 / 40 else 0 := by
  have h8 : ∀ b ∈ bytes, b.length = 8 := by
    intro b hb
    rcases h b hb with rfl | rfl <;> rfl
  obtain ⟨hf1, hf2⟩ := letters_apart o (by rcases (by omega : o = 1 ∨ o = 2 ∨ o = 3) with rfl | rfl | rfl <;> simp)
  rw [flatten_bit bytes h8 hj]
  unfold contextOf
  rw [show (8 * n + j) / 8 = n by omega, show (8 * n + j) % 8 = j by omega, ← contextHash_last h1 h3]
  have hl : bytes.getD n [] = letterA ∨ bytes.getD n [] = letterB := by
    rw [List.getD_eq_getElem?_getD, List.getElem?_eq_getElem hn]
    exact h _ (List.getElem_mem hn)
  have hb : lastN 3 (bytes.take n) ∈ letterBefores := by
    refine letters_before (fun b hb => h b ?_) (by rw [lastN_length]; omega)
    exact List.mem_of_mem_take (List.mem_of_mem_drop hb)
  have hp := letters_prefix hb hl hj
  generalize lastN 3 (bytes.take n) = b at *
  generalize bytes.getD n [] = l at *
  have hlen : (l.take j).length = j := by
    rw [List.length_take]
    rcases hl with rfl | rfl <;> simp only [letterA, letterB, List.length_cons, List.length_nil] <;> omega
  by_cases h6 : j = 6
  · rw [if_pos h6]
    have hm : contextHash o b (l.take j) ∈ freeContexts o := by
      unfold freeContexts
      rw [List.mem_dedup, List.mem_map]
      exact ⟨_, List.mem_filter.mpr ⟨hp, by simpa [hlen] using h6⟩, rfl⟩
    unfold allowance letterList
    rw [if_pos hm]
    dsimp only
    have hc : chanceOf (1 / 2) (l.getD j false) = 1 / 2 := by unfold chanceOf; split <;> norm_num
    rw [hc, if_pos (by norm_num), show (1 / 2 : ℝ) = 2⁻¹ by norm_num, Real.logb_inv, Real.logb_self_eq_one (by norm_num)]
    norm_num
  · rw [if_neg h6]
    have hm : contextHash o b (l.take j) ∈ sureContexts o (l.getD j false) := by
      unfold sureContexts
      rw [List.mem_dedup, List.mem_map]
      refine ⟨_, List.mem_filter.mpr ⟨hp, decide_eq_true ?_⟩, rfl⟩
      dsimp only
      rw [hlen]
      rcases (by omega : j = 0 ∨ j = 1 ∨ j = 2 ∨ j = 3 ∨ j = 4 ∨ j = 5 ∨ j = 7) with
          rfl | rfl | rfl | rfl | rfl | rfl | rfl <;> rcases hl with rfl | rfl <;> decide
    have hlog : ∀ bit : Bool, -Real.logb 2 (1 : ℝ) + 8 / 5 * (1 - 1) * (1 + 1 / (64 * 1)) = 0 := by
      intro _
      rw [Real.logb_one]
      norm_num
    unfold allowance letterList
    generalize contextHash o b (l.take j) = c at *
    cases hbit : l.getD j false with
    | false =>
      rw [hbit] at hm
      rw [if_neg (hf1 c hm).1, if_pos hm]
      dsimp only
      have hc : chanceOf 1 false = 1 := by unfold chanceOf; norm_num
      rw [hc, if_pos (by norm_num)]
      exact hlog false
    | true =>
      rw [hbit] at hm
      rw [if_neg (hf2 c hm), if_neg fun hx => (hf1 c hx).2 hm, if_pos hm]
      dsimp only
      have hc : chanceOf 0 true = 1 := by unfold chanceOf; norm_num
      rw [hc, if_pos (by norm_num)]
      exact hlog true

theorem letters_file {o : Nat} (h1 : 1 ≤ o) (h3 : o ≤ 3) {bytes : List (List Bool)}
    (h : ∀ b ∈ bytes, b = letterA ∨ b = letterB) :
    fileAllowance o (letterList o) bytes = 73 / 40 * bytes.length := by
  have key : ∀ n, n ≤ bytes.length → ∑ i ∈ Finset.range (8 * n),
      allowance (letterList o) (contextOf o bytes i) (bytes.flatten.getD i false) = 73 / 40 * n := by
    intro n
    induction n with
    | zero => intro _; simp
    | succ n ih =>
      intro hn
      rw [show 8 * (n + 1) = 8 * n + 8 by omega, Finset.sum_range_add, ih (by omega)]
      have hs : ∑ j ∈ Finset.range 8, allowance (letterList o) (contextOf o bytes (8 * n + j))
          (bytes.flatten.getD (8 * n + j) false) = ∑ j ∈ Finset.range 8, if j = 6 then (73 / 40 : ℝ) else 0 :=
        Finset.sum_congr rfl fun j hj => letters_allowance h1 h3 h (by omega) (Finset.mem_range.mp hj)
      rw [hs, Finset.sum_ite_eq' (Finset.range 8) 6, if_pos (by decide)]
      push_cast
      ring
  exact key _ (le_refl _)

/-- **C78 (two letters).** A file of the letters `a` and `b`, in any order, is compressed to little more than a quarter: at
most 72870 bytes plus 251 bytes for every thousand letters. -/
theorem C78_letters {W maxOrder : Nat} (hW0 : 0 < W) (hW : W ≤ 2 ^ 31) (hM : maxOrder ≤ 8191)
    (bytes : List (List Bool)) (h : ∀ b ∈ bytes, b = letterA ∨ b = letterB) (hn : bytes.length ≤ 87500000) :
    ∃ out, compress .light W maxOrder bytes = some out ∧ (out.length : ℝ) ≤ 72870 + 251 / 1000 * bytes.length := by
  obtain ⟨out, o1, o2⟩ := C78_compressed hW0 hW hM bytes (fun b hb => by rcases h b hb with rfl | rfl <;> rfl) hn
    (letterList 1) (letterList 2) (letterList 3) (letterList_isList 1) (letterList_isList 2) (letterList_isList 3)
  refine ⟨out, o1, ?_⟩
  rw [letters_file (by omega) (by omega) h, letters_file (by omega) (by omega) h, letters_file (by omega) (by omega) h] at o2
  obtain ⟨c1, c2, c3⟩ := letterList_count
  have d1 : (listCount (letterList 1) 65536 : ℝ) ≤ 27 := by exact_mod_cast c1
  have d2 : (listCount (letterList 2) 65536 : ℝ) ≤ 63 := by exact_mod_cast c2
  have d3 : (listCount (letterList 3) 65536 : ℝ) ≤ 135 := by exact_mod_cast c3
  have hl : (0 : ℝ) ≤ bytes.length := Nat.cast_nonneg _
  linarith

/-- eighty million letters `a` and `b` in any order: at most 20.2 million bytes are left -/
example (letters : List Bool) (h : letters.length = 80000000) :
    ∃ out, compress .light 10000000 20 (letters.map fun x => if x then letterA else letterB) = some out ∧
      (out.length : ℝ) ≤ 20200000 := by
  obtain ⟨out, h1, h2⟩ := C78_letters (W := 10000000) (maxOrder := 20) (by omega) (by omega) (by omega)
    (letters.map fun x => if x then letterA else letterB) (fun b hb => by
      obtain ⟨x, -, rfl⟩ := List.mem_map.mp hb
      cases x <;> simp) (by rw [List.length_map, h]; omega)
  refine ⟨out, h1, h2.trans ?_⟩
  rw [List.length_map, h]
  norm_num

/-- even odds are never surprised -/
example (order : Nat) (bytes : List (List Bool)) : Expected order (fun _ => 1 / 2) bytes := by
  intro i _
  unfold chanceOf
  split <;> norm_num

end Verif.Pred
