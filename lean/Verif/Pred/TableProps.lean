import Verif.Pred.ReportProps

/-! # The tables of the statistics (C75) -/

namespace Verif.Pred

open Verif Verif.Coding Verif.Float Verif.Fixed Verif.Tree

theorem mapM_of {α β : Type} {f : α → Option β} {g : α → β} : ∀ (l : List α), (∀ a ∈ l, f a = some (g a)) →
    l.mapM f = some (l.map g) := by
  intro l
  induction l with
  | nil => intro _; rfl
  | cons a l ih =>
    intro h
    rw [List.mapM_cons, h a (by simp), ob_some, ih (fun b hb => h b (by simp [hb])), ob_some]
    rfl

/-- a count as a float -/
theorem count_float {n : ℕ} (h : n ≤ 2 ^ 53) : intoF64 ((n : ℕ) : ℤ) = some (n : ℚ) := by
  rw [intoF64_small (by rw [abs_of_nonneg (by omega)]; exact_mod_cast h), Int.cast_natCast]

theorem occ_bound {maxOrder : ℕ} {es : List StatEvent} (h : EventsOk maxOrder es) {e : StatEvent} (he : e ∈ es) :
    e.occurrences ≤ 1023 := by
  cases e with
  | start lb => exact Nat.zero_le _
  | bit b states p =>
    obtain ⟨-, h2, -⟩ := h.bit b states p he
    cases states with
    | nil => exact Nat.zero_le _
    | cons s ss =>
      have := h2 _ (List.getLast_mem (l := s :: ss) (by simp))
      unfold StatEvent.occurrences
      dsimp only
      omega

/-- one cell -/
structure CellOk (s : Stats) (code : ℕ) (x : ℕ × Char × ℕ × Num) : Prop where
  shown : x.1 = code
  char : x.2.1 = if 32 ≤ code ∧ code < 127 then Char.ofNat code else ' '
  count : s.symbolCounts[code]? = some x.2.2.1
  cost : ∃ c : ℤ, ∃ v : ℚ, s.symbolCosts[code]? = some c ∧ x.2.2.2 = .fin v ∧ |v - (c : ℚ) / 16384| ≤ (c : ℚ) / 16384 / 2 ^ 53

section

variable {t : Tables} (ht : tablesNew = some t) (mode : Mode) {W maxOrder : Nat} (hW0 : 0 < W) (hW : W ≤ 2 ^ 31)
  (hM : maxOrder ≤ 8191) {p0 : Predictor} (h0 : predNew t mode W maxOrder = some p0) (cs : List Call)
  (hn : cs.length ≤ 2 ^ 40) {fs : List Nat} {p : Predictor} (h : calls t mode p0 cs = some (fs, p))

include ht hW0 hW hM h0 hn h

theorem cell_ok {code : ℕ} (hcode : code < 256) : ∃ x, symbolCell p.stats code = some x ∧ CellOk p.stats code x := by
  obtain ⟨es, g1, g2, g3⟩ := stats_reached ht hW0 hW hM h0 hn h
  obtain ⟨c1, c2⟩ := stats_cost_range ht g1 g2 g3
  have hb := (booked_bounds (tablesOk_of ht) g1).2
  have hn' := g2.symCounts code hcode
  have hc' := g2.symCosts code hcode
  obtain ⟨f1, f2⟩ := filter_sum_le (booked t es) (fun x => decide (x.1 = code)) hb
  have f3 : ((booked t es).map (·.2)).sum ≤ 47104 * 2 ^ 41 := by
    rcases List.eq_nil_or_concat es with rfl | ⟨l, a, rfl⟩
    · simp [booked]
    · have := booked_total t _ g1.first (by simp)
      rw [← g2.totalCost] at this
      have hs : 0 ≤ costSinceStart t (l.concat a) := by
        unfold costSinceStart
        refine (sum_bounds (StatEvent.cost t) (k := 47104) _ fun a ha => cost_bounds (tablesOk_of ht) g1 ?_).1
        exact List.mem_reverse.mp ((List.takeWhile_sublist _).subset ha)
      omega
  generalize (((booked t es).filter fun x => decide (x.1 = code)).map (·.2)).sum = c at *
  obtain ⟨x, x1, x2, x3⟩ := cost_float f1 (by omega)
  refine ⟨(code, if 32 ≤ code ∧ code < 127 then Char.ofNat code else ' ', _, .fin (x / 8)), ?_, rfl, rfl, hn', c, x / 8, hc', rfl, x3⟩
  unfold symbolCell
  dsimp only
  rw [hn', ob_some, hc', ob_some, x1, ob_some, x2]
  rfl

/-- **C75 (symbols).** The table by symbol value has 32 rows of 4 columns. The cell in row `i` and column `j` shows
`i + 32 j`: the values 0 to 127 appear once each, with their count and an eighth of their cost. Values from 128 on are
missing. -/
theorem C75_symbols : ∃ rows, symbolRows p.stats = some rows ∧ rows.length = 32 ∧ (∀ row ∈ rows, row.length = 4) ∧
    (∀ i < 32, ∀ j < 4, ∃ row x, rows[i]? = some row ∧ row[j]? = some x ∧ CellOk p.stats (i + 32 * j) x) ∧
    (∀ row ∈ rows, ∀ x ∈ row, x.1 < 128) := by
  have hx : ∀ code : ℕ, ∃ x, code < 256 → symbolCell p.stats code = some x ∧ CellOk p.stats code x := by
    intro code
    by_cases hc : code < 256
    · obtain ⟨x, hx⟩ := cell_ok ht mode hW0 hW hM h0 cs hn h hc
      exact ⟨x, fun _ => hx⟩
    · exact ⟨(0, ' ', 0, .nan), fun h => absurd h hc⟩
  choose g hg using hx
  have hrow : ∀ i < 32, ((List.range 4).mapM fun column => do
      let off ← u8 (column * 32)
      let code ← u8 (i + off)
      symbolCell p.stats code) = some ((List.range 4).map fun j => g (i + j * 32)) := by
    intro i hi
    apply mapM_of
    intro j hj
    rw [List.mem_range] at hj
    rw [show u8 (j * 32) = some (j * 32) from if_pos (by omega), ob_some,
      show u8 (i + j * 32) = some (i + j * 32) from if_pos (by omega), ob_some]
    exact (hg _ (by omega)).1
  refine ⟨(List.range 32).map fun i => (List.range 4).map fun j => g (i + j * 32), ?_, by simp, ?_, ?_, ?_⟩
  · unfold symbolRows
    apply mapM_of
    intro i hi
    exact hrow i (List.mem_range.mp hi)
  · intro row hr
    obtain ⟨i, -, rfl⟩ := List.mem_map.mp hr
    simp
  · intro i hi j hj
    refine ⟨(List.range 4).map fun j => g (i + j * 32), _, ?_, ?_, (hg (i + 32 * j) (by omega)).2⟩
    · rw [List.getElem?_map, List.getElem?_range hi]
      rfl
    · rw [List.getElem?_map, List.getElem?_range hj, Nat.mul_comm 32 j]
      rfl
  · intro row hr x hx
    obtain ⟨i, hi, rfl⟩ := List.mem_map.mp hr
    obtain ⟨j, hj, rfl⟩ := List.mem_map.mp hx
    rw [List.mem_range] at hi hj
    rw [(hg (i + j * 32) (by omega)).2.shown]
    omega

/-- **C75 (context types).** If the maximal order is at least 4 the table by context type has a line for each class: the
number of its bits over 8, their cost over 8 (up to rounding) and the mean number of occurrences of the longest context,
which is not a number exactly for a class without bits, and less than 1024 otherwise. With a smaller maximal order printing
panics. -/
theorem C75_contexts : (maxOrder < 4 → contextLines p.stats = none) ∧
    (4 ≤ maxOrder → ∃ lines, contextLines p.stats = some lines ∧ lines.length = 25 ∧ ∀ o ≤ 4, ∀ u ≤ 4,
      ∃ (n : ℕ) (c : ℤ) (occ : ℕ) (v : ℚ) (a : Num), lines[o * 5 + u]? = some (o, u, .fin ((n : ℚ) / 8), .fin v, a) ∧
        p.stats.orderCounts[o * 5 + u]? = some n ∧ p.stats.orderCosts[o * 5 + u]? = some c ∧
        p.stats.occurrences[o * 5 + u]? = some occ ∧ |v - (c : ℚ) / 16384| ≤ (c : ℚ) / 16384 / 2 ^ 53 ∧
        (n = 0 → a = .nan) ∧ (n ≠ 0 → ∃ w, a = .fin w ∧ NearestF64 ((occ : ℚ) / n) w ∧ w < 1024)) := by
  obtain ⟨es, g1, g2, g3⟩ := stats_reached ht hW0 hW hM h0 hn h
  have hlist : ((List.range 5).flatMap fun order => (List.range 5).map fun unary => (order, unary)) =
      (List.range 25).map fun k => (k / 5, k % 5) := by decide
  unfold contextLines
  rw [hlist]
  constructor
  · intro h4
    have : ¬ (((List.range 25).map fun k => (k / 5, k % 5)).mapM fun x => contextLine p.stats x.1 x.2).isSome = true := by
      rw [mapM_some]
      intro hall
      have := hall (4, 4) (by decide)
      unfold contextLine at this
      dsimp only at this
      rw [List.getElem?_eq_none (by rw [g2.occLen]; omega)] at this
      cases this
    exact Option.not_isSome_iff_eq_none.mp this
  · intro h4
    have hline : ∀ k : ℕ, ∃ x : ℕ × ℕ × Num × Num × Num, k < 25 → contextLine p.stats (k / 5) (k % 5) = some x ∧
        ∃ (n : ℕ) (c : ℤ) (occ : ℕ) (v : ℚ) (a : Num), x = (k / 5, k % 5, .fin ((n : ℚ) / 8), .fin v, a) ∧
        p.stats.orderCounts[k / 5 * 5 + k % 5]? = some n ∧ p.stats.orderCosts[k / 5 * 5 + k % 5]? = some c ∧
        p.stats.occurrences[k / 5 * 5 + k % 5]? = some occ ∧ |v - (c : ℚ) / 16384| ≤ (c : ℚ) / 16384 / 2 ^ 53 ∧
        (n = 0 → a = .nan) ∧ (n ≠ 0 → ∃ w, a = .fin w ∧ NearestF64 ((occ : ℚ) / n) w ∧ w < 1024) := by
      intro k
      by_cases hk : k < 25
      swap
      · exact ⟨(0, 0, .nan, .nan, .nan), fun h => absurd h hk⟩
      have ho : k / 5 ≤ 4 := by omega
      have hu : k % 5 ≤ 4 := by omega
      generalize k / 5 = o at *
      generalize k % 5 = u at *
      have q1 := g2.counts o ho u hu
      have q2 := g2.costs o ho u hu
      have q3 := g2.occ o ho u hu (by omega)
      have r2 := sum_bounds (StatEvent.cost t) (k := 47104) (ofSlot es o u) fun e he =>
        cost_bounds (tablesOk_of ht) g1 (ofSlot_mem he)
      have r3 := sum_bounds_nat StatEvent.occurrences (k := 1023) (ofSlot es o u) fun e he =>
        occ_bound g1 (ofSlot_mem he)
      have r1 : (ofSlot es o u).length ≤ 2 ^ 41 := (ofSlot_length es o u).trans g3
      generalize ((ofSlot es o u).map (StatEvent.cost t)).sum = c at *
      generalize ((ofSlot es o u).map StatEvent.occurrences).sum = occ at *
      generalize (ofSlot es o u).length = n at *
      have r1' : (n : ℤ) ≤ 2 ^ 41 := by exact_mod_cast r1
      obtain ⟨x, x1, x2, x3⟩ := cost_float r2.1 (by omega)
      have hn8 : numDiv (n : ℚ) 8 = .fin ((n : ℚ) / 8) := by
        have hn0 : (n : ℚ) ≤ 2 ^ 41 := by exact_mod_cast r1
        refine eighth ?_ ?_ (hn0.trans (by norm_num))
        · have := isF64_int (m := n) (k := 0) (by rw [abs_of_nonneg (by omega)]; omega) (by norm_num) (by norm_num)
          rw [zpow_zero, mul_one, Int.cast_natCast] at this
          exact this
        · rcases Nat.eq_zero_or_pos n with rfl | hp
          · left; simp
          · right
            have : (1 : ℚ) ≤ n := by exact_mod_cast hp
            exact le_trans (by norm_num) this
      refine ⟨(o, u, .fin ((n : ℚ) / 8), .fin (x / 8), numDiv (occ : ℚ) (n : ℚ)), fun _ => ⟨?_, n, c, occ, x / 8, _, rfl, q1, q2, q3,
        x3, ?_, ?_⟩⟩
      · unfold contextLine
        dsimp only
        rw [q3, ob_some, q1, ob_some, count_float (by omega), ob_some, count_float (by omega), ob_some, q2, ob_some, x1,
          ob_some, hn8, x2]
      · rintro rfl
        obtain rfl : occ = 0 := by omega
        simp [numDiv]
      · intro hn0
        have hp : (1 : ℚ) ≤ n := by exact_mod_cast (by omega : 1 ≤ n)
        have ho' : (occ : ℚ) ≤ 1023 * n := by exact_mod_cast r3
        have hq0 : 0 ≤ (occ : ℚ) / n := by positivity
        have hq1 : (occ : ℚ) / n ≤ 1023 := by rw [div_le_iff₀ (by linarith)]; exact ho'
        obtain ⟨f1, f2⟩ := fl_nearest (q := (occ : ℚ) / n) (by
          rw [abs_of_nonneg hq0]
          exact hq1.trans (le_trans (by norm_num) (pow_le_pow_right₀ (show (1 : ℚ) ≤ 2 by norm_num) (show 10 ≤ 1023 by norm_num))))
        refine ⟨_, ?_, f2, ?_⟩
        · unfold numDiv fDiv
          rw [if_neg (by linarith), if_neg (by linarith), f1]
          rfl
        · have m := rounded_mono (p := 53) (by norm_num) (-1074) hq1
          have f := rounded_fits (isF64_int (m := 1023) (k := 0) (by norm_num) (by norm_num) (by norm_num)).1
          rw [zpow_zero, mul_one] at f
          push_cast at f
          rw [f] at m
          exact lt_of_le_of_lt m (by norm_num)
    choose g hg using hline
    refine ⟨(List.range 25).map g, ?_, by simp, ?_⟩
    · rw [mapM_of (g := fun x => g (x.1 * 5 + x.2))]
      · rw [List.map_map]
        refine congrArg some (List.map_congr_left fun k _ => ?_)
        rw [Function.comp_apply]
        exact congrArg g (by dsimp only; omega)
      · intro x hx
        obtain ⟨k, hk, rfl⟩ := List.mem_map.mp hx
        rw [List.mem_range] at hk
        have e : k / 5 * 5 + k % 5 = k := by omega
        dsimp only
        rw [e]
        exact (hg k hk).1
    · intro o ho u hu
      obtain ⟨-, n, c, occ, v, a, e1, e2⟩ := hg (o * 5 + u) (by omega)
      rw [show (o * 5 + u) / 5 = o by omega, show (o * 5 + u) % 5 = u by omega] at e1 e2
      refine ⟨n, c, occ, v, a, ?_, e2⟩
      rw [List.getElem?_map, List.getElem?_range (by omega), Option.map_some, e1]

end

/-- a line of a class without bits -/
example : contextLine (statsNew 4) 2 3 = some (2, 3, .fin 0, .fin 0, .nan) := by decide +kernel

/-- a line of a class with 12 bits that cost 30 bits, and 35 occurrences -/
example : contextLine { statsNew 4 with orderCounts := (List.replicate 25 0).set 13 12, orderCosts := (List.replicate 25 0).set 13 61440, occurrences := (List.replicate 25 0).set 13 28 }
    2 3 = some (2, 3, .fin (3 / 2), .fin (15 / 4), .fin (rnd (7 / 3))) := by decide +kernel

end Verif.Pred
