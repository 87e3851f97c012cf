import Verif.Mix.ApmProb

/-! # Learning of probabilities (C78) -/

namespace Verif.Mix

open Verif Verif.Fixed Verif.Lut

attribute [local irreducible] squashTable stretchTable

/-- a sequence of rounds -/
theorem prob_run {fb contexts : Nat} (hfb : fb ≤ 7) (y : Payer) :
    ∀ (rounds : List LearnRound) (a : Apm), ApmInv fb contexts false a →
    (∀ r ∈ rounds, r.context < contexts ∧ Belongs stretchTable squashTable fb r.sq r.st ∧ r.fixed = true) →
    ∃ ps a', apmCalls (lutAt fb) a (rounds.flatMap (LearnRound.calls 5)) = some (ps, a') ∧
      ps.length = rounds.length ∧ ApmInv fb contexts false a' ∧
      (List.zipWith (fun p r => bitLength p r.bit) ps rounds).sum ≤
        21 / 20 * (64 * (total y.worth contexts (24 * 2 ^ fb + 1) a.mappings -
            total y.worth contexts (24 * 2 ^ fb + 1) a'.mappings) + (rounds.map fun r => y.charge r.context r.bit).sum) +
          rounds.length * (1 / 2 ^ 23) := by
  intro rounds
  induction rounds with
  | nil =>
    intro a ha _
    exact ⟨[], a, rfl, rfl, ha, by simp⟩
  | cons r rounds ih =>
    intro a ha hrs
    obtain ⟨hc, hb, hfix⟩ := hrs r (by simp)
    obtain ⟨i, w, h1, h2, -, -, -, h3⟩ := refine_eq hfb hb hc
    obtain ⟨L, R, hL, hR, oL, oR, h4⟩ := h3 a ha.ok (ha.idle rfl)
    have h5 := update_closed (a := { a with saved := (i : Int), savedWeight := 2 ^ 31 - w }) (bit := r.bit) (fixed := r.fixed)
      (c := r.context) (rate := 5) (wl := 2 ^ 30) ⟨ha.ok.bits, ha.ok.ctx, ha.ok.len, ha.ok.entries⟩ h1 rfl hc
      (by rw [hfix]; rfl) (by dsimp only; omega) (by dsimp only; omega) (by omega) (by omega) hL hR
    obtain ⟨a1, ha1⟩ : ∃ a1 : Apm, a1 = { a with
        mappings := (a.mappings.set (r.context * (24 * 2 ^ fb + 1) + i) (learned r.bit (2 ^ 30) 5 L)).set
          (r.context * (24 * 2 ^ fb + 1) + (i + 1)) (learned r.bit (2 ^ 31 - 2 ^ 30) 5 R)
        saved := -1, savedWeight := 2 ^ 31 - w } := ⟨_, rfl⟩
    have hinv : ApmInv fb contexts false a1 := by
      have := set_ok ha.ok (i := r.context * (24 * 2 ^ fb + 1) + i) (j := r.context * (24 * 2 ^ fb + 1) + (i + 1))
        (learned_ok (bit := r.bit) (w := 2 ^ 30) (rate := 5) (by omega) (by omega) oL)
        (learned_ok (bit := r.bit) (w := 2 ^ 31 - 2 ^ 30) (rate := 5) (by omega) (by omega) oR) (-1)
      rw [ha1]
      exact ⟨⟨this.bits, this.ctx, this.len, this.entries⟩, fun _ => rfl, fun h => by cases h⟩
    obtain ⟨ps, a', k1, k2, k3, k4⟩ := ih a1 hinv fun x hx => hrs x (by simp [hx])
    refine ⟨blend L R w :: ps, a', ?_, by simp [k2], k3, ?_⟩
    · rw [List.flatMap_cons, LearnRound.calls, List.cons_append, List.cons_append, List.nil_append, apmCalls, h4, ob_some]
      dsimp only
      rw [apmCalls, h5, ob_some]
      dsimp only
      rw [← ha1, k1, ob_some]
    · have hstep := y.pays r.context w L R r.bit h2 oL oR
      rw [← total_set (es := a.mappings) (worth := y.worth) (contexts := contexts) (n := 24 * 2 ^ fb + 1) hc (by omega) hL hR,
        show (a.mappings.set (r.context * (24 * 2 ^ fb + 1) + i) (learned r.bit (2 ^ 30) 5 L)).set
          (r.context * (24 * 2 ^ fb + 1) + (i + 1)) (learned r.bit (2 ^ 31 - 2 ^ 30) 5 R) = a1.mappings by rw [ha1]] at hstep
      have hblend := blend_price (b := r.bit) oL oR h2
      simp only [List.zipWith_cons_cons, List.sum_cons, List.length_cons, List.map_cons]
      push_cast
      norm_num at hblend hstep k4 ⊢
      linarith

/-! ## C78 -/

/-- **C78 (maps).** Refining and learning in turn, with the rate and the fixed weights of the program's default mode, a map
of up to seven fractional index bits pays for any sequence of contexts, probabilities and bits - whatever the given
probabilities are - little more than coding by a list of probabilities, one for every context that is listed: at most a
fixed amount for each listed context and the allowance for each bit, both increased by five percent. -/
theorem C78_map (lut : List (List Int)) (table : List Nat) (al : ApmLut) (a : Apm) (fb contexts : Nat)
    (hfb : fb ≤ 7) (hlut : stretchLutNew = some lut) (htab : squashLutNew lut = some table)
    (hal : apmLutNew fb table = some al) (ha : apmNew contexts fb table = some a)
    (rounds : List LearnRound)
    (hrs : ∀ r ∈ rounds, r.context < contexts ∧ Belongs lut table fb r.sq r.st ∧ r.fixed = true) :
    ∃ ps a', apmCalls al a (rounds.flatMap (LearnRound.calls 5)) = some (ps, a') ∧ ps.length = rounds.length ∧
      ∀ list : Nat → Option ℝ, IsList list → (List.zipWith (fun p r => bitLength p r.bit) ps rounds).sum ≤
        21 / 20 * (7360 * 2 ^ fb * listCount list contexts + (rounds.map fun r => allowance list r.context r.bit).sum) +
          rounds.length / 2 ^ 23 := by
  obtain ⟨rfl, rfl, rfl, rfl⟩ := tables_eq hfb hlut htab hal ha
  obtain ⟨ps, a', h1, h2, h3, -⟩ := prob_run hfb (guessPayer fun _ => none) rounds _ (new_apm (contexts := contexts) hfb) hrs
  refine ⟨ps, a', h1, h2, fun list hlist => ?_⟩
  obtain ⟨ps', a'', k1, k2, k3, k4⟩ := prob_run hfb (probPayer list hlist) rounds _ (new_apm (contexts := contexts) hfb) hrs
  rw [h1] at k1
  obtain ⟨rfl, rfl⟩ := Prod.mk.inj (Option.some.inj k1)
  have h6 := probWorth_new hfb hlist contexts
  have h7 := total_nonneg k3.ok.len k3.ok.entries (probPayer list hlist).nonneg
  change _ ≤ 21 / 20 * (64 * (total (probWorth list) contexts (24 * 2 ^ fb + 1) (newAt contexts fb).mappings - _) +
    (rounds.map fun r => allowance list r.context r.bit).sum) + _ at k4
  rw [mul_one_div] at k4
  linarith

/-- the list for the example: a one has the probability 1/16 -/
noncomputable def exampleList (c : Nat) : Option ℝ := if c = 1 then some (15 / 16) else none

theorem exampleList_allowance : allowance exampleList 1 true = 47 / 8 ∧ allowance exampleList 1 false ≤ 121 / 600 := by
  have h1 : chanceOf (15 / 16) true = 1 / 16 := by unfold chanceOf; norm_num
  have h2 : chanceOf (15 / 16) false = 15 / 16 := by unfold chanceOf; norm_num
  unfold allowance exampleList
  rw [if_pos rfl]
  dsimp only
  constructor
  · rw [h1, if_pos (by norm_num), show (1 / 16 : ℝ) = (2 ^ 4)⁻¹ by norm_num, Real.logb_inv, logb_pow2]
    norm_num
  · rw [h2, if_pos (by norm_num)]
    have h3 := logb_le (t := 1 / 15) (by norm_num)
    have e : -Real.logb 2 (15 / 16 : ℝ) = Real.logb 2 (1 + 1 / 15) := by
      rw [← Real.logb_inv]
      norm_num
    rw [e]
    norm_num at h3 ⊢
    linarith

/-- a million bits, at most one in sixteen of them a one, in any order: although a zero is announced with a probability of
70 percent every time, they cost at most 600 000 bits -/
example (bits : List Bool) (hn : bits.length = 1000000) (h1 : bits.count true ≤ 62500) :
    ∃ ps a', apmCalls (lutAt 1) (newAt 2 1)
      ((bits.map fun b => (⟨1, 1500000000, 1761874, b, true⟩ : LearnRound)).flatMap (LearnRound.calls 5)) = some (ps, a') ∧
    (List.zipWith (fun p r => bitLength p r.bit) ps
      (bits.map fun b => (⟨1, 1500000000, 1761874, b, true⟩ : LearnRound))).sum ≤ 600000 := by
  obtain ⟨ps, a', e1, -, h2⟩ := C78_map stretchTable squashTable (lutAt 1) (newAt 2 1) 1 2 (by omega) stretchLut_eq
    (squashLut_eq stretchTable_ok) (apmLut_eq (by omega)) (apmNew_eq (by omega) 2)
    (bits.map fun b => ⟨1, 1500000000, 1761874, b, true⟩) (fun r hr => by
      obtain ⟨b, -, rfl⟩ := List.mem_map.mp hr
      exact ⟨by norm_num, example_belongs, rfl⟩)
  refine ⟨ps, a', e1, (h2 exampleList ?_).trans ?_⟩
  · intro c q h
    unfold exampleList at h
    split at h
    · obtain rfl := Option.some.inj h
      norm_num
    · cases h
  · have hg : listCount exampleList 2 = 1 := by
      unfold listCount exampleList
      simp [List.range_succ]
    have hs : ∀ bits : List Bool, (bits.map fun b => allowance exampleList 1 b).sum ≤
        121 / 600 * bits.length + 5677 / 1000 * bits.count true := by
      intro bits
      induction bits with
      | nil => simp
      | cons b bits ih =>
        obtain ⟨k1, k2⟩ := exampleList_allowance
        rw [List.map_cons, List.sum_cons, List.length_cons, List.count_cons]
        push_cast
        cases b
        · norm_num
          linarith
        · rw [k1]
          norm_num
          linarith
    have h3 := hs bits
    have h4 : (bits.count true : ℝ) ≤ 62500 := by exact_mod_cast h1
    rw [hg, List.map_map, List.length_map, hn]
    rw [hn] at h3
    change 21 / 20 * (_ + (bits.map fun b => allowance exampleList 1 b).sum) + _ ≤ _
    generalize (bits.map fun b => allowance exampleList 1 b).sum = A at *
    norm_num at h3 ⊢
    linarith

end Verif.Mix
