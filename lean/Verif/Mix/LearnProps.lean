import Verif.Mix.ApmLearn
import Verif.Mix.LearnSpec

/-! # Learning of a map (C77) -/

namespace Verif.Mix

open Verif Verif.Fixed Verif.Lut

attribute [local irreducible] squashTable stretchTable

/-! ## The potential of a new map -/

/-- the product of the probabilities of a bit at all stops -/
def stopsProduct (fb : Nat) (b : Bool) : Nat :=
  (List.range (24 * 2 ^ fb + 1)).foldl (fun p k => p * sideOf b (stopAt fb k)) 1

theorem stops_products : (List.range 8).all (fun fb => [false, true].all fun b =>
    decide (2 ^ (31 * (24 * 2 ^ fb + 1) - 115 * 2 ^ fb) ≤ stopsProduct fb b)) = true := by decide +kernel

theorem stop_ok {fb k : Nat} (hfb : fb ≤ 7) (hk : k < 24 * 2 ^ fb + 1) : EntryOk (stopAt fb k) := by
  have := stopAt_bounds hfb (i := k) (by omega)
  unfold EntryOk
  omega

theorem price_sum (f : Nat → Nat) : ∀ n : Nat, (∀ k, k < n → 0 < f k) →
    0 < (List.range n).foldl (fun p k => p * f k) 1 ∧
    ∑ k ∈ Finset.range n, price (f k : ℕ) = 31 * n - Real.logb 2 ((List.range n).foldl (fun p k => p * f k) 1 : ℕ) := by
  intro n
  induction n with
  | zero => intro _; simp
  | succ n ih =>
    intro h
    obtain ⟨i1, i2⟩ := ih fun k hk => h k (by omega)
    have hn := h n (by omega)
    rw [List.range_succ, List.foldl_append, Finset.sum_range_succ, i2]
    simp only [List.foldl_cons, List.foldl_nil]
    refine ⟨Nat.mul_pos i1 hn, ?_⟩
    rw [Nat.cast_mul, Real.logb_mul (by exact_mod_cast i1.ne') (by exact_mod_cast hn.ne')]
    unfold price
    push_cast
    ring

/-- what the stops charge for a bit -/
theorem stops_price {fb : Nat} (hfb : fb ≤ 7) (b : Bool) :
    ∑ k ∈ Finset.range (24 * 2 ^ fb + 1), price (sideOf b (stopAt fb k) : ℕ) ≤ 115 * 2 ^ fb := by
  have h := stops_products
  rw [List.all_eq_true] at h
  have h1 := h fb (by rw [List.mem_range]; omega)
  rw [List.all_eq_true] at h1
  have h2 := of_decide_eq_true (h1 b (by cases b <;> simp))
  obtain ⟨p1, p2⟩ := price_sum (fun k => sideOf b (stopAt fb k)) (24 * 2 ^ fb + 1) fun k hk => by
    have := (sideOf_ok (b := b) (stop_ok hfb hk)).1
    omega
  rw [p2]
  have h3 : ((2 ^ (31 * (24 * 2 ^ fb + 1) - 115 * 2 ^ fb) : ℕ) : ℝ) ≤ (stopsProduct fb b : ℕ) := by exact_mod_cast h2
  have h4 := Real.logb_le_logb_of_le (b := 2) (by norm_num) (by positivity) h3
  rw [Nat.cast_pow, Nat.cast_ofNat, logb_pow2] at h4
  have hp : 1 ≤ 2 ^ fb := Nat.one_le_two_pow
  rw [Nat.cast_sub (by omega)] at h4
  unfold stopsProduct at h4
  push_cast at h4 ⊢
  linarith

theorem range_count (p : Nat → Bool) (n : Nat) :
    ∑ c ∈ Finset.range n, ((if p c then 1 else 0 : ℕ) : ℝ) = ((List.range n).countP p : ℕ) := by
  induction n with
  | zero => simp
  | succ n ih =>
    rw [Finset.sum_range_succ, ih, List.range_succ, List.countP_append, List.countP_singleton]
    push_cast
    rfl

/-- the worth of a new map -/
theorem total_new {fb : Nat} {worth : Nat → Nat → ℝ} {contexts : Nat} {listed : Nat → Bool} {D : ℝ}
    (h : ∀ c, c < contexts → ∑ k ∈ Finset.range (24 * 2 ^ fb + 1), worth c (stopAt fb k) ≤
      D * ((if listed c then 1 else 0 : ℕ) : ℝ)) :
    total worth contexts (24 * 2 ^ fb + 1) (newAt contexts fb).mappings ≤ D * ((List.range contexts).countP listed : ℕ) := by
  unfold total
  rw [Finset.sum_product, ← range_count, Finset.mul_sum]
  refine Finset.sum_le_sum fun c hc => ?_
  rw [Finset.mem_range] at hc
  refine le_trans (le_of_eq (Finset.sum_congr rfl fun k hk => ?_)) (h c hc)
  rw [Finset.mem_range] at hk
  dsimp only
  rw [List.getD_eq_getElem?_getD, newAt_get hc hk]
  rfl

theorem potential_new {fb : Nat} (hfb : fb ≤ 7) (guess : Nat → Option Bool) (contexts : Nat) :
    potential guess contexts (24 * 2 ^ fb + 1) (newAt contexts fb).mappings ≤ 115 * 2 ^ fb * guessCount guess contexts := by
  refine total_new fun c _ => ?_
  unfold guessWorth
  cases guess c with
  | none => simp
  | some b =>
    simp only [Option.isSome_some, if_true, Nat.cast_one, mul_one]
    exact stops_price hfb b

theorem guessWorth_nonneg (guess : Nat → Option Bool) (c x : Nat) (h : EntryOk x) : 0 ≤ guessWorth guess c x := by
  unfold guessWorth
  cases guess c with
  | none => exact le_refl _
  | some b =>
    obtain ⟨h1, h2⟩ := sideOf_ok (b := b) h
    exact price_nonneg (by exact_mod_cast (show 0 < sideOf b x by omega))
      (by exact_mod_cast (show sideOf b x ≤ 2 ^ 31 by omega))

theorem potential_nonneg {guess : Nat → Option Bool} {contexts n : Nat} {es : List Nat}
    (hl : es.length = contexts * n) (h : ∀ x ∈ es, EntryOk x) : 0 ≤ potential guess contexts n es :=
  total_nonneg hl h (guessWorth_nonneg guess)

/-! ## Rounds -/

theorem bitLength_eq {p : Nat} (h0 : 0 < p) (h1 : p < 2 ^ 31) (bit : Bool) : bitLength p bit = price (sideOf bit p : ℕ) := by
  have hp : (0 : ℝ) < p := by exact_mod_cast h0
  unfold bitLength price sideOf
  cases bit
  · simp only [Bool.false_eq_true, if_false]
    rw [Real.logb_div hp.ne' (by norm_num), logb_pow2]
    push_cast
    ring
  · simp only [if_true]
    have h2 : (p : ℝ) < 2 ^ 31 := by exact_mod_cast h1
    rw [Nat.cast_sub h1.le, show (1 : ℝ) - p / 2 ^ 31 = (2 ^ 31 - p) / 2 ^ 31 by field_simp,
      Real.logb_div (by linarith) (by norm_num), logb_pow2, show ((2 ^ 31 : ℕ) : ℝ) = 2 ^ 31 by norm_num]
    push_cast
    ring

theorem round_cond {y : Nat} (h : 2 ≤ y) : ((y : ℝ) + 1) ^ 21 ≤ 2 ^ 31 * (y : ℝ) ^ 20 ∨ (2 : ℝ) ^ 30 ≤ y := by
  by_cases hb : (2 : ℝ) ^ 30 ≤ y
  · exact Or.inr hb
  · rw [not_le] at hb
    refine Or.inl ?_
    have hy : (2 : ℝ) ≤ y := by exact_mod_cast h
    rw [pow_succ _ 20]
    by_cases h2 : (y : ℝ) ≤ 100000
    · have h3 : (y : ℝ) + 1 ≤ 3 / 2 * y := by linarith
      have h4 : ((y : ℝ) + 1) ^ 20 ≤ (3 / 2 * y) ^ 20 := pow_le_pow_left₀ (by linarith) h3 20
      rw [mul_pow] at h4
      have h5 : ((y : ℝ) + 1) ^ 20 * (y + 1) ≤ (3 / 2) ^ 20 * (y : ℝ) ^ 20 * 100001 :=
        mul_le_mul h4 (by linarith) (by linarith) (by positivity)
      have h6 : (0 : ℝ) ≤ (y : ℝ) ^ 20 := by positivity
      have h7 : ((3 : ℝ) / 2) ^ 20 * 100001 ≤ 2 ^ 31 := by norm_num
      nlinarith
    · rw [not_le] at h2
      have h3 : (y : ℝ) + 1 ≤ 100001 / 100000 * y := by linarith
      have h4 : ((y : ℝ) + 1) ^ 20 ≤ (100001 / 100000 * y) ^ 20 := pow_le_pow_left₀ (by linarith) h3 20
      rw [mul_pow] at h4
      have h5 : ((y : ℝ) + 1) ^ 20 * (y + 1) ≤ (100001 / 100000) ^ 20 * (y : ℝ) ^ 20 * (2 ^ 30 + 1) :=
        mul_le_mul h4 (by linarith) (by linarith) (by positivity)
      have h6 : (0 : ℝ) ≤ (y : ℝ) ^ 20 := by positivity
      have h7 : ((100001 : ℝ) / 100000) ^ 20 * (2 ^ 30 + 1) ≤ 2 ^ 31 := by norm_num
      nlinarith

/-- the refined probability costs little more than the exact interpolation -/
theorem blend_price {b : Bool} {L R w : Nat} (hL : EntryOk L) (hR : EntryOk R) (hw : w < 2 ^ 31) :
    bitLength (blend L R w) b ≤ 21 / 20 * price (exactBlend b L R w) + 1 / 2 ^ 29 := by
  obtain ⟨h1, h2, h3⟩ := exactBlend_bounds (b := b) hL hR hw
  obtain ⟨b1, b2⟩ := blend_bounds hL hR hw
  rw [bitLength_eq (by omega) (by omega)]
  have h4 := (abs_le.mp h3).1
  by_cases hs : 2 ≤ sideOf b (blend L R w)
  · exact price_round (by exact_mod_cast (show 0 < sideOf b (blend L R w) by omega)) (by norm_num) (by linarith)
      (by linarith) h2 (by exact_mod_cast round_cond hs)
  · -- a single unit is left
    have hs1 : sideOf b (blend L R w) = 1 := by
      unfold sideOf at hs ⊢
      split at hs <;> split <;> omega
    rw [hs1] at h4 ⊢
    push_cast at h4 ⊢
    have h5 : price (exactBlend b L R w) ≥ price 2 := price_anti (by linarith) (by linarith)
    have e2 : price 2 = 30 := by unfold price; rw [Real.logb_self_eq_one (by norm_num)]; norm_num
    have e1 : price 1 = 31 := by unfold price; simp
    rw [e1]
    norm_num
    linarith

/-- a sequence of rounds -/
theorem learn_run {fb contexts rate : Nat} (hfb : fb ≤ 7) (hr : 2 ≤ rate) (hr2 : rate < 30) :
    ∀ (rounds : List LearnRound) (a : Apm), ApmInv fb contexts false a →
    (∀ r ∈ rounds, r.context < contexts ∧ Belongs stretchTable squashTable fb r.sq r.st) →
    ∃ ps a', apmCalls (lutAt fb) a (rounds.flatMap (LearnRound.calls rate)) = some (ps, a') ∧
      ps.length = rounds.length ∧ ApmInv fb contexts false a' ∧
      ∀ guess, (List.zipWith (fun p r => bitLength p r.bit) ps rounds).sum ≤
        21 / 20 * (2 ^ (rate + 1) * (potential guess contexts (24 * 2 ^ fb + 1) a.mappings -
            potential guess contexts (24 * 2 ^ fb + 1) a'.mappings) + 38 * missCount guess rounds) +
          rounds.length * (2 ^ rate / 2 ^ 22) := by
  intro rounds
  induction rounds with
  | nil =>
    intro a ha _
    refine ⟨[], a, rfl, rfl, ha, fun guess => ?_⟩
    simp [missCount]
  | cons r rounds ih =>
    intro a ha hrs
    obtain ⟨hc, hb⟩ := hrs r (by simp)
    obtain ⟨i, w, h1, h2, -, -, -, h3⟩ := refine_eq hfb hb hc
    obtain ⟨L, R, hL, hR, oL, oR, h4⟩ := h3 a ha.ok (ha.idle rfl)
    obtain ⟨wl, hwl⟩ : ∃ wl, wl = leftWeight r.fixed (2 ^ 31 - w) := ⟨_, rfl⟩
    have h5 := update_closed (a := { a with saved := (i : Int), savedWeight := 2 ^ 31 - w }) (bit := r.bit) (fixed := r.fixed)
      (c := r.context) (rate := rate) (wl := wl) ⟨ha.ok.bits, ha.ok.ctx, ha.ok.len, ha.ok.entries⟩ h1 rfl hc hwl
      (by dsimp only; omega) (by dsimp only; omega) hr hr2 hL hR
    have hwl2 : wl ≤ 2 ^ 31 := by rw [hwl]; unfold leftWeight; split <;> omega
    obtain ⟨a1, ha1⟩ : ∃ a1 : Apm, a1 = { a with
        mappings := (a.mappings.set (r.context * (24 * 2 ^ fb + 1) + i) (learned r.bit wl rate L)).set
          (r.context * (24 * 2 ^ fb + 1) + (i + 1)) (learned r.bit (2 ^ 31 - wl) rate R)
        saved := -1, savedWeight := 2 ^ 31 - w } := ⟨_, rfl⟩
    have hinv : ApmInv fb contexts false a1 := by
      have := set_ok ha.ok (i := r.context * (24 * 2 ^ fb + 1) + i) (j := r.context * (24 * 2 ^ fb + 1) + (i + 1))
        (learned_ok (bit := r.bit) hwl2 hr oL) (learned_ok (bit := r.bit) (w := 2 ^ 31 - wl) (by omega) hr oR) (-1)
      rw [ha1]
      exact ⟨⟨this.bits, this.ctx, this.len, this.entries⟩, fun _ => rfl, fun h => by cases h⟩
    obtain ⟨ps, a', k1, k2, k3, k4⟩ := ih a1 hinv fun x hx => hrs x (by simp [hx])
    refine ⟨blend L R w :: ps, a', ?_, by simp [k2], k3, fun guess => ?_⟩
    · rw [List.flatMap_cons, LearnRound.calls, List.cons_append, List.cons_append, List.nil_append, apmCalls, h4, ob_some]
      dsimp only
      rw [apmCalls, h5, ob_some]
      dsimp only
      rw [← ha1, k1, ob_some]
    · have hk := k4 guess
      have hstep := learn_step (guess := guess) (fb := fb) (contexts := contexts) (w := w) (wl := wl) r.bit hr hr2 hc h1 h2
        (by rw [hwl]; unfold leftWeight; split <;> simp) hL hR oL oR
      rw [show (a.mappings.set (r.context * (24 * 2 ^ fb + 1) + i) (learned r.bit wl rate L)).set
          (r.context * (24 * 2 ^ fb + 1) + (i + 1)) (learned r.bit (2 ^ 31 - wl) rate R) = a1.mappings by rw [ha1]] at hstep
      have hblend := blend_price (b := r.bit) oL oR h2
      have hfl : (if wl = 2 ^ 30 then floorPrice rate else 2 ^ rate / 2 ^ 23) ≤ (2 : ℝ) ^ rate / 2 ^ 23 := by
        split
        · refine le_trans (floorPrice_le hr2) ?_
          exact div_le_div_of_nonneg_left (by positivity) (by norm_num) (by norm_num)
        · exact le_refl _
      have h29 : (1 : ℝ) / 2 ^ 29 ≤ 1 / 4 * (2 ^ rate / 2 ^ 23) := by
        have : (1 : ℝ) ≤ 2 ^ rate := one_le_pow₀ (by norm_num)
        rw [div_le_iff₀ (by norm_num)]
        have e : (1 : ℝ) / 4 * (2 ^ rate / 2 ^ 23) * 2 ^ 29 = 16 * 2 ^ rate := by ring
        rw [e]
        linarith
      have hmc : (missCount guess (r :: rounds) : ℝ) =
          missCount guess rounds + (if guess r.context = some r.bit then 0 else 1) := by
        unfold missCount
        rw [List.countP_cons]
        by_cases hg : guess r.context = some r.bit
        · simp [hg]
        · simp [hg]
      have h38 : (if guess r.context = some r.bit then (0 : ℝ) else 38) =
          38 * (if guess r.context = some r.bit then 0 else 1) := by split <;> norm_num
      rw [h38] at hstep
      simp only [List.zipWith_cons_cons, List.sum_cons, List.length_cons]
      rw [hmc]
      push_cast
      have e22 : (2 : ℝ) ^ rate / 2 ^ 22 = 2 * (2 ^ rate / 2 ^ 23) := by ring
      rw [e22] at hk ⊢
      have hp : (0 : ℝ) ≤ 2 ^ rate / 2 ^ 23 := by positivity
      linarith

/-! ## C77 -/

/-- **C77 (maps).** Refining and learning in turn, a map of up to seven fractional index bits pays for any sequence of
contexts, probabilities and bits - whatever the given probabilities are - nearly as little as a list of guesses, one for
every context that is listed: at most a fixed amount for each listed context, 40 bits for every round without a guess or
with a wrong one, and next to nothing for the others. -/
theorem C77_map (lut : List (List Int)) (table : List Nat) (al : ApmLut) (a : Apm) (fb contexts rate : Nat)
    (hfb : fb ≤ 7) (hlut : stretchLutNew = some lut) (htab : squashLutNew lut = some table)
    (hal : apmLutNew fb table = some al) (ha : apmNew contexts fb table = some a) (hr : 2 ≤ rate) (hr2 : rate < 30)
    (rounds : List LearnRound) (hrs : ∀ r ∈ rounds, r.context < contexts ∧ Belongs lut table fb r.sq r.st) :
    ∃ ps a', apmCalls al a (rounds.flatMap (LearnRound.calls rate)) = some (ps, a') ∧ ps.length = rounds.length ∧
      ∀ guess : Nat → Option Bool, (List.zipWith (fun p r => bitLength p r.bit) ps rounds).sum ≤
        121 * 2 ^ fb * 2 ^ (rate + 1) * guessCount guess contexts + 40 * missCount guess rounds +
          rounds.length * (2 ^ rate / 2 ^ 22) := by
  obtain ⟨rfl, rfl, rfl, rfl⟩ := tables_eq hfb hlut htab hal ha
  obtain ⟨ps, a', h1, h2, h3, h4⟩ := learn_run hfb hr hr2 rounds _ (new_apm (contexts := contexts) hfb) hrs
  refine ⟨ps, a', h1, h2, fun guess => ?_⟩
  have h5 := h4 guess
  have h6 := potential_new hfb guess contexts
  have h7 := potential_nonneg (guess := guess) h3.ok.len h3.ok.entries
  have hq : (0 : ℝ) ≤ 2 ^ (rate + 1) := by positivity
  have h8 := mul_le_mul_of_nonneg_left h6 hq
  have h9 := mul_nonneg hq h7
  have hm : (0 : ℝ) ≤ missCount guess rounds := Nat.cast_nonneg _
  have h10 : (0 : ℝ) ≤ 2 ^ (rate + 1) * (115 * 2 ^ fb * guessCount guess contexts) := by positivity
  have e : 121 * 2 ^ fb * 2 ^ (rate + 1) * (guessCount guess contexts : ℝ) =
    121 / 115 * (2 ^ (rate + 1) * (115 * 2 ^ fb * guessCount guess contexts)) := by ring
  rw [e]
  rw [mul_sub] at h5
  nlinarith

/-- a million ones, each announced with a probability of 70 percent for a zero, cost at most 15 496 bits together -/
example : ∃ ps a', apmCalls (lutAt 1) (newAt 2 1)
      ((List.replicate 1000000 (⟨1, 1500000000, 1761874, true, true⟩ : LearnRound)).flatMap (LearnRound.calls 5)) = some (ps, a') ∧
    (List.zipWith (fun p r => bitLength p r.bit) ps
      (List.replicate 1000000 (⟨1, 1500000000, 1761874, true, true⟩ : LearnRound))).sum ≤ 15496 := by
  obtain ⟨ps, a', h1, -, h2⟩ := C77_map stretchTable squashTable (lutAt 1) (newAt 2 1) 1 2 5 (by omega) stretchLut_eq
    (squashLut_eq stretchTable_ok) (apmLut_eq (by omega)) (apmNew_eq (by omega) 2) (by omega) (by omega)
    (List.replicate 1000000 ⟨1, 1500000000, 1761874, true, true⟩) (fun r hr => by
      rw [(List.mem_replicate.mp hr).2]
      exact ⟨by norm_num, example_belongs⟩)
  refine ⟨ps, a', h1, (h2 fun c => if c = 1 then some true else none).trans ?_⟩
  have hg : guessCount (fun c => if c = 1 then some true else none) 2 = 1 := by decide
  have hm : missCount (fun c => if c = 1 then some true else none)
      (List.replicate 1000000 (⟨1, 1500000000, 1761874, true, true⟩ : LearnRound)) = 0 := by
    unfold missCount
    rw [List.countP_eq_zero]
    intro r hr
    rw [(List.mem_replicate.mp hr).2]
    simp
  rw [hg, hm, List.length_replicate]
  norm_num

end Verif.Mix
