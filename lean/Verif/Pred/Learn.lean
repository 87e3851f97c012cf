import Verif.Pred.LearnSpec
import Verif.Mix.ProbProps

/-! # Lemmas about what the last stage pays while it learns -/

namespace Verif.Pred

open Verif Verif.Fixed Verif.Lut Verif.Mix Verif.Util Verif.History Verif.Tree Verif.Bits

attribute [local irreducible] squashTable stretchTable

/-! ## One map -/

/-- a map pays for the bit, up to one unit of rounding -/
def Paid (a a' : Apm) (c : Nat) (bit : Bool) (p : Nat) : Prop :=
  ∃ e : ℝ, 2 ≤ e ∧ e ≤ 2 ^ 31 ∧ |((sideOf bit p : ℕ) : ℝ) - e| ≤ 1 ∧
    ∀ y : Payer, price e ≤ 64 * (total y.worth 65536 25 a.mappings - total y.worth 65536 25 a'.mappings) +
      y.charge c bit + 1 / 2 ^ 24

theorem apm_round {a : Apm} (ha : ApmInv 0 65536 false a) {c sq : Nat} {st : Int}
    (hb : Belongs stretchTable squashTable 0 sq st) (hc : c < 65536) :
    ∃ p a1, refine a c sq st (lutAt 0) = some (p, a1) ∧ 2 ≤ p ∧ p < 2 ^ 31 ∧
      ∀ bit a2, updatePredictions a1 c bit 5 true = some a2 → Paid a a2 c bit p := by
  obtain ⟨i, w, h1, h2, -, -, -, h3⟩ := refine_eq (fb := 0) (by omega) hb hc
  obtain ⟨L, R, hL, hR, oL, oR, h4⟩ := h3 a ha.ok (ha.idle rfl)
  have hbl := blend_bounds oL oR h2
  refine ⟨_, _, h4, by omega, by omega, fun bit a2 h => ?_⟩
  have h5 := update_closed (a := { a with saved := (i : Int), savedWeight := 2 ^ 31 - w }) (bit := bit) (fixed := true)
    (c := c) (rate := 5) (wl := 2 ^ 30) (fb := 0) (contexts := 65536) ⟨ha.ok.bits, ha.ok.ctx, ha.ok.len, ha.ok.entries⟩ h1 rfl hc rfl
    (by dsimp only; omega) (by dsimp only; omega) (by omega) (by omega) hL hR
  rw [h] at h5
  obtain ⟨e1, e2, e3⟩ := exactBlend_bounds (b := bit) oL oR h2
  refine ⟨exactBlend bit L R w, e1, e2, e3, fun y => ?_⟩
  have hs := y.pays c w L R bit h2 oL oR
  have hm : a2.mappings = (a.mappings.set (c * (24 * 2 ^ 0 + 1) + i) (learned bit (2 ^ 30) 5 L)).set
      (c * (24 * 2 ^ 0 + 1) + (i + 1)) (learned bit (2 ^ 31 - 2 ^ 30) 5 R) := by
    rw [Option.some.inj h5]
  rw [← total_set (es := a.mappings) (worth := y.worth) (contexts := 65536) (n := 24 * 2 ^ 0 + 1) hc (by omega) hL hR,
    ← hm] at hs
  exact hs

/-! ## The last stage -/

/-- the probability of a bit, in units of `2^-23` -/
def side23 (b : Bool) (f : Nat) : Nat := if b then 2 ^ 23 - f else f

theorem toFinal_eq {p : Nat} (hp : p < 2 ^ 31) {q : Nat} (h : toFixU 32 fractOnlyU32 finalProbability p = some q) :
    q = max (min ((p + 128) / 256) (2 ^ 23 - 1)) 1 := by
  unfold toFixU at h
  rw [if_pos (by decide)] at h
  rw [show fractOnlyU32.frac - finalProbability.frac = 8 by decide,
    scaledDownU_nosat (by norm_num) (by norm_num) (by omega), ob_some] at h
  unfold finalProbability Coding.FinalProbability.newUnchecked at h
  dsimp only at h
  rw [check_pos (by omega), ob_some] at h
  exact (Option.some.inj h).symm

/-- the final probability follows the average of the three maps -/
theorem final_side {p1 p2 p3 q : Nat} {bit : Bool} {e1 e2 e3 : ℝ} (h1 : 2 ≤ p1) (h2 : 2 ≤ p2) (h3 : 2 ≤ p3)
    (l1 : p1 < 2 ^ 31) (l2 : p2 < 2 ^ 31) (l3 : p3 < 2 ^ 31)
    (hq : q = max (min (((p1 + p2 * 2 + p3 + 2) / 4 + 128) / 256) (2 ^ 23 - 1)) 1)
    (d1 : |((sideOf bit p1 : ℕ) : ℝ) - e1| ≤ 1) (d2 : |((sideOf bit p2 : ℕ) : ℝ) - e2| ≤ 1)
    (d3 : |((sideOf bit p3 : ℕ) : ℝ) - e3| ≤ 1) :
    1 ≤ side23 bit q ∧ e1 / 4 + e2 / 2 + e3 / 4 ≤ 256 * (side23 bit q : ℕ) + 258 := by
  have hN : sideOf bit p1 + 2 * sideOf bit p2 + sideOf bit p3 ≤ 4 * (256 * side23 bit q) + 1026 := by
    unfold sideOf side23
    cases bit
    · simp only [Bool.false_eq_true, if_false]
      omega
    · simp only [if_true]
      omega
  constructor
  · unfold side23
    split <;> omega
  · have hR : ((sideOf bit p1 : ℕ) : ℝ) + 2 * (sideOf bit p2 : ℕ) + (sideOf bit p3 : ℕ) ≤
        4 * (256 * (side23 bit q : ℕ)) + 1026 := by exact_mod_cast hN
    have a1 := (abs_le.mp d1).1
    have a2 := (abs_le.mp d2).1
    have a3 := (abs_le.mp d3).1
    linarith

theorem final_cond {s : Nat} (h : 1 ≤ s) :
    (256 * (s : ℝ) + 258) ^ 21 ≤ 2 ^ 31 * (256 * (s : ℝ)) ^ 20 ∨ (2 : ℝ) ^ 30 ≤ 256 * s := by
  by_cases hb : (2 : ℝ) ^ 30 ≤ 256 * s
  · exact Or.inr hb
  · rw [not_le] at hb
    refine Or.inl ?_
    have hy : (1 : ℝ) ≤ s := by exact_mod_cast h
    by_cases hs1 : s = 1
    · subst hs1
      norm_num
    · have hy2 : (2 : ℝ) ≤ s := by exact_mod_cast (show 2 ≤ s by omega)
      rw [pow_succ _ 20]
      have h6 : (0 : ℝ) ≤ (256 * (s : ℝ)) ^ 20 := by positivity
      by_cases h2 : (s : ℝ) ≤ 2000
      · have h3 : 256 * (s : ℝ) + 258 ≤ 1504 / 1000 * (256 * s) := by linarith
        have h4 : (256 * (s : ℝ) + 258) ^ 20 ≤ (1504 / 1000 * (256 * s)) ^ 20 := pow_le_pow_left₀ (by linarith) h3 20
        rw [mul_pow] at h4
        have h5 : (256 * (s : ℝ) + 258) ^ 20 * (256 * s + 258) ≤ (1504 / 1000) ^ 20 * (256 * (s : ℝ)) ^ 20 * 512258 :=
          mul_le_mul h4 (by linarith) (by linarith) (by positivity)
        have h7 : ((1504 : ℝ) / 1000) ^ 20 * 512258 ≤ 2 ^ 31 := by norm_num
        nlinarith
      · rw [not_le] at h2
        have h3 : 256 * (s : ℝ) + 258 ≤ 1001 / 1000 * (256 * s) := by linarith
        have h4 : (256 * (s : ℝ) + 258) ^ 20 ≤ (1001 / 1000 * (256 * s)) ^ 20 := pow_le_pow_left₀ (by linarith) h3 20
        rw [mul_pow] at h4
        have h5 : (256 * (s : ℝ) + 258) ^ 20 * (256 * s + 258) ≤ (1001 / 1000) ^ 20 * (256 * (s : ℝ)) ^ 20 * (2 ^ 30 + 258) :=
          mul_le_mul h4 (by linarith) (by linarith) (by positivity)
        have h7 : ((1001 : ℝ) / 1000) ^ 20 * (2 ^ 30 + 258) ≤ 2 ^ 31 := by norm_num
        nlinarith

/-- what the coder loses by rounding -/
noncomputable def bitLoss (f : Nat) (b : Bool) : ℝ := if b then 0 else Real.logb 2 (1 + 1 / (f : ℝ))

theorem chance_price {f : Nat} (h0 : 0 < f) (h1 : f < 2 ^ 23) (b : Bool) :
    -Real.logb 2 (chance f b) = price (256 * (side23 b f : ℕ)) := by
  have hp : (0 : ℝ) < f := by exact_mod_cast h0
  have hp2 : (f : ℝ) < 2 ^ 23 := by exact_mod_cast h1
  unfold chance price side23
  rw [show (256 : ℝ) = 2 ^ 8 by norm_num]
  cases b
  · simp only [Bool.false_eq_true, if_false]
    rw [Real.logb_div hp.ne' (by norm_num), Real.logb_mul (by norm_num) hp.ne', logb_pow2, logb_pow2]
    push_cast
    ring
  · simp only [if_true]
    have hs : ((2 ^ 23 - f : ℕ) : ℝ) = 2 ^ 23 - f := by
      rw [Nat.cast_sub (by omega)]; norm_num
    rw [hs, show (1 : ℝ) - f / 2 ^ 23 = (2 ^ 23 - f) / 2 ^ 23 by field_simp,
      Real.logb_div (by linarith) (by norm_num), Real.logb_mul (by norm_num) (by linarith), logb_pow2, logb_pow2]
    push_cast
    ring

/-- the cost of a bit, in terms of the three maps -/
theorem final_price {f : Nat} (f0 : 0 < f) (f1 : f < 2 ^ 23) {bit : Bool} {e1 e2 e3 : ℝ} (a1 : 2 ≤ e1) (a2 : 2 ≤ e2)
    (a3 : 2 ≤ e3) (b1 : e1 ≤ 2 ^ 31) (b2 : e2 ≤ 2 ^ 31) (b3 : e3 ≤ 2 ^ 31) (hs : 1 ≤ side23 bit f)
    (h : e1 / 4 + e2 / 2 + e3 / 4 ≤ 256 * (side23 bit f : ℕ) + 258) :
    -Real.logb 2 (chance f bit) ≤ 21 / 20 * (price e1 / 4 + price e2 / 2 + price e3 / 4) + 258 / 2 ^ 29 ∧
    bitLoss f bit ≤ 1 / 20 * (price e1 / 4 + price e2 / 2 + price e3 / 4) + 258 / 2 ^ 29 := by
  have hpos : (1 : ℝ) ≤ (side23 bit f : ℕ) := by exact_mod_cast hs
  have m1 := price_mix (x := e1) (y := e3) (w := 1 / 2) (by linarith) (by linarith) (by norm_num) (by norm_num)
  have m2 := price_mix (x := (1 - 1 / 2) * e1 + 1 / 2 * e3) (y := e2) (w := 1 / 2) (by linarith) (by linarith)
    (by norm_num) (by norm_num)
  have ee : (1 - 1 / 2) * ((1 - 1 / 2) * e1 + 1 / 2 * e3) + 1 / 2 * e2 = e1 / 4 + e2 / 2 + e3 / 4 := by ring
  rw [ee] at m2
  have hm : price (e1 / 4 + e2 / 2 + e3 / 4) ≤ price e1 / 4 + price e2 / 2 + price e3 / 4 := by linarith
  have hc := final_cond hs
  constructor
  · rw [chance_price f0 f1]
    have := price_round (y := 256 * (side23 bit f : ℕ)) (d := 258) (by linarith) (by norm_num)
      (show 0 < e1 / 4 + e2 / 2 + e3 / 4 by linarith) h (by linarith) hc
    linarith
  · have := round_loss (y := 256 * (side23 bit f : ℕ)) (d := 258) (by linarith) (by norm_num)
      (show 0 < e1 / 4 + e2 / 2 + e3 / 4 by linarith) h (by linarith) hc
    have hb : bitLoss f bit ≤ Real.logb 2 ((256 * (side23 bit f : ℕ) + 258) / (256 * (side23 bit f : ℕ))) := by
      unfold bitLoss
      cases bit
      · simp only [Bool.false_eq_true, if_false]
        unfold side23 at hpos ⊢
        simp only [Bool.false_eq_true, if_false] at hpos ⊢
        refine Real.logb_le_logb_of_le (by norm_num) (by positivity) ?_
        rw [show (256 * (f : ℝ) + 258) / (256 * f) = 1 + 258 / 256 * (1 / f) by field_simp]
        have : (0 : ℝ) ≤ 1 / f := by positivity
        linarith
      · simp only [if_true]
        refine Real.logb_nonneg (by norm_num) ?_
        rw [one_le_div (by linarith)]
        linarith
    linarith

/-! ## One bit -/

/-- the three maps pay for a bit -/
structure BitPaid (f f' : Finalizer) (h1 h2 h3 : Nat) (bit : Bool) (p : Nat) : Prop where
  low : 0 < p
  high : p < 2 ^ 23
  pays : ∃ e1 e2 e3 : ℝ, (2 ≤ e1 ∧ e1 ≤ 2 ^ 31) ∧ (2 ≤ e2 ∧ e2 ≤ 2 ^ 31) ∧ (2 ≤ e3 ∧ e3 ≤ 2 ^ 31) ∧
    1 ≤ side23 bit p ∧ e1 / 4 + e2 / 2 + e3 / 4 ≤ 256 * (side23 bit p : ℕ) + 258 ∧
    (∀ y : Payer, price e1 ≤ 64 * (total y.worth 65536 25 f.order1.mappings - total y.worth 65536 25 f'.order1.mappings) +
      y.charge h1 bit + 1 / 2 ^ 24) ∧
    (∀ y : Payer, price e2 ≤ 64 * (total y.worth 65536 25 f.order2.mappings - total y.worth 65536 25 f'.order2.mappings) +
      y.charge h2 bit + 1 / 2 ^ 24) ∧
    (∀ y : Payer, price e3 ≤ 64 * (total y.worth 65536 25 f.order3.mappings - total y.worth 65536 25 f'.order3.mappings) +
      y.charge h3 bit + 1 / 2 ^ 24)

/-- refining and updating of the last stage -/
theorem light_round {t : Tables} (ht : TablesOk t) {f : Finalizer} {r : Prob} (hr : MixedOk t r) {lb : LB}
    (hlb : LbOk lb) (h : FinOk t .light none f) {h1 h2 h3 : Nat} (g1 : lbHash01 lb = some h1) (g3 : lbHash02 lb = some h2)
    (g5 : lbHash03 lb = some h3) {p : Nat} {f1 f2 : Finalizer} {bit : Bool}
    (e1 : refineLight t f r.1 r.2 lb = some (p, f1)) (e2 : updateLight f1 bit lb = some f2) :
    BitPaid f f2 h1 h2 h3 bit p := by
  have g2 : h1 < 65536 := by
    obtain ⟨x, a, b⟩ := hlb.h1
    rw [g1] at a
    obtain rfl := Option.some.inj a
    exact b
  have g4 : h2 < 65536 := by
    obtain ⟨x, a, b⟩ := hlb.h2
    rw [g3] at a
    obtain rfl := Option.some.inj a
    exact b
  have g6 : h3 < 65536 := by
    obtain ⟨x, a, b⟩ := hlb.h3
    rw [g5] at a
    obtain rfl := Option.some.inj a
    exact b
  obtain ⟨p0, mix, a0, e0, -, -, hm, k0⟩ := phase0_ok ht hr hlb (h.order0 (by decide))
  obtain ⟨p1, a1, r1, b1, c1, k1⟩ := apm_round (h.order1 (by decide)) hm g2
  obtain ⟨p2, a2, r2, b2, c2, k2⟩ := apm_round (h.order2 (by decide)) hm g4
  obtain ⟨p3, a3, r3, b3, c3, k3⟩ := apm_round (h.order3 (by decide)) hm g6
  obtain ⟨q1, q2, q3⟩ := quarter_ok (sum := p1 + p2 * 2 + p3) (by omega) (by omega)
  obtain ⟨p', s1, s2, s3⟩ := toFinal_ok q3
  have e1' : refineLight t f r.1 r.2 lb =
      some (p', { f with order0 := a0, order1 := a1, order2 := a2, order3 := a3 }) := by
    unfold refineLight
    rw [e0, ob_some]
    dsimp only
    rw [apmLut_ok ht, ob_some, g1, ob_some, r1, ob_some]
    dsimp only
    rw [g3, ob_some, r2, ob_some]
    dsimp only
    rw [g5, ob_some, r3, ob_some]
    dsimp only
    rw [q1, ob_some, s1, ob_some]
  rw [e1] at e1'
  obtain ⟨rfl, rfl⟩ := Prod.mk.inj (Option.some.inj e1')
  obtain ⟨u, u1, -⟩ := hlb.u
  unfold updateLight at e2
  dsimp only at e2
  rw [u1, ob_some, g1, g3, g5] at e2
  cases v0 : updatePredictions a0 u bit 5 true with
  | none => rw [v0] at e2; cases e2
  | some z0 =>
    rw [v0, ob_some, ob_some] at e2
    cases v1 : updatePredictions a1 h1 bit 5 true with
    | none => rw [v1] at e2; cases e2
    | some z1 =>
      rw [v1, ob_some, ob_some] at e2
      cases v2 : updatePredictions a2 h2 bit 5 true with
      | none => rw [v2] at e2; cases e2
      | some z2 =>
        rw [v2, ob_some, ob_some] at e2
        cases v3 : updatePredictions a3 h3 bit 5 true with
        | none => rw [v3] at e2; cases e2
        | some z3 =>
          rw [v3, ob_some] at e2
          obtain rfl := Option.some.inj e2
          obtain ⟨e1, x1, y1, d1, w1⟩ := k1 bit z1 v1
          obtain ⟨e2, x2, y2, d2, w2⟩ := k2 bit z2 v2
          obtain ⟨e3, x3, y3, d3, w3⟩ := k3 bit z3 v3
          obtain ⟨t1, t2⟩ := final_side (bit := bit) b1 b2 b3 c1 c2 c3 (toFinal_eq q3 s1) d1 d2 d3
          exact ⟨s2, s3, e1, e2, e3, ⟨x1, y1⟩, ⟨x2, y2⟩, ⟨x3, y3⟩, t1, t2, w1, w2, w3⟩

theorem hash_one (before : List (List Bool)) (part : List Bool) :
    contextHash 1 before part = 2 ^ (8 + part.length) + (prevByte 1 before * 2 ^ part.length + val part) := by
  unfold contextHash
  exact if_pos rfl

theorem hash_two (before : List (List Bool)) (part : List Bool) :
    contextHash 2 before part = fnvSpec [prevByte 2 before, prevByte 1 before, enc part] := by
  unfold contextHash
  rw [if_neg (by omega), if_pos rfl]

theorem hash_three (before : List (List Bool)) (part : List Bool) :
    contextHash 3 before part = fnvSpec [prevByte 3 before, prevByte 2 before, prevByte 1 before, enc part] := by
  unfold contextHash
  rw [if_neg (by omega), if_neg (by omega)]

/-- the number of the context at bit `8 n + j` of `x` -/
def hashAt (order : Nat) (x : Nat → Bool) (L : Nat) : Nat :=
  contextHash order ((List.range (L / 8)).map fun k => seg x k 8) (seg x (L / 8) (L % 8))

theorem hash_seg (x : Nat → Bool) (n : Nat) {j : Nat} (hj : j < 8) :
    lbHash01 (stateOf (seg x 0 (8 * n)) (seg x n j)) = some (hashAt 1 x (8 * n + j)) ∧
    lbHash02 (stateOf (seg x 0 (8 * n)) (seg x n j)) = some (hashAt 2 x (8 * n + j)) ∧
    lbHash03 (stateOf (seg x 0 (8 * n)) (seg x n j)) = some (hashAt 3 x (8 * n + j)) := by
  have h8 : ∀ b ∈ (List.range n).map fun k => seg x k 8, b.length = 8 := by
    intro b hb
    obtain ⟨k, -, rfl⟩ := List.mem_map.mp hb
    simp
  have hp : (seg x n j).length < 8 := by simpa using hj
  have hrun : lbRun lbNew (partCalls ((List.range n).map fun k => seg x k 8) (seg x n j)) =
      some (stateOf (seg x 0 (8 * n)) (seg x n j)) := by
    unfold partCalls
    have := lbFull_state ((List.range n).map fun k => seg x k 8) [] h8
    rw [lbRun_append, show lbNew = idleOf [] from rfl, this, Option.bind_some, List.nil_append, lbRun,
      lbStep, lbStart_state, ob_some, lbBits_state _ (seg x n j) [] (by simp; omega), List.nil_append, seg_bytes]
  obtain ⟨s, e, -, -, -, -, k1, k2, k3⟩ := C22_history _ _ h8 hp
  rw [hrun] at e
  obtain rfl := Option.some.inj e
  unfold hashAt
  rw [show (8 * n + j) / 8 = n by omega, show (8 * n + j) % 8 = j by omega, hash_one, hash_two, hash_three]
  exact ⟨k1, k2, k3⟩

section

variable {t : Tables} (ht : TablesOk t) {W maxOrder : Nat} (hW : W ≤ 2 ^ 31) (hW0 : 0 < W)
  (hM : maxOrder ≤ 8191) {x : Nat → Bool}

include ht hW hW0 hM

/-- one bit of the predictor -/
theorem light_step {L S j : Nat} {fs : List Nat} {p : Predictor} (hn : L + S < 2 ^ 40)
    (h : ReadyAt t .light W maxOrder x L S j fs p) :
    ∃ f p1 p2, predPredict t .light p = some (f, p1) ∧ predUpdate t .light p1 (x L) = some p2 ∧
      PhaseAt t .light W maxOrder x (L + 1) S (fs ++ [f]) (if j = 7 then .idle else .ready (j + 1)) p2 ∧
      BitPaid p.finalizer p2.finalizer (hashAt 1 x L) (hashAt 2 x L) (hashAt 3 x L) (x L) f := by
  obtain ⟨f, p1, e1, f0, f1, hp1⟩ := predict_step ht hW hW0 hM h
  obtain ⟨p2, e2, hp2⟩ := update_step ht hW hW0 hM hn hp1
  refine ⟨f, p1, p2, e1, e2, hp2, ?_⟩
  obtain ⟨⟨-, hlen', -⟩, hq, ⟨n, -, hL, hj, hlb, hs⟩, -⟩ := h
  obtain ⟨k1, k2, -⟩ := lb_seg x n hj
  obtain ⟨g1, g2, g3⟩ := hash_seg x n hj
  rw [← hL] at g1 g2 g3
  rw [← hlb] at k1 k2 g1 g2 g3
  -- the parts of the prediction
  obtain ⟨states, s1, s2, -⟩ := srcGather_ok hM hj hs (fun _ _ _ _ => trivial)
  have s2' : WindowGather (fun _ _ => CostsOk) t.costs (L < 8 * W) maxOrder (windowed W (seg x 0 L)) states := by
    have hex : (n + 1 - W = 0) = (L < 8 * W) := by rw [eq_iff_iff]; omega
    rw [windowed_seg, show L / 8 = n by omega, ← hex, hL]
    exact s2
  have hlen : states.length ≤ maxOrder + 1 := by
    by_contra hc
    have := (s2'.lt_length (maxOrder + 1)).mp (by omega)
    omega
  have hu : ∀ s ∈ states, Usable s := by
    intro s hs
    obtain ⟨i, hi, rfl⟩ := List.getElem_of_mem hs
    exact (usable_of ht (s2'.get (List.getElem?_eq_getElem hi)).2.2).1
  have henc : enc (seg x n j) < 256 := by
    have := enc_lt (seg x n j)
    have h2 : 2 ^ ((seg x n j).length + 1) ≤ 2 ^ 8 := Nat.pow_le_pow_right (by omega) (by simpa using hj)
    omega
  obtain ⟨r, os', c1, c2, -, -⟩ := chainPredict_ok ht henc hq.chain (by omega) hu
    (nodesFirst_of fun i s s' h1 h2 h3 => s2'.antitone h1 h2 h3)
  unfold predPredict at e1
  rw [check_pos hq.final, ob_some, s1, ob_some] at e1
  by_cases hmo : states.length ≤ p.maxOrder + 1
  · rw [check_pos hmo, ob_some, k2, ob_some, c1, ob_some] at e1
    dsimp only at e1
    have hres := hq.fin.result
    rw [if_neg (by simp)] at hres
    unfold finalizerRefine at e1
    rw [check_pos hres, ob_some] at e1
    dsimp only at e1
    cases hl : refineLight t p.finalizer r.1 r.2 p.lastBytes with
    | none => rw [hl] at e1; cases e1
    | some y =>
      obtain ⟨f', fin⟩ := y
      rw [hl, ob_some] at e1
      obtain ⟨rfl, rfl⟩ := Prod.mk.inj (Option.some.inj e1)
      -- the parts of the update
      unfold predUpdate at e2
      dsimp only at e2
      rw [ob_some] at e2
      cases u1 : chainUpdate t (x L) os' states with
      | none => rw [u1] at e2; cases e2
      | some y =>
        obtain ⟨costs, chain⟩ := y
        rw [u1, ob_some] at e2
        dsimp only at e2
        cases u2 : srcProcess t.luts p.tree (x L) costs with
        | none => rw [u2] at e2; cases e2
        | some tree =>
          rw [u2, ob_some] at e2
          unfold finalizerUpdate at e2
          dsimp only at e2
          cases u3 : updateLight fin (x L) p.lastBytes with
          | none => rw [u3] at e2; cases e2
          | some fin2 =>
            rw [u3, ob_some] at e2
            cases u4 : statsNext t p.stats (x L) states f' with
            | none => rw [u4] at e2; cases e2
            | some st =>
              rw [u4, ob_some] at e2
              cases u5 : lbNext p.lastBytes (x L) with
              | none => rw [u5] at e2; cases e2
              | some lb =>
                rw [u5, ob_some] at e2
                obtain rfl := Option.some.inj e2
                exact light_round ht c2 k1 hq.fin g1 g2 g3 hl u3
  · rw [check_neg hmo] at e1
    cases e1

end

end Verif.Pred
