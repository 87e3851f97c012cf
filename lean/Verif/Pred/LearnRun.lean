import Verif.Pred.Learn

/-! # Lemmas about what the predictor pays for a file -/

namespace Verif.Pred

open Verif Verif.Fixed Verif.Lut Verif.Mix Verif.Util Verif.History Verif.Tree Verif.Bits

attribute [local irreducible] squashTable stretchTable

/-- payers for the three contexts -/
structure Payers where
  one : Payer
  two : Payer
  three : Payer

/-- what the three maps have still to learn -/
noncomputable def Payers.left (g : Payers) (f : Finalizer) : ℝ :=
  64 * (total g.one.worth 65536 25 f.order1.mappings / 4 + total g.two.worth 65536 25 f.order2.mappings / 2 +
    total g.three.worth 65536 25 f.order3.mappings / 4)

/-- what is charged for the bit with index `L` -/
noncomputable def Payers.charge (g : Payers) (x : Nat → Bool) (L : Nat) : ℝ :=
  g.one.charge (hashAt 1 x L) (x L) / 4 + g.two.charge (hashAt 2 x L) (x L) / 2 + g.three.charge (hashAt 3 x L) (x L) / 4

/-- the bound for a bit -/
theorem bit_price {f f' : Finalizer} {x : Nat → Bool} {L p : Nat}
    (h : BitPaid f f' (hashAt 1 x L) (hashAt 2 x L) (hashAt 3 x L) (x L) p) (g : Payers) :
    -Real.logb 2 (chance p (x L)) ≤ 21 / 20 * (g.left f - g.left f' + g.charge x L + 1 / 2 ^ 24) + 258 / 2 ^ 29 ∧
    bitLoss p (x L) ≤ 1 / 20 * (g.left f - g.left f' + g.charge x L + 1 / 2 ^ 24) + 258 / 2 ^ 29 := by
  obtain ⟨p0, p1, e1, e2, e3, ⟨a1, b1⟩, ⟨a2, b2⟩, ⟨a3, b3⟩, hs, hm, w1, w2, w3⟩ := h
  obtain ⟨k1, k2⟩ := final_price p0 p1 a1 a2 a3 b1 b2 b3 hs hm
  have hsum : price e1 / 4 + price e2 / 2 + price e3 / 4 ≤ g.left f - g.left f' + g.charge x L + 1 / 2 ^ 24 := by
    have v1 := w1 g.one
    have v2 := w2 g.two
    have v3 := w3 g.three
    unfold Payers.left Payers.charge
    linarith
  constructor <;> linarith

section

variable {t : Tables} (ht : TablesOk t) {W maxOrder : Nat} (hW : W ≤ 2 ^ 31) (hW0 : 0 < W)
  (hM : maxOrder ≤ 8191) {x : Nat → Bool}

include ht hW hW0 hM

/-- the bits of a byte -/
theorem bits_price : ∀ (bs : List Bool) (L S j : Nat) (fs : List Nat) (p : Predictor), j + bs.length = 8 → L + S + bs.length ≤ 2 ^ 40 →
    PhaseAt t .light W maxOrder x L S fs (if j = 8 then .idle else .ready j) p →
    (∀ r b, bs[r]? = some b → x (L + r) = b) →
    ∃ gs p', calls t .light p ((bs.map fun b => [Call.predict, Call.update b]).flatten) = some (gs, p') ∧
      gs.length = bs.length ∧ IdleAt t .light W maxOrder x (L + bs.length) S (fs ++ gs) p' ∧
      ∀ g : Payers, estimate gs bs ≤ 21 / 20 * (g.left p.finalizer - g.left p'.finalizer +
          ∑ r ∈ Finset.range bs.length, (g.charge x (L + r) + 1 / 2 ^ 24)) + bs.length * (258 / 2 ^ 29) ∧
        loss gs bs ≤ 1 / 20 * (g.left p.finalizer - g.left p'.finalizer +
          ∑ r ∈ Finset.range bs.length, (g.charge x (L + r) + 1 / 2 ^ 24)) + bs.length * (258 / 2 ^ 29) := by
  intro bs
  induction bs with
  | nil =>
    intro L S j fs p hj _ h _
    rw [List.length_nil, Nat.add_zero] at hj
    rw [if_pos hj] at h
    refine ⟨[], p, rfl, rfl, by rw [List.append_nil]; exact h, fun g => ?_⟩
    simp [estimate, loss]
  | cons b bs ih =>
    intro L S j fs p hj hn h hx
    rw [List.length_cons] at hj hn
    rw [if_neg (by omega)] at h
    have hb : x L = b := hx 0 b rfl
    obtain ⟨f, p1, p2, e1, e2, h2, hp⟩ := light_step ht hW hW0 hM (by omega) h
    have hph : PhaseAt t .light W maxOrder x (L + 1) S (fs ++ [f]) (if j + 1 = 8 then .idle else .ready (j + 1)) p2 := by
      by_cases hj7 : j = 7
      · rw [if_pos (by omega)]; rw [if_pos hj7] at h2; exact h2
      · rw [if_neg (by omega)]; rw [if_neg hj7] at h2; exact h2
    by_cases hlast : bs = []
    · subst hlast
      have hj7 : j = 7 := by simpa using hj
      rw [if_pos (by omega)] at hph
      refine ⟨[f], p2, ?_, rfl, hph, fun g => ?_⟩
      · rw [hb] at e2
        simp [calls, call, e1, e2]
      · obtain ⟨k1, k2⟩ := bit_price hp g
        rw [hb] at k1 k2
        simp only [estimate, loss, List.zipWith_cons_cons, List.zipWith_nil_left, List.sum_cons, List.sum_nil,
          List.length_cons, List.length_nil, Nat.zero_add, Finset.sum_range_one, Nat.add_zero, Nat.cast_one]
        unfold bitLoss at k2
        constructor <;> linarith
    · have hpos : 0 < bs.length := List.length_pos_iff.mpr hlast
      obtain ⟨gs, p', c1, c2, c3, c4⟩ := ih (L + 1) S (j + 1) (fs ++ [f]) p2 (by omega) (by omega) hph (fun r b' hr => by
        have := hx (r + 1) b' hr
        rw [← this]; congr 1; omega)
      refine ⟨f :: gs, p', ?_, by rw [List.length_cons, List.length_cons, c2], ?_, fun g => ?_⟩
      · rw [hb] at e2
        rw [List.map_cons, List.flatten_cons, List.cons_append, List.cons_append, List.nil_append, calls, call, e1, ob_some]
        dsimp only
        rw [ob_some, calls, call]
        dsimp only
        rw [e2, ob_some, ob_some]
        dsimp only
        rw [c1, ob_some, ob_some]
        rfl
      · rw [List.append_assoc] at c3
        rw [List.length_cons, show L + (bs.length + 1) = L + 1 + bs.length by omega]
        exact c3
      · obtain ⟨k1, k2⟩ := bit_price hp g
        obtain ⟨d1, d2⟩ := c4 g
        rw [hb] at k1 k2
        unfold bitLoss at k2
        have hs : ∑ r ∈ Finset.range (b :: bs).length, (g.charge x (L + r) + 1 / 2 ^ 24) =
            ∑ r ∈ Finset.range bs.length, (g.charge x (L + 1 + r) + 1 / 2 ^ 24) + (g.charge x L + 1 / 2 ^ 24) := by
          rw [List.length_cons, Finset.sum_range_succ', Nat.add_zero]
          congr 1
          refine Finset.sum_congr rfl fun r _ => ?_
          rw [show L + (r + 1) = L + 1 + r by omega]
        rw [hs]
        simp only [estimate, loss, List.zipWith_cons_cons, List.sum_cons, List.length_cons, Nat.cast_add, Nat.cast_one] at *
        constructor <;> linarith

/-- whole bytes -/
theorem bytes_price : ∀ (bytes : List (List Bool)) (n : Nat) (fs : List Nat) (p : Predictor), (∀ b ∈ bytes, b.length = 8) →
    9 * (n + bytes.length) < 2 ^ 40 → IdleAt t .light W maxOrder x (8 * n) n fs p →
    (∀ r b, bytes.flatten[r]? = some b → x (8 * n + r) = b) →
    ∃ gs p', calls t .light p (bytes.flatMap byteCalls) = some (gs, p') ∧
      gs.length = bytes.flatten.length ∧ IdleAt t .light W maxOrder x (8 * (n + bytes.length)) (n + bytes.length) (fs ++ gs) p' ∧
      ∀ g : Payers, estimate gs bytes.flatten ≤ 21 / 20 * (g.left p.finalizer - g.left p'.finalizer +
          ∑ r ∈ Finset.range (8 * bytes.length), (g.charge x (8 * n + r) + 1 / 2 ^ 24)) + 8 * bytes.length * (258 / 2 ^ 29) ∧
        loss gs bytes.flatten ≤ 1 / 20 * (g.left p.finalizer - g.left p'.finalizer +
          ∑ r ∈ Finset.range (8 * bytes.length), (g.charge x (8 * n + r) + 1 / 2 ^ 24)) + 8 * bytes.length * (258 / 2 ^ 29) := by
  intro bytes
  induction bytes with
  | nil =>
    intro n fs p _ _ h _
    refine ⟨[], p, rfl, rfl, by rw [List.append_nil]; exact h, fun g => ?_⟩
    simp [estimate, loss]
  | cons b bytes ih =>
    intro n fs p h8 hn h hx
    have hb := h8 b (by simp)
    rw [List.length_cons] at hn
    obtain ⟨p1, e1, h1⟩ := start_step ht hW hW0 hM (by omega) h
    obtain ⟨gs, p2, c1, c2, c3, c4⟩ := bits_price ht hW hW0 hM b (8 * n) (n + 1) 0 fs p1 (by omega) (by omega)
      (by rw [if_neg (by omega)]; exact h1) (fun r c hr => hx r c (by
        rw [List.flatten_cons, List.getElem?_append_left (List.getElem?_eq_some_iff.mp hr).1]
        exact hr))
    rw [hb, show 8 * n + 8 = 8 * (n + 1) by omega] at c3
    obtain ⟨hs, p3, d1, d2, d3, d4⟩ := ih (n + 1) (fs ++ gs) p2 (fun c hc => h8 c (by simp [hc])) (by omega) c3
      (fun r c hr => by
        have := hx (8 + r) c (by
          rw [List.flatten_cons, List.getElem?_append_right (by omega), show 8 + r - b.length = r by omega]
          exact hr)
        rw [← this]; congr 1; omega)
    have hf : p1.finalizer = p.finalizer := by
      unfold predStart at e1
      cases z1 : check (p.final = none) with
      | none => rw [z1] at e1; cases e1
      | some _ =>
        rw [z1, ob_some] at e1
        cases z2 : lbStart p.lastBytes with
        | none => rw [z2] at e1; cases e1
        | some lb =>
          rw [z2, ob_some] at e1
          cases z3 : srcStart p.tree with
          | none => rw [z3] at e1; cases e1
          | some tree =>
            rw [z3, ob_some] at e1
            cases z4 : statsStart p.stats lb with
            | none => rw [z4] at e1; cases e1
            | some st =>
              rw [z4, ob_some] at e1
              obtain rfl := Option.some.inj e1
              rfl
    refine ⟨gs ++ hs, p3, ?_, ?_, ?_, fun g => ?_⟩
    · rw [List.flatMap_cons, byteCalls, List.cons_append, calls, call, e1, ob_some, ob_some]
      dsimp only
      rw [calls_append, c1, Option.bind_some]
      dsimp only
      rw [d1, Option.map_some, ob_some]
      rfl
    · rw [List.flatten_cons, List.length_append, List.length_append, c2, d2]
    · rw [List.append_assoc] at d3
      rw [List.length_cons, show n + (bytes.length + 1) = n + 1 + bytes.length by omega]
      exact d3
    · obtain ⟨k1, k2⟩ := c4 g
      obtain ⟨l1, l2⟩ := d4 g
      have hsum : ∑ r ∈ Finset.range (8 * (b :: bytes).length), (g.charge x (8 * n + r) + 1 / 2 ^ 24) =
          ∑ r ∈ Finset.range 8, (g.charge x (8 * n + r) + 1 / 2 ^ 24) +
          ∑ r ∈ Finset.range (8 * bytes.length), (g.charge x (8 * (n + 1) + r) + 1 / 2 ^ 24) := by
        rw [List.length_cons, show 8 * (bytes.length + 1) = 8 + 8 * bytes.length by omega, Finset.sum_range_add]
        congr 1
        refine Finset.sum_congr rfl fun r _ => ?_
        rw [show 8 * n + (8 + r) = 8 * (n + 1) + r by omega]
      have he : estimate (gs ++ hs) (b :: bytes).flatten = estimate gs b + estimate hs bytes.flatten := by
        unfold estimate
        rw [List.flatten_cons, List.zipWith_append c2, List.sum_append]
      have hl : loss (gs ++ hs) (b :: bytes).flatten = loss gs b + loss hs bytes.flatten := by
        unfold loss
        rw [List.flatten_cons, List.zipWith_append c2, List.sum_append]
      rw [hsum, he, hl]
      rw [hb, hf] at k1 k2
      rw [List.length_cons]
      push_cast at *
      constructor <;> linarith

end

/-! ## From indices to bytes -/

theorem flatten_bit : ∀ (bytes : List (List Bool)), (∀ b ∈ bytes, b.length = 8) → ∀ {k j : Nat}, j < 8 →
    bytes.flatten.getD (8 * k + j) false = (bytes.getD k []).getD j false := by
  intro bytes
  induction bytes with
  | nil => intro _ k j _; simp
  | cons b bytes ih =>
    intro h8 k j hj
    have hb := h8 b (by simp)
    cases k with
    | zero =>
      rw [List.flatten_cons, List.getD_append _ _ _ _ (by omega), Nat.mul_zero, Nat.zero_add]
      rfl
    | succ k =>
      rw [List.flatten_cons, List.getD_append_right _ _ _ _ (by omega), hb,
        show 8 * (k + 1) + j - 8 = 8 * k + j by omega, ih (fun c hc => h8 c (by simp [hc])) hj, List.getD_cons_succ]

theorem seg_byte (bytes : List (List Bool)) (h8 : ∀ b ∈ bytes, b.length = 8) {k d : Nat} (hk : k < bytes.length) (hd : d ≤ 8) :
    seg (fun i => bytes.flatten.getD i false) k d = (bytes.getD k []).take d := by
  have hb : (bytes.getD k []).length = 8 := by
    rw [List.getD_eq_getElem?_getD, List.getElem?_eq_getElem hk]
    exact h8 _ (List.getElem_mem hk)
  unfold seg
  refine List.ext_getElem (by rw [List.length_map, List.length_range, List.length_take, hb]; omega) fun j h1 h2 => ?_
  have hj : j < d := by simpa using h1
  rw [List.getElem_map, List.getElem_range]
  dsimp only
  rw [flatten_bit bytes h8 (by omega), List.getElem_take,
    List.getD_eq_getElem?_getD (l := bytes.getD k []), List.getElem?_eq_getElem (by omega)]
  rfl

theorem hashAt_contextOf (bytes : List (List Bool)) (h8 : ∀ b ∈ bytes, b.length = 8) (order : Nat) {i : Nat}
    (hi : i < 8 * bytes.length) : hashAt order (fun i => bytes.flatten.getD i false) i = contextOf order bytes i := by
  unfold hashAt contextOf
  rw [seg_byte bytes h8 (by omega) (by omega)]
  congr 1
  refine List.ext_getElem (by simp; omega) fun k h1 h2 => ?_
  have hk : k < i / 8 := by simpa using h1
  rw [List.getElem_map, List.getElem_range, List.getElem_take, seg_byte bytes h8 (by omega) (by omega),
    List.getD_eq_getElem?_getD, List.getElem?_eq_getElem (by omega), Option.getD_some, List.take_of_length_le]
  exact le_of_eq (h8 _ (List.getElem_mem _))

theorem sum_if {p : Nat → Prop} [DecidablePred p] : ∀ n : Nat,
    ∑ i ∈ Finset.range n, (if p i then (0 : ℝ) else 38) = 38 * ((List.range n).countP fun i => ¬ p i : ℕ) := by
  intro n
  induction n with
  | zero => simp
  | succ n ih =>
    rw [Finset.sum_range_succ, ih, List.range_succ, List.countP_append]
    push_cast
    rw [mul_add]
    congr 1
    by_cases h : p n <;> simp [h]

/-- what is charged for a file -/
theorem charge_sum (g : Payers) (bytes : List (List Bool)) (h8 : ∀ b ∈ bytes, b.length = 8) :
    ∑ r ∈ Finset.range (8 * bytes.length), (g.charge (fun i => bytes.flatten.getD i false) (8 * 0 + r) + 1 / 2 ^ 24) =
      (∑ i ∈ Finset.range (8 * bytes.length), g.one.charge (contextOf 1 bytes i) (bytes.flatten.getD i false)) / 4 +
      (∑ i ∈ Finset.range (8 * bytes.length), g.two.charge (contextOf 2 bytes i) (bytes.flatten.getD i false)) / 2 +
      (∑ i ∈ Finset.range (8 * bytes.length), g.three.charge (contextOf 3 bytes i) (bytes.flatten.getD i false)) / 4 +
      8 * bytes.length / 2 ^ 24 := by
  rw [Finset.sum_add_distrib, Finset.sum_const, Finset.card_range, nsmul_eq_mul, Finset.sum_div, Finset.sum_div,
    Finset.sum_div, ← Finset.sum_add_distrib, ← Finset.sum_add_distrib]
  push_cast
  rw [mul_one_div]
  congr 1
  refine Finset.sum_congr rfl fun r hr => ?_
  rw [Nat.zero_add]
  unfold Payers.charge
  rw [hashAt_contextOf bytes h8 1 (Finset.mem_range.mp hr), hashAt_contextOf bytes h8 2 (Finset.mem_range.mp hr),
    hashAt_contextOf bytes h8 3 (Finset.mem_range.mp hr)]

/-- what is charged for bits that were not guessed -/
theorem guess_charge (k : Nat) (guess : Nat → Option Bool) (bytes : List (List Bool)) :
    ∑ i ∈ Finset.range (8 * bytes.length), (guessPayer guess).charge (contextOf k bytes i) (bytes.flatten.getD i false) =
      38 * (unguessed k guess bytes : ℕ) := by
  unfold unguessed
  exact sum_if (p := fun i => guess (contextOf k bytes i) = some (bytes.flatten.getD i false)) _

/-! ## Start and end -/

theorem left_new {t : Tables} (ht : TablesOk t) {W maxOrder : Nat} {p : Predictor} (h : predNew t .light W maxOrder = some p)
    (g : Payers) : g.left p.finalizer =
      64 * (total g.one.worth 65536 25 (newAt 65536 0).mappings / 4 + total g.two.worth 65536 25 (newAt 65536 0).mappings / 2 +
        total g.three.worth 65536 25 (newAt 65536 0).mappings / 4) := by
  obtain ⟨m, hf⟩ : ∃ m, finalizerNew t .light = some m ∧ p.finalizer = m := by
    unfold predNew at h
    cases z1 : srcNew W maxOrder 0 with
    | none => rw [z1] at h; cases h
    | some s =>
      rw [z1, ob_some] at h
      cases z2 : chainNew t maxOrder with
      | none => rw [z2] at h; cases h
      | some c =>
        rw [z2, ob_some] at h
        cases z3 : finalizerNew t .light with
        | none => rw [z3] at h; cases h
        | some f =>
          rw [z3, ob_some] at h
          obtain rfl := Option.some.inj h
          exact ⟨f, rfl, rfl⟩
  obtain ⟨hf, rfl⟩ := hf
  have e0 : ∀ n, apmNew n 0 t.squash = some (newAt n 0) := fun n => by rw [ht.squash]; exact apmNew_eq (by omega) n
  unfold finalizerNew at hf
  cases m2 : mixerNNew 2 100 .equalSummingToOne with
  | none => rw [m2] at hf; cases hf
  | some _ =>
    cases m3 : mixerNNew 3 100 .equalSummingToOne with
    | none => rw [m2, m3] at hf; cases hf
    | some _ =>
      cases m4 : mixerNNew 4 100 .equalSummingToOne with
      | none => rw [m2, m3, m4] at hf; cases hf
      | some _ =>
        cases m5 : mixerNNew 5 100 .equalSummingToOne with
        | none => rw [m2, m3, m4, m5] at hf; cases hf
        | some _ =>
          rw [m2, ob_some, m3, ob_some, m4, ob_some, m5, ob_some, e0, ob_some, e0, ob_some, if_neg (by decide),
            if_neg (by decide)] at hf
          have hf' := Option.some.inj hf
          rw [show 256 * 256 = 65536 by rfl] at hf'
          have a1 := congrArg Finalizer.order1 hf'
          have a2 := congrArg Finalizer.order2 hf'
          have a3 := congrArg Finalizer.order3 hf'
          dsimp only at a1 a2 a3
          unfold Payers.left
          rw [← a1, ← a2, ← a3]

theorem left_nonneg {t : Tables} {f : Finalizer} (h : FinOk t .light none f) (g : Payers) : 0 ≤ g.left f := by
  have q1 := total_nonneg (h.order1 (by decide)).ok.len (h.order1 (by decide)).ok.entries g.one.nonneg
  have q2 := total_nonneg (h.order2 (by decide)).ok.len (h.order2 (by decide)).ok.entries g.two.nonneg
  have q3 := total_nonneg (h.order3 (by decide)).ok.len (h.order3 (by decide)).ok.entries g.three.nonneg
  rw [show 24 * 2 ^ 0 + 1 = 25 by norm_num] at q1 q2 q3
  unfold Payers.left
  linarith

/-- the estimate and the loss of a file together with any payers -/
theorem payers_price {t : Tables} (ht : tablesNew = some t) {W maxOrder : Nat} (hW0 : 0 < W)
    (hW : W ≤ 2 ^ 31) (hM : maxOrder ≤ 8191) {p0 p : Predictor} (h0 : predNew t .light W maxOrder = some p0)
    (bytes : List (List Bool)) (h8 : ∀ b ∈ bytes, b.length = 8) (hn : bytes.length ≤ 2 ^ 35) {fs : List Nat}
    (h : calls t .light p0 (bytes.flatMap byteCalls) = some (fs, p)) (g : Payers) :
    ∃ cost : ℝ, cost ≤ 64 * (total g.one.worth 65536 25 (newAt 65536 0).mappings / 4 +
        total g.two.worth 65536 25 (newAt 65536 0).mappings / 2 + total g.three.worth 65536 25 (newAt 65536 0).mappings / 4) +
        ((∑ i ∈ Finset.range (8 * bytes.length), g.one.charge (contextOf 1 bytes i) (bytes.flatten.getD i false)) / 4 +
        (∑ i ∈ Finset.range (8 * bytes.length), g.two.charge (contextOf 2 bytes i) (bytes.flatten.getD i false)) / 2 +
        (∑ i ∈ Finset.range (8 * bytes.length), g.three.charge (contextOf 3 bytes i) (bytes.flatten.getD i false)) / 4) +
        8 * bytes.length / 2 ^ 24 ∧
      estimate fs bytes.flatten ≤ 21 / 20 * cost + 8 * bytes.length * (258 / 2 ^ 29) ∧
      loss fs bytes.flatten ≤ 1 / 20 * cost + 8 * bytes.length * (258 / 2 ^ 29) := by
  have hT := tablesOk_of ht
  obtain ⟨p0', e0, hi⟩ := predNew_at hT hW hW0 hM .light fun i => bytes.flatten.getD i false
  rw [h0] at e0
  obtain rfl := Option.some.inj e0
  obtain ⟨gs, p', c1, -, c2, c3⟩ := bytes_price hT hW hW0 hM bytes 0 [] p0 h8 (by omega) hi (fun r b hr => by
    rw [Nat.mul_zero, Nat.zero_add, List.getD_eq_getElem?_getD, hr]; rfl)
  rw [h] at c1
  obtain ⟨rfl, rfl⟩ := Prod.mk.inj (Option.some.inj c1)
  obtain ⟨d1, d2⟩ := c3 g
  rw [charge_sum g bytes h8, left_new hT h0 g] at d1 d2
  have b := left_nonneg c2.quiet.fin g
  exact ⟨_, by linarith, d1, d2⟩

end Verif.Pred
