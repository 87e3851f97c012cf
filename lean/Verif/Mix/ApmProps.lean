import Verif.Mix.ApmStep

/-! # Adaptive probability map properties C41, C49 and C50 -/

namespace Verif.Mix

open Verif Verif.Fixed Verif.Lut

attribute [local irreducible] squashTable stretchTable

/-- the state of a map in terms of the protocol -/
structure ApmInv (fb contexts : Nat) (pending : Bool) (a : Apm) : Prop where
  ok : ApmOk fb contexts a
  idle : pending = false → a.saved = -1
  busy : pending = true → ∃ i : Nat, i < 24 * 2 ^ fb ∧ a.saved = (i : Int) ∧ 1 ≤ a.savedWeight ∧ a.savedWeight ≤ 2 ^ 31

theorem new_apm {fb contexts : Nat} (hfb : fb ≤ 7) : ApmInv fb contexts false (newAt contexts fb) := by
  refine ⟨⟨rfl, rfl, ?_, ?_⟩, fun _ => rfl, fun h => by cases h⟩
  · simp [newAt, List.length_flatten]
  · intro x hx
    unfold newAt at hx
    dsimp only at hx
    obtain ⟨l, hl, hx⟩ := List.mem_flatten.mp hx
    obtain rfl := List.eq_of_mem_replicate hl
    obtain ⟨i, hi, rfl⟩ := List.mem_map.mp hx
    rw [List.mem_range] at hi
    have := stopAt_bounds hfb (i := i) (by omega)
    exact ⟨by omega, by omega⟩

theorem refine_none {fb contexts c sq : Nat} {st : Int} {a : Apm} (hfb : fb ≤ 7)
    (hb : Belongs stretchTable squashTable fb sq st) (ha : ApmOk fb contexts a) (hc : contexts ≤ c) :
    refine a c sq st (lutAt fb) = none := by
  obtain ⟨s, i, h1, h2, h3, h4, h5⟩ := apmIndex_eq hfb hb
  have hn : intervalStopsCount fb = 24 * 2 ^ fb + 1 := by unfold intervalStopsCount intervalsCount; omega
  have hg1 : (lutAt fb).stops[i]? = some (stopAt fb i) := get_range (by omega)
  have hg2 : (lutAt fb).stops[i + 1]? = some (stopAt fb (i + 1)) := get_range (by omega)
  have hm : a.mappings[c * (24 * 2 ^ fb + 1) + i]? = none := by
    rw [List.getElem?_eq_none_iff, ha.len]
    exact le_trans (Nat.mul_le_mul_right _ hc) (by omega)
  unfold refine
  dsimp only
  by_cases hs : a.saved = -1
  · rw [check_pos (show a.fb = (lutAt fb).fb from ha.bits), ob_some, check_pos hs, ob_some, ha.bits, hn, limitSq_eq,
      ob_some, h1, ob_some, h2, ob_some, hg1, ob_some, check_pos h4, ob_some, hg2, ob_some, check_pos h5, ob_some, hm]
    rfl
  · rw [check_pos (show a.fb = (lutAt fb).fb from ha.bits), ob_some, check_neg hs]; rfl

theorem set_ok {fb contexts : Nat} {a : Apm} (ha : ApmOk fb contexts a) {i j x y : Nat} (hx : EntryOk x)
    (hy : EntryOk y) (s : Int) : ApmOk fb contexts { a with mappings := (a.mappings.set i x).set j y, saved := s } := by
  refine ⟨ha.bits, ha.ctx, by simpa using ha.len, ?_⟩
  intro z hz
  rcases List.mem_or_eq_of_mem_set hz with hz | rfl
  · rcases List.mem_or_eq_of_mem_set hz with hz | rfl
    · exact ha.entries z hz
    · exact hx
  · exact hy

theorem newEntry_rate {bit : Bool} {w rate x : Nat} (h : ¬(rate > 0 ∧ rate < 30)) : newEntry bit w rate x = none := by
  unfold newEntry
  rw [check_neg h]; rfl

theorem update_none {fb contexts c rate : Nat} {a : Apm} {p bit fixed : Bool} (ha : ApmInv fb contexts p a)
    (h : ¬(p = true ∧ c < contexts ∧ 0 < rate ∧ rate < 30)) : updatePredictions a c bit rate fixed = none := by
  unfold updatePredictions
  dsimp only
  cases p
  · rw [check_neg (by rw [ha.idle rfl]; norm_num)]; rfl
  · obtain ⟨i, hi, hs, h1, h2⟩ := ha.busy rfl
    rw [check_pos (by omega), ob_some]
    by_cases hc : c < contexts
    · rw [check_pos (by rw [ha.ok.ctx]; exact hc), ob_some]
      have hw : 1 ≤ leftWeight fixed a.savedWeight ∧ leftWeight fixed a.savedWeight ≤ 2 ^ 31 := by
        unfold leftWeight; split <;> omega
      rw [show (if fixed = true then 2 ^ 30 else a.savedWeight) = leftWeight fixed a.savedWeight from rfl,
        sub_eq (by unfold oneUnsafe; omega) (by unfold oneUnsafe; omega), ob_some]
      unfold updateEntry
      rcases hm : a.mappings[c * intervalStopsCount a.fb + a.saved.toNat]? with _ | x
      · rfl
      · rw [ob_some, newEntry_rate (by simpa [hc] using h)]; rfl
    · rw [check_neg (by rw [ha.ok.ctx]; exact hc)]; rfl

/-- one update keeps the invariant -/
theorem update_inv {fb contexts c rate : Nat} {a : Apm} {bit fixed : Bool} (ha : ApmInv fb contexts true a)
    (hc : c < contexts) (hr : 2 ≤ rate) (hr2 : rate < 30) :
    ∃ a', updatePredictions a c bit rate fixed = some a' ∧ ApmInv fb contexts false a' := by
  obtain ⟨i, hi, hs, h1, h2⟩ := ha.busy rfl
  obtain ⟨L, hL, hL2⟩ := ha.ok.get hc (i := i) (by omega)
  obtain ⟨R, hR, hR2⟩ := ha.ok.get hc (i := i + 1) (by omega)
  have hw : leftWeight fixed a.savedWeight ≤ 2 ^ 31 := by unfold leftWeight; split <;> omega
  exact ⟨_, update_closed ha.ok hi hs hc rfl h1 h2 hr hr2 hL hR,
    set_ok ha.ok (learned_ok hw hr hL2) (learned_ok (by omega) hr hR2) _, fun _ => rfl, fun h => by cases h⟩

theorem apm_calls {fb contexts : Nat} (hfb : fb ≤ 7) : ∀ (es : List ApmEvent) (p : Bool) (a : Apm),
    ApmInv fb contexts p a → (∀ e ∈ es, e.Sane stretchTable squashTable fb) →
    (ApmAllowed contexts p es → ∃ rs a', apmCalls (lutAt fb) a es = some (rs, a') ∧
      ApmInv fb contexts (endsPending p es) a' ∧ rs.length = refineCount es ∧ ∀ r ∈ rs, 0 < r ∧ r < 2 ^ 31) ∧
    (¬ApmAllowed contexts p es → apmCalls (lutAt fb) a es = none) := by
  intro es
  induction es with
  | nil =>
    intro p a ha _
    exact ⟨fun _ => ⟨[], a, rfl, ha, rfl, by simp⟩, fun h => absurd trivial h⟩
  | cons e es ih =>
    intro p a ha hs
    have hs1 := hs e (by simp)
    have hs2 : ∀ e ∈ es, e.Sane stretchTable squashTable fb := fun e he => hs e (by simp [he])
    cases e with
    | refine c sq st =>
      have hb : Belongs stretchTable squashTable fb sq st := hs1
      rw [apmCalls]
      by_cases hp : p = false ∧ c < contexts
      · obtain ⟨rfl, hc⟩ := hp
        obtain ⟨i, w, hi, hw, -, -, -, hall⟩ := refine_eq hfb hb hc
        obtain ⟨L, R, -, -, hL, hR, hr⟩ := hall a ha.ok (ha.idle rfl)
        have ha2 : ApmInv fb contexts true { a with saved := (i : Int), savedWeight := 2 ^ 31 - w } :=
          ⟨⟨ha.ok.bits, ha.ok.ctx, ha.ok.len, ha.ok.entries⟩, fun h => (by cases h),
            fun _ => ⟨i, hi, rfl, by dsimp only; omega, by dsimp only; omega⟩⟩
        obtain ⟨h1, h2⟩ := ih true _ ha2 hs2
        have hbl := blend_bounds hL hR hw
        rw [hr, ob_some]
        refine ⟨fun h => ?_, fun h => ?_⟩
        · obtain ⟨rs, a', k1, k2, k3, k4⟩ := h1 h.2.2
          refine ⟨blend L R w :: rs, a', by dsimp only; rw [k1]; rfl, k2, by simp [refineCount, k3], ?_⟩
          intro r hr
          rcases List.mem_cons.mp hr with rfl | hr
          · omega
          · exact k4 r hr
        · dsimp only
          rw [h2 fun hh => h ⟨rfl, hc, hh⟩]
          rfl
      · have hn : refine a c sq st (lutAt fb) = none := by
          by_cases hc : c < contexts
          · have hpt : p = true := by
              cases p
              · exact absurd ⟨rfl, hc⟩ hp
              · rfl
            subst hpt
            obtain ⟨i, -, hsv, -⟩ := ha.busy rfl
            unfold refine
            rw [check_pos (show a.fb = (lutAt fb).fb from ha.ok.bits), ob_some, check_neg (by omega)]; rfl
          · exact refine_none hfb hb ha.ok (by omega)
        rw [hn]
        exact ⟨fun h => absurd ⟨h.1, h.2.1⟩ hp, fun _ => rfl⟩
    | update c bit rate fixed =>
      have hrate : rate ≠ 1 := hs1
      rw [apmCalls]
      by_cases hp : p = true ∧ c < contexts ∧ 0 < rate ∧ rate < 30
      · obtain ⟨rfl, hc, hr1, hr2⟩ := hp
        obtain ⟨a2, k1, ha2⟩ := update_inv (bit := bit) (fixed := fixed) ha hc (show 2 ≤ rate by omega) hr2
        obtain ⟨h1, h2⟩ := ih false _ ha2 hs2
        rw [k1, ob_some]
        exact ⟨fun h => h1 h.2.2.2.2, fun h => h2 fun hh => h ⟨rfl, hc, hr1, hr2, hh⟩⟩
      · rw [update_none ha hp]
        exact ⟨fun h => absurd ⟨h.1, h.2.1, h.2.2.1, h.2.2.2.1⟩ hp, fun _ => rfl⟩

theorem tables_eq {lut : List (List Int)} {table : List Nat} {al : ApmLut} {a : Apm} {fb contexts : Nat}
    (hfb : fb ≤ 7) (hlut : stretchLutNew = some lut) (htab : squashLutNew lut = some table)
    (hal : apmLutNew fb table = some al) (ha : apmNew contexts fb table = some a) :
    lut = stretchTable ∧ table = squashTable ∧ al = lutAt fb ∧ a = newAt contexts fb := by
  rw [stretchLut_eq] at hlut
  obtain rfl := Option.some.inj hlut
  rw [squashLut_eq stretchTable_ok] at htab
  obtain rfl := Option.some.inj htab
  rw [apmLut_eq hfb] at hal
  rw [apmNew_eq hfb] at ha
  exact ⟨rfl, rfl, (Option.some.inj hal).symm, (Option.some.inj ha).symm⟩

/-- C41: the tables and the map can be created for up to seven fractional index bits and any number of contexts. -/
theorem C41_new (fb contexts : Nat) (hfb : fb ≤ 7) : ∃ lut table al a, stretchLutNew = some lut ∧
    squashLutNew lut = some table ∧ apmLutNew fb table = some al ∧ apmNew contexts fb table = some a :=
  ⟨_, _, _, _, stretchLut_eq, squashLut_eq stretchTable_ok, apmLut_eq hfb, apmNew_eq hfb contexts⟩

/-- C41: with inputs that belong together, a history of calls completes exactly when the calls alternate and use
existing contexts and permitted rates; every refined probability is strictly between zero and one. The fastest rate
is excluded, see `C41_fastest_rate_panics`. -/
theorem C41_total (lut : List (List Int)) (table : List Nat) (al : ApmLut) (a : Apm) (fb contexts : Nat)
    (hfb : fb ≤ 7) (hlut : stretchLutNew = some lut) (htab : squashLutNew lut = some table)
    (hal : apmLutNew fb table = some al) (ha : apmNew contexts fb table = some a) (es : List ApmEvent)
    (hs : ∀ e ∈ es, e.Sane lut table fb) :
    ((apmCalls al a es).isSome ↔ ApmAllowed contexts false es) ∧
    ∀ rs a', apmCalls al a es = some (rs, a') → rs.length = refineCount es ∧ ∀ r ∈ rs, 0 < r ∧ r < 2 ^ 31 := by
  obtain ⟨rfl, rfl, rfl, rfl⟩ := tables_eq hfb hlut htab hal ha
  obtain ⟨h1, h2⟩ := apm_calls hfb es false _ (new_apm (contexts := contexts) hfb) hs
  by_cases hA : ApmAllowed contexts false es
  · obtain ⟨rs, a', k1, -, k3, k4⟩ := h1 hA
    rw [k1]
    refine ⟨by simp [hA], ?_⟩
    intro rs' a'' h
    obtain ⟨rfl, rfl⟩ := Prod.mk.injEq .. ▸ Option.some.inj h
    exact ⟨k3, k4⟩
  · rw [h2 hA]
    exact ⟨by simp [hA], fun _ _ h => by cases h⟩

/-! ## Learning -/

theorem apmCalls_append {lut : ApmLut} : ∀ (es fs : List ApmEvent) (a : Apm),
    apmCalls lut a (es ++ fs) = (do
      let (rs, a) ← apmCalls lut a es
      let (ss, a) ← apmCalls lut a fs
      some (rs ++ ss, a)) := by
  intro es
  induction es with
  | nil =>
    intro fs a
    rw [List.nil_append, apmCalls, ob_some]
    dsimp only
    rcases apmCalls lut a fs with _ | ⟨ss, b⟩ <;> rfl
  | cons e es ih =>
    intro fs a
    rw [List.cons_append]
    cases e with
    | refine c sq st =>
      rw [apmCalls, apmCalls]
      rcases refine a c sq st lut with _ | ⟨r, b⟩
      · rfl
      · simp only [ob_some]
        rw [ih]
        rcases apmCalls lut b es with _ | ⟨rs, b⟩
        · rfl
        · simp only [ob_some]
          rcases apmCalls lut b fs with _ | ⟨ss, b⟩ <;> rfl
    | update c bit rate fixed =>
      rw [apmCalls, apmCalls]
      rcases updatePredictions a c bit rate fixed with _ | b
      · rfl
      · simp only [ob_some]
        rw [ih]

theorem blend_mono {L R L' R' w : Nat} (h1 : L ≤ L') (h2 : R ≤ R') : blend L R w ≤ blend L' R' w :=
  Nat.add_le_add (sq31_mono _ h1) (sq31_mono _ h2)

theorem learned_zero (w rate x : Nat) : x ≤ learned false w rate x := by unfold learned; simp

theorem learned_one (w rate x : Nat) : learned true w rate x ≤ x := by unfold learned; simp

/-- a map after a history that ended with an update -/
theorem idle_after {fb contexts : Nat} (hfb : fb ≤ 7) {es : List ApmEvent} {rs : List Nat} {a' : Apm}
    (hs : ∀ e ∈ es, e.Sane stretchTable squashTable fb)
    (h : apmCalls (lutAt fb) (newAt contexts fb) es = some (rs, a')) :
    ApmInv fb contexts (endsPending false es) a' ∧ rs.length = refineCount es := by
  obtain ⟨h1, h2⟩ := apm_calls hfb es false _ (new_apm (contexts := contexts) hfb) hs
  by_cases hA : ApmAllowed contexts false es
  · obtain ⟨rs', a'', k1, k2, k3, -⟩ := h1 hA
    rw [k1] at h
    obtain ⟨rfl, rfl⟩ := Prod.mk.injEq .. ▸ Option.some.inj h
    exact ⟨k2, k3⟩
  · rw [h2 hA] at h
    cases h

/-- refine, update, refine in the same context with the same input -/
theorem triple {fb contexts c sq rate : Nat} {st : Int} {bit fixed : Bool} {a : Apm} (hfb : fb ≤ 7)
    (hb : Belongs stretchTable squashTable fb sq st) (hc : c < contexts) (ha : ApmInv fb contexts false a)
    (hr : 2 ≤ rate) (hr2 : rate < 30) :
    ∃ i L R w wl a', i < 24 * 2 ^ fb ∧ EntryOk L ∧ EntryOk R ∧ w < 2 ^ 31 ∧ wl = leftWeight fixed (2 ^ 31 - w) ∧
      apmCalls (lutAt fb) a [.refine c sq st, .update c bit rate fixed, .refine c sq st] =
        some ([blend L R w, blend (learned bit wl rate L) (learned bit (2 ^ 31 - wl) rate R) w], a') := by
  obtain ⟨i, w, hi, hw, -, -, -, hall⟩ := refine_eq hfb hb hc
  obtain ⟨L, R, gL, gR, hL, hR, hr1⟩ := hall a ha.ok (ha.idle rfl)
  have ha2 : ApmOk fb contexts { a with saved := (i : Int), savedWeight := 2 ^ 31 - w } :=
    ⟨ha.ok.bits, ha.ok.ctx, ha.ok.len, ha.ok.entries⟩
  have hu := update_closed (bit := bit) (fixed := fixed) ha2 hi rfl hc rfl (by dsimp only; omega)
    (by dsimp only; omega) hr hr2 gL gR
  dsimp only at hu
  have hwl : leftWeight fixed (2 ^ 31 - w) ≤ 2 ^ 31 := by unfold leftWeight; split <;> omega
  have hLo := learned_ok (bit := bit) hwl hr hL
  have hRo := learned_ok (bit := bit) (w := 2 ^ 31 - leftWeight fixed (2 ^ 31 - w)) (by omega) hr hR
  have ha3 := set_ok ha2 (i := c * (24 * 2 ^ fb + 1) + i) (j := c * (24 * 2 ^ fb + 1) + (i + 1)) hLo hRo (-1)
  obtain ⟨L', R', gL', gR', -, -, hr3⟩ := hall _ ha3 rfl
  dsimp only at gL' gR' hr3
  have hlen : c * (24 * 2 ^ fb + 1) + (i + 1) < a.mappings.length := by
    by_contra hcon
    rw [List.getElem?_eq_none (by omega)] at gR
    cases gR
  rw [List.getElem?_set_ne (by omega), List.getElem?_set_self (by omega)] at gL'
  rw [List.getElem?_set_self (by simpa using hlen)] at gR'
  obtain rfl := Option.some.inj gL'
  obtain rfl := Option.some.inj gR'
  have hfin : ∃ a', apmCalls (lutAt fb) a [.refine c sq st, .update c bit rate fixed, .refine c sq st] =
        some ([blend L R w, blend (learned bit (leftWeight fixed (2 ^ 31 - w)) rate L)
          (learned bit (2 ^ 31 - leftWeight fixed (2 ^ 31 - w)) rate R) w], a') := by
    rw [apmCalls, hr1, ob_some]
    dsimp only
    rw [apmCalls, hu, ob_some, apmCalls, hr3, ob_some]
    exact ⟨_, rfl⟩
  obtain ⟨a', hfin⟩ := hfin
  exact ⟨i, L, R, w, _, a', hi, hL, hR, hw, rfl, hfin⟩

/-- C49: learning moves the refined probability of a zero bit up after a zero bit and down after a one bit, for the
same input in the same context, whatever happened before. -/
theorem C49_direction (lut : List (List Int)) (table : List Nat) (al : ApmLut) (a a1 a2 : Apm) (fb contexts : Nat)
    (hfb : fb ≤ 7) (hlut : stretchLutNew = some lut) (htab : squashLutNew lut = some table)
    (hal : apmLutNew fb table = some al) (ha : apmNew contexts fb table = some a) (es : List ApmEvent)
    (hs : ∀ e ∈ es, e.Sane lut table fb) (rs ss : List Nat) (h1 : apmCalls al a es = some (rs, a1))
    (c sq rate : Nat) (st : Int) (bit fixed : Bool) (hb : Belongs lut table fb sq st) (hr : rate ≠ 1)
    (h2 : apmCalls al a (es ++ [.refine c sq st, .update c bit rate fixed, .refine c sq st]) = some (ss, a2)) :
    ∃ r t, ss = rs ++ [r, t] ∧ (bit = false → r ≤ t) ∧ (bit = true → t ≤ r) := by
  obtain ⟨rfl, rfl, rfl, rfl⟩ := tables_eq hfb hlut htab hal ha
  obtain ⟨ha1, -⟩ := idle_after hfb hs h1
  have h3 := h2
  rw [apmCalls_append, h1, ob_some] at h3
  dsimp only at h3
  obtain ⟨k1, k2⟩ := apm_calls hfb [.refine c sq st, .update c bit rate fixed, .refine c sq st] _ _ ha1 (by
    intro e he
    simp only [List.mem_cons, List.not_mem_nil, or_false] at he
    rcases he with rfl | rfl | rfl
    · exact hb
    · exact hr
    · exact hb)
  have hA : ApmAllowed contexts (endsPending false es) [.refine c sq st, .update c bit rate fixed, .refine c sq st] := by
    by_contra hn
    rw [k2 hn] at h3
    cases h3
  obtain ⟨q1, q2, -, -, q3, q4, -⟩ := hA
  rw [q1] at ha1
  obtain ⟨i, L, R, w, wl, a', -, -, -, -, -, ht⟩ := triple (bit := bit) (fixed := fixed) hfb hb q2 ha1
    (show 2 ≤ rate by omega) q4
  rw [ht, ob_some] at h3
  obtain ⟨rfl, -⟩ := Prod.mk.injEq .. ▸ Option.some.inj h3
  refine ⟨_, _, rfl, ?_, ?_⟩
  · rintro rfl
    exact blend_mono (learned_zero _ _ _) (learned_zero _ _ _)
  · rintro rfl
    exact blend_mono (learned_one _ _ _) (learned_one _ _ _)

/-- the correction with equal weights -/
theorem half_step {E rate : Nat} : 2 ^ rate * (2 * sq31 (2 ^ 30) (E / 2 ^ rate)) ≤ E + 2 ^ rate ∧
    E ≤ 2 ^ rate * (2 * sq31 (2 ^ 30) (E / 2 ^ rate)) + 2 ^ rate := by
  have hp : 0 < 2 ^ rate := by positivity
  have h1 := Nat.div_add_mod E (2 ^ rate)
  have h2 := Nat.mod_lt E hp
  have h3 : sq31 (2 ^ 30) (E / 2 ^ rate) = (E / 2 ^ rate + 1) / 2 := by
    unfold sq31
    generalize E / 2 ^ rate = q
    omega
  rw [h3]
  generalize E / 2 ^ rate = q at *
  have h4 : 2 ^ rate * (2 * ((q + 1) / 2)) ≤ 2 ^ rate * (q + 1) := Nat.mul_le_mul_left _ (by omega)
  have h5 : 2 ^ rate * q ≤ 2 ^ rate * (2 * ((q + 1) / 2)) := Nat.mul_le_mul_left _ (by omega)
  rw [Nat.mul_add, Nat.mul_one] at h4
  omega

theorem blend_near {L R w : Nat} (hw : w < 2 ^ 31) :
    |(2 ^ 31 * blend L R w : Int) - (L * (2 ^ 31 - w) + R * w)| ≤ 2 ^ 31 := by
  unfold blend
  obtain ⟨a1, a2⟩ := sq31_exact L (2 ^ 31 - w)
  obtain ⟨b1, b2⟩ := sq31_exact R w
  have e : ((L * (2 ^ 31 - w) : Nat) : Int) = L * (2 ^ 31 - w) := by
    rw [Nat.cast_mul, Nat.cast_sub (by omega)]; norm_num
  have e2 : ((R * w : Nat) : Int) = R * w := by push_cast; ring
  rw [← e, ← e2]
  generalize L * (2 ^ 31 - w) = X at *
  generalize R * w = Y at *
  generalize sq31 L (2 ^ 31 - w) = x at *
  generalize sq31 R w = y at *
  rw [abs_le]
  push_cast
  norm_num
  omega

/-- mixing two corrections -/
theorem step_near {L R w L' R' r t P : Int} {EL ER r0 : Int} (hw0 : 0 ≤ w) (hw : w < 2 ^ 31) (hP : 1 ≤ P)
    (h1 : |2 ^ 31 * r - (L * (2 ^ 31 - w) + R * w)| ≤ 2 ^ 31)
    (h2 : |2 ^ 31 * t - (L' * (2 ^ 31 - w) + R' * w)| ≤ 2 ^ 31)
    (h3 : |2 * P * (L' - L) - EL| ≤ P) (h4 : |2 * P * (R' - R) - ER| ≤ P)
    (h5 : EL = r0 - L) (h6 : ER = r0 - R) : |2 * P * (t - r) - (r0 - r)| ≤ 3 * (2 * P) := by
  subst h5 h6
  have hv : 0 ≤ 2 ^ 31 - w := by linarith
  rw [abs_le] at h1 h2 h3 h4 ⊢
  obtain ⟨a1, a2⟩ := h1
  obtain ⟨b1, b2⟩ := h2
  obtain ⟨c1, c2⟩ := h3
  obtain ⟨d1, d2⟩ := h4
  have e1 := mul_le_mul_of_nonneg_right c1 hv
  have e2 := mul_le_mul_of_nonneg_right c2 hv
  have e3 := mul_le_mul_of_nonneg_right d1 hw0
  have e4 := mul_le_mul_of_nonneg_right d2 hw0
  have f1 := mul_le_mul_of_nonneg_left a1 (show 0 ≤ 2 * P by linarith)
  have f2 := mul_le_mul_of_nonneg_left a2 (show 0 ≤ 2 * P by linarith)
  have f3 := mul_le_mul_of_nonneg_left b1 (show 0 ≤ 2 * P by linarith)
  have f4 := mul_le_mul_of_nonneg_left b2 (show 0 ≤ 2 * P by linarith)
  constructor
  · nlinarith
  · nlinarith

/-- C49: with equal weights an update moves the refined probability towards certainty by the part `2^-(rate+1)` of
the distance, within three units of the last place. -/
theorem C49_step (lut : List (List Int)) (table : List Nat) (al : ApmLut) (a a1 a2 : Apm) (fb contexts : Nat)
    (hfb : fb ≤ 7) (hlut : stretchLutNew = some lut) (htab : squashLutNew lut = some table)
    (hal : apmLutNew fb table = some al) (ha : apmNew contexts fb table = some a) (es : List ApmEvent)
    (hs : ∀ e ∈ es, e.Sane lut table fb) (rs ss : List Nat) (h1 : apmCalls al a es = some (rs, a1))
    (c sq rate : Nat) (st : Int) (bit : Bool) (hb : Belongs lut table fb sq st) (hr : rate ≠ 1)
    (h2 : apmCalls al a (es ++ [.refine c sq st, .update c bit rate true, .refine c sq st]) = some (ss, a2)) :
    ∃ r t : Nat, ss = rs ++ [r, t] ∧
      |(2 ^ (rate + 1) : Int) * (t - r) - ((if bit then 0 else 2 ^ 31) - r)| ≤ 3 * 2 ^ (rate + 1) := by
  obtain ⟨rfl, rfl, rfl, rfl⟩ := tables_eq hfb hlut htab hal ha
  obtain ⟨ha1, -⟩ := idle_after hfb hs h1
  have h3 := h2
  rw [apmCalls_append, h1, ob_some] at h3
  dsimp only at h3
  obtain ⟨k1, k2⟩ := apm_calls hfb [.refine c sq st, .update c bit rate true, .refine c sq st] _ _ ha1 (by
    intro e he
    simp only [List.mem_cons, List.not_mem_nil, or_false] at he
    rcases he with rfl | rfl | rfl
    · exact hb
    · exact hr
    · exact hb)
  have hA : ApmAllowed contexts (endsPending false es) [.refine c sq st, .update c bit rate true, .refine c sq st] := by
    by_contra hn
    rw [k2 hn] at h3
    cases h3
  obtain ⟨q1, q2, -, -, q3, q4, -⟩ := hA
  rw [q1] at ha1
  obtain ⟨i, L, R, w, wl, a', -, hL, hR, hw, hwl, ht⟩ := triple (bit := bit) (fixed := true) hfb hb q2 ha1
    (show 2 ≤ rate by omega) q4
  rw [ht, ob_some] at h3
  obtain ⟨rfl, -⟩ := Prod.mk.injEq .. ▸ Option.some.inj h3
  refine ⟨_, _, rfl, ?_⟩
  have e1 : wl = 2 ^ 30 := hwl
  have e2 : 2 ^ 31 - wl = 2 ^ 30 := by rw [e1]; rfl
  rw [e2, e1]
  have key : ∀ x : Nat, EntryOk x → |2 * 2 ^ rate * ((learned bit (2 ^ 30) rate x : Int) - x) -
      ((if bit then 0 else 2 ^ 31) - x)| ≤ 2 ^ rate := by
    intro x hx
    obtain ⟨x1, x2⟩ := hx
    have hle : ∀ e : Nat, sq31 (2 ^ 30) e ≤ e := fun e => by rw [sq31_comm]; exact sq31_le' (by norm_num)
    unfold learned
    cases bit
    · obtain ⟨g1, g2⟩ := half_step (E := 2 ^ 31 - x) (rate := rate)
      simp only [Bool.false_eq_true, if_false]
      generalize sq31 (2 ^ 30) ((2 ^ 31 - x) / 2 ^ rate) = s at *
      have e : 2 * 2 ^ rate * (((x + s : Nat) : Int) - x) = ((2 ^ rate * (2 * s) : Nat) : Int) := by push_cast; ring
      rw [e, abs_le]
      have e' : ((2 ^ rate : Nat) : Int) = 2 ^ rate := by push_cast; ring
      rw [← e']
      generalize 2 ^ rate * (2 * s) = m at *
      generalize 2 ^ rate = n at *
      norm_num at *
      omega
    · obtain ⟨g1, g2⟩ := half_step (E := x) (rate := rate)
      simp only [if_true]
      have hs := hle (x / 2 ^ rate)
      have hd := Nat.div_le_self x (2 ^ rate)
      generalize sq31 (2 ^ 30) (x / 2 ^ rate) = s at *
      have e : 2 * 2 ^ rate * (((x - s : Nat) : Int) - x) = -((2 ^ rate * (2 * s) : Nat) : Int) := by
        rw [Nat.cast_sub (by omega)]
        push_cast; ring
      rw [e, abs_le]
      have e' : ((2 ^ rate : Nat) : Int) = 2 ^ rate := by push_cast; ring
      rw [← e']
      generalize 2 ^ rate * (2 * s) = m at *
      generalize 2 ^ rate = n at *
      omega
  have hfin := step_near (w := (w : Int)) (P := 2 ^ rate) (by omega) (by norm_num at *; omega) (one_le_pow₀ (by norm_num))
    (blend_near (L := L) (R := R) hw) (blend_near (L := learned bit (2 ^ 30) rate L) (R := learned bit (2 ^ 30) rate R) hw)
    (key L hL) (key R hR) rfl rfl
  rw [pow_succ, Int.mul_comm (2 ^ rate) 2]
  exact hfin

/-- C49: learning in one context does not change what is refined in another context. -/
theorem C49_isolated (lut : List (List Int)) (table : List Nat) (al : ApmLut) (a a1 a2 a3 : Apm) (fb contexts : Nat)
    (hfb : fb ≤ 7) (hlut : stretchLutNew = some lut) (htab : squashLutNew lut = some table)
    (hal : apmLutNew fb table = some al) (ha : apmNew contexts fb table = some a) (es : List ApmEvent)
    (hs : ∀ e ∈ es, e.Sane lut table fb) (rs ss ts : List Nat) (h1 : apmCalls al a es = some (rs, a1))
    (c d sq sq' rate : Nat) (st st' : Int) (bit fixed : Bool) (hcd : d ≠ c) (hb : Belongs lut table fb sq st)
    (hb' : Belongs lut table fb sq' st') (hr : rate ≠ 1)
    (h2 : apmCalls al a (es ++ [.refine c sq st, .update c bit rate fixed, .refine d sq' st']) = some (ss, a2))
    (h3 : apmCalls al a (es ++ [.refine d sq' st']) = some (ts, a3)) :
    ∃ r t, ss = rs ++ [r, t] ∧ ts = rs ++ [t] := by
  obtain ⟨rfl, rfl, rfl, rfl⟩ := tables_eq hfb hlut htab hal ha
  obtain ⟨ha1, -⟩ := idle_after hfb hs h1
  rw [apmCalls_append, h1, ob_some] at h2 h3
  dsimp only at h2 h3
  obtain ⟨k1, k2⟩ := apm_calls hfb [.refine c sq st, .update c bit rate fixed, .refine d sq' st'] _ _ ha1 (by
    intro e he
    simp only [List.mem_cons, List.not_mem_nil, or_false] at he
    rcases he with rfl | rfl | rfl
    · exact hb
    · exact hr
    · exact hb')
  have hA : ApmAllowed contexts (endsPending false es)
      [.refine c sq st, .update c bit rate fixed, .refine d sq' st'] := by
    by_contra hn
    rw [k2 hn] at h2
    cases h2
  obtain ⟨q1, q2, -, -, q3, q4, -, q5, -⟩ := hA
  rw [q1] at ha1
  obtain ⟨i, w, hi, hw, -, -, -, hall⟩ := refine_eq hfb hb q2
  obtain ⟨L, R, gL, gR, hL, hR, hr1⟩ := hall a1 ha1.ok (ha1.idle rfl)
  have ha2 : ApmOk fb contexts { a1 with saved := (i : Int), savedWeight := 2 ^ 31 - w } :=
    ⟨ha1.ok.bits, ha1.ok.ctx, ha1.ok.len, ha1.ok.entries⟩
  have hu := update_closed (bit := bit) (fixed := fixed) ha2 hi rfl q2 rfl (by dsimp only; omega)
    (by dsimp only; omega) (show 2 ≤ rate by omega) q4 gL gR
  dsimp only at hu
  have hwl : leftWeight fixed (2 ^ 31 - w) ≤ 2 ^ 31 := by unfold leftWeight; split <;> omega
  have hLo := learned_ok (bit := bit) hwl (show 2 ≤ rate by omega) hL
  have hRo := learned_ok (bit := bit) (w := 2 ^ 31 - leftWeight fixed (2 ^ 31 - w)) (by omega)
    (show 2 ≤ rate by omega) hR
  have ha3 := set_ok ha2 (i := c * (24 * 2 ^ fb + 1) + i) (j := c * (24 * 2 ^ fb + 1) + (i + 1)) hLo hRo (-1)
  obtain ⟨i', w', hi', hw', -, -, -, hall'⟩ := refine_eq hfb hb' q5
  obtain ⟨L1, R1, gL1, gR1, -, -, hr2⟩ := hall' a1 ha1.ok (ha1.idle rfl)
  obtain ⟨L2, R2, gL2, gR2, -, -, hr3⟩ := hall' _ ha3 rfl
  dsimp only at gL2 gR2 hr3
  have hne : ∀ x y, x ≤ 24 * 2 ^ fb → y ≤ 24 * 2 ^ fb →
      c * (24 * 2 ^ fb + 1) + x ≠ d * (24 * 2 ^ fb + 1) + y := by
    intro x y hx hy h
    apply hcd
    have e1 : (c * (24 * 2 ^ fb + 1) + x) / (24 * 2 ^ fb + 1) = c := by
      rw [Nat.add_comm, Nat.add_mul_div_right _ _ (by omega), Nat.div_eq_of_lt (by omega)]; omega
    have e2 : (d * (24 * 2 ^ fb + 1) + y) / (24 * 2 ^ fb + 1) = d := by
      rw [Nat.add_comm, Nat.add_mul_div_right _ _ (by omega), Nat.div_eq_of_lt (by omega)]; omega
    rw [← e1, ← e2, h]
  rw [List.getElem?_set_ne (hne _ _ (by omega) (by omega)), List.getElem?_set_ne (hne _ _ (by omega) (by omega)),
    gL1] at gL2
  rw [List.getElem?_set_ne (hne _ _ (by omega) (by omega)), List.getElem?_set_ne (hne _ _ (by omega) (by omega)),
    gR1] at gR2
  obtain rfl := Option.some.inj gL2
  obtain rfl := Option.some.inj gR2
  rw [apmCalls, hr1, ob_some] at h2
  dsimp only at h2
  rw [apmCalls, hu, ob_some, apmCalls, hr3, ob_some] at h2
  rw [apmCalls, hr2, ob_some] at h3
  simp only [apmCalls, ob_some, Option.some.injEq, Prod.mk.injEq] at h2 h3
  exact ⟨_, _, h2.1.symm, h3.1.symm⟩

/-! ## A new map -/

theorem lenAt_half {fb i : Nat} (hfb : fb ≤ 7) (hi : i < 24 * 2 ^ fb) : lenAt fb i < 2 ^ 30 := by
  have hm : stopAt fb (12 * 2 ^ fb) = 2 ^ 30 := by
    have := stopAt_symm hfb (i := 12 * 2 ^ fb) (by omega)
    rw [show 24 * 2 ^ fb - 12 * 2 ^ fb = 12 * 2 ^ fb by omega] at this
    omega
  have h1 := stopAt_bounds hfb (i := i) (by omega)
  have h2 := stopAt_bounds hfb (i := i + 1) (by omega)
  unfold lenAt
  rcases Nat.lt_or_ge i (12 * 2 ^ fb) with h | h
  · have := stopAt_le hfb (i := i + 1) (j := 12 * 2 ^ fb) (by omega) (by omega)
    omega
  · have := stopAt_le hfb (i := 12 * 2 ^ fb) (j := i) h (by omega)
    omega

/-- the weight is the relative position in the interval -/
theorem weight_near {len d : Nat} (hl : len < 2 ^ 30) (hd : d ≤ len) :
    |(len * weightAt len d : Int) - 2 ^ 31 * d| < 2 ^ 31 := by
  by_cases h0 : len = 0
  · have : d = 0 := by omega
    subst h0 this
    norm_num
  · have hf := (extra_facts (len := len) (by omega)).2.2 h0
    unfold weightAt at hf ⊢
    generalize extraOf len = e at *
    generalize 2 ^ shiftOf len = P at *
    obtain ⟨a1, a2⟩ := sq31_exact (d * P) e
    obtain ⟨b1, b2⟩ := sq31_exact (len * P) e
    generalize sq31 (d * P) e = m at *
    generalize sq31 (len * P) e = n at *
    have hl0 : (0 : Int) ≤ len := by omega
    have hd0 : (0 : Int) ≤ d := by omega
    zify at *
    generalize (len : Int) = l at *
    generalize (d : Int) = d at *
    generalize (P : Int) = P at *
    generalize (e : Int) = e at *
    generalize (m : Int) = m at *
    generalize (n : Int) = n at *
    have c1 := mul_le_mul_of_nonneg_left a1 hl0
    have c2 := mul_le_mul_of_nonneg_left (le_of_lt a2) hl0
    have c3 := mul_le_mul_of_nonneg_left b1 hd0
    have c4 := mul_le_mul_of_nonneg_left (le_of_lt b2) hd0
    have hn : n = 2 ^ 31 - 1 - l * P := by linarith
    subst hn
    norm_num at *
    rw [abs_lt]
    constructor <;> nlinarith

/-- C50: a new map returns its input, limited to the range of squash, within one unit of the last place. -/
theorem C50_identity (lut : List (List Int)) (table : List Nat) (al : ApmLut) (a a1 : Apm) (fb contexts : Nat)
    (hfb : fb ≤ 7) (hlut : stretchLutNew = some lut) (htab : squashLutNew lut = some table)
    (hal : apmLutNew fb table = some al) (ha : apmNew contexts fb table = some a) (c sq : Nat) (st : Int)
    (hb : Belongs lut table fb sq st) (r lo up : Nat) (h : refine a c sq st al = some (r, a1))
    (hlo : squash table (-(12 * 2 ^ 21)) = some lo) (hhi : squash table (12 * 2 ^ 21) = some up) :
    |(r : Int) - max (min (sq : Int) up) lo| ≤ 1 := by
  obtain ⟨rfl, rfl, rfl, rfl⟩ := tables_eq hfb hlut htab hal ha
  have hc : c < contexts := by
    by_contra hn
    rw [refine_none hfb hb (new_apm hfb).ok (by omega)] at h
    cases h
  have e0 : stopAt fb 0 = lo := by
    rw [squash_at (j := 0) (d := 0) (by norm_num) (by norm_num) (by norm_num), sqOut_zero] at hlo
    rw [← Option.some.inj hlo]
    unfold stopAt
    rw [Nat.zero_mul]
  have e1 : stopAt fb (24 * 2 ^ fb) = up := by
    rw [squash_at (j := 3072) (d := 0) (by norm_num) (by norm_num) (by norm_num), sqOut_zero] at hhi
    rw [← Option.some.inj hhi]
    unfold stopAt
    rw [Nat.mul_assoc, ← pow_add, show fb + (7 - fb) = 7 by omega]; rfl
  obtain ⟨i, w, hi, hw, hwe, hs1, hs2, hall⟩ := refine_eq hfb hb hc
  obtain ⟨L, R, gL, gR, -, -, hr⟩ := hall _ (new_apm hfb).ok rfl
  rw [hr] at h
  have hget : ∀ k, k < 24 * 2 ^ fb + 1 →
      (newAt contexts fb).mappings[c * (24 * 2 ^ fb + 1) + k]? = some (stopAt fb k) := by
    intro k hk
    unfold newAt
    dsimp only
    clear hall gL gR hr h
    induction c generalizing contexts with
    | zero =>
      obtain ⟨m, rfl⟩ : ∃ m, contexts = m + 1 := ⟨contexts - 1, by omega⟩
      rw [List.replicate_succ, List.flatten_cons, List.getElem?_append_left (by simp; omega), Nat.zero_mul,
        Nat.zero_add, get_range hk]
    | succ c ih =>
      obtain ⟨m, rfl⟩ : ∃ m, contexts = m + 1 := ⟨contexts - 1, by omega⟩
      rw [List.replicate_succ, List.flatten_cons, List.getElem?_append_right (by simp; rw [Nat.add_mul]; omega),
        List.length_map, List.length_range, show (c + 1) * (24 * 2 ^ fb + 1) + k - (24 * 2 ^ fb + 1) =
          c * (24 * 2 ^ fb + 1) + k by rw [Nat.add_mul]; omega]
      exact ih _ (apmNew_eq hfb m) (by omega)
  rw [hget i (by omega)] at gL
  rw [hget (i + 1) (by omega)] at gR
  obtain rfl := Option.some.inj gL
  obtain rfl := Option.some.inj gR
  obtain ⟨rfl, -⟩ := Prod.mk.injEq .. ▸ Option.some.inj h
  have hlim : max (min (sq : Int) up) lo = (limited' fb sq : Int) := by
    unfold limited'
    rw [e0, e1]
    push_cast
    rfl
  rw [hlim]
  have hnear := blend_near (L := stopAt fb i) (R := stopAt fb (i + 1)) hw
  have hmono := stopAt_mono hfb (i := i) (by omega)
  have hwn := weight_near (len := lenAt fb i) (d := limited' fb sq - stopAt fb i) (lenAt_half hfb hi)
    (by unfold lenAt; omega)
  rw [← hwe] at hwn
  unfold lenAt at hwn
  rw [Nat.cast_sub hmono, Nat.cast_sub hs1] at hwn
  generalize (blend (stopAt fb i) (stopAt fb (i + 1)) w : Int) = r at *
  generalize (limited' fb sq : Int) = x at *
  generalize (stopAt fb i : Int) = L at *
  generalize (stopAt fb (i + 1) : Int) = R at *
  generalize (w : Int) = w at *
  rw [abs_le] at hnear ⊢
  rw [abs_lt] at hwn
  have e : L * (2 ^ 31 - w) + R * w = 2 ^ 31 * L + (R - L) * w := by ring
  rw [e] at hnear
  generalize (R - L) * w = z at *
  norm_num at *
  omega

/-! ## The fastest rate -/

/-- repeated learning of zero bits at the fastest rate -/
def train (sq : Nat) (st : Int) : Nat → List ApmEvent
  | 0 => [.refine 0 sq st]
  | n + 1 => .refine 0 sq st :: .update 0 false 1 true :: train sq st n

set_option maxRecDepth 100000 in
theorem train_panics : (apmCalls (lutAt 0) (newAt 1 0) (train 2137642291 11284493 75)).isNone = true ∧
    stOut 2137642291 = 11284493 := by decide +kernel

/-- C41: the rate `1`, which passes the assertions, is unsafe. Learning 75 zero bits brings two entries to their
maximum, refining then rounds up to one and panics. -/
theorem C41_fastest_rate_panics (lut : List (List Int)) (table : List Nat) (al : ApmLut) (a : Apm)
    (hlut : stretchLutNew = some lut) (htab : squashLutNew lut = some table)
    (hal : apmLutNew 0 table = some al) (ha : apmNew 1 0 table = some a) :
    ∃ es, ApmAllowed 1 false es ∧ (∀ c sq st, ApmEvent.refine c sq st ∈ es → Belongs lut table 0 sq st) ∧
      apmCalls al a es = none := by
  obtain ⟨rfl, rfl, rfl, rfl⟩ := tables_eq (by omega) hlut htab hal ha
  have hb : Belongs stretchTable squashTable 0 2137642291 11284493 := by
    refine ⟨by norm_num, by norm_num, Or.inr ⟨by omega, ?_⟩⟩
    rw [(stretch_eq stretchTable_ok (by norm_num) (by norm_num)).1, train_panics.2]
  refine ⟨train 2137642291 11284493 75, ?_, ?_, Option.isNone_iff_eq_none.mp train_panics.1⟩
  · have : ∀ n sq st, ApmAllowed 1 false (train sq st n) := by
      intro n sq st
      induction n with
      | zero => exact ⟨rfl, by omega, trivial⟩
      | succ n ih => exact ⟨rfl, by omega, rfl, by omega, by omega, by omega, ih⟩
    exact this _ _ _
  · have : ∀ n sq st c sq' st', ApmEvent.refine c sq' st' ∈ train sq st n → sq' = sq ∧ st' = st := by
      intro n sq st c sq' st' h
      induction n with
      | zero =>
        simp only [train, List.mem_cons, List.not_mem_nil, or_false, ApmEvent.refine.injEq] at h
        exact h.2
      | succ n ih =>
        simp only [train, List.mem_cons, ApmEvent.refine.injEq, reduceCtorEq, false_or] at h
        rcases h with h | h
        · exact h.2
        · exact ih h
    intro c sq st h
    obtain ⟨rfl, rfl⟩ := this _ _ _ c sq st h
    exact hb

/-! ## Examples -/

theorem example_stretch : stOut 1500000000 = 1761874 := by decide +kernel

/-- an input that belongs together -/
theorem example_belongs : Belongs stretchTable squashTable 1 1500000000 1761874 := by
  refine ⟨by norm_num, by norm_num, Or.inr ⟨by omega, ?_⟩⟩
  rw [(stretch_eq stretchTable_ok (by norm_num) (by norm_num)).1, example_stretch]

set_option maxRecDepth 100000 in
/-- the results of a short history: the first is the input, then zero bits raise it and a one bit lowers it -/
example : (apmCalls (lutAt 1) (newAt 2 1) [.refine 1 1500000000 1761874, .update 1 false 5 true,
    .refine 1 1500000000 1761874, .update 1 false 5 false, .refine 1 1500000000 1761874, .update 1 true 5 true,
    .refine 1 1500000000 1761874, .update 1 true 5 true, .refine 0 1500000000 1761874]).map Prod.fst =
    some [1500000000, 1510116932, 1521068279, 1497301588, 1500000000] := by decide +kernel

example : ApmAllowed 2 false [.refine 1 1500000000 1761874, .update 1 false 5 true, .refine 1 1500000000 1761874] :=
  ⟨rfl, by omega, rfl, by omega, by omega, by omega, rfl, by omega, trivial⟩

example : ∀ e ∈ [ApmEvent.refine 1 1500000000 1761874, .update 1 false 5 true], e.Sane stretchTable squashTable 1 := by
  intro e he
  simp only [List.mem_cons, List.not_mem_nil, or_false] at he
  rcases he with rfl | rfl
  · exact example_belongs
  · show (5 : Nat) ≠ 1
    omega

/-- both inputs of an update with the fixed weight move by the same part of the distance: `2^31 - 1500000000` is
`647483648`, of which a 64th is `10116932` -/
example : (647483648 / 2 ^ 6 : Nat) = 10116932 := by norm_num

end Verif.Mix
