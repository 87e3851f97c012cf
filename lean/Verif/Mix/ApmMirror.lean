import Verif.Mix.ApmProps

/-! # Adaptive probability maps and complemented histories (C64) -/

namespace Verif.Mix

open Verif Verif.Fixed Verif.Lut

attribute [local irreducible] squashTable stretchTable

theorem stop_squash {fb : Nat} {i : Int} (hfb : fb ≤ 7) (h : |i| ≤ 12 * 2 ^ fb) :
    squash squashTable (i * 2 ^ (21 - fb)) = some (stopAt fb (i + 12 * 2 ^ fb).toNat) := by
  obtain ⟨h1, h2⟩ := abs_le.mp h
  obtain ⟨k, hk⟩ : ∃ k : Nat, (k : Int) = i + 12 * 2 ^ fb := ⟨(i + 12 * 2 ^ fb).toNat, by omega⟩
  have hk24 : k ≤ 24 * 2 ^ fb := by
    have : ((2 ^ fb : Nat) : Int) = 2 ^ fb := by push_cast; rfl
    omega
  have hidx := stopAt_index hfb hk24
  have hx : i * 2 ^ (21 - fb) = ((16384 * (k * 2 ^ (7 - fb)) + 0 : Nat) : Int) - 25165824 := by
    have e2 : (2 : Int) ^ (21 - fb) = 2 ^ (7 - fb) * 16384 := by
      rw [show 21 - fb = (7 - fb) + 14 by omega, pow_add]; norm_num
    have e3 : (2 : Int) ^ fb * 2 ^ (7 - fb) = 128 := by
      rw [← pow_add, show fb + (7 - fb) = 7 by omega]; norm_num
    rw [e2, show i = k - 12 * 2 ^ fb by omega]
    push_cast
    linear_combination (-12 * 16384 : Int) * e3
  rw [hx, squash_cell (by omega) (by omega), sqOut_zero, ← hk, Int.toNat_natCast]
  rfl

/-- off the stops -/
theorem offStops_stop {fb sq : Nat} (hfb : fb ≤ 7) (h : OffStops squashTable fb sq) {i : Nat} (h1 : 1 ≤ i)
    (h2 : i < 24 * 2 ^ fb) : stopAt fb i ≠ limited' fb sq := by
  have hp : ((2 ^ fb : Nat) : Int) = 2 ^ fb := by push_cast; rfl
  have e : (2 : Int) ^ fb * 2 ^ (21 - fb) = 2 ^ 21 := by rw [← pow_add, show fb + (21 - fb) = 21 by omega]
  have ha : |(i : Int) - 12 * 2 ^ fb| < 12 * 2 ^ fb := by rw [abs_lt]; omega
  have hlo := stop_squash hfb (i := -(12 * 2 ^ fb)) (by rw [abs_neg, abs_of_nonneg (by positivity)])
  have hup := stop_squash hfb (i := 12 * 2 ^ fb) (by rw [abs_of_nonneg (by positivity)])
  have hv := stop_squash hfb (i := (i : Int) - 12 * 2 ^ fb) (le_of_lt ha)
  rw [show -(12 * 2 ^ fb) * 2 ^ (21 - fb) = -(12 * 2 ^ 21 : Int) by rw [← e]; ring,
    show (-(12 * 2 ^ fb) + 12 * 2 ^ fb : Int).toNat = 0 by omega] at hlo
  rw [show 12 * 2 ^ fb * 2 ^ (21 - fb) = (12 * 2 ^ 21 : Int) by rw [← e]; ring,
    show (12 * 2 ^ fb + 12 * 2 ^ fb : Int).toNat = 24 * 2 ^ fb by omega] at hup
  rw [show ((i : Int) - 12 * 2 ^ fb + 12 * 2 ^ fb).toNat = i by omega] at hv
  exact h _ _ _ _ hlo hup ha hv

theorem limited_flip {fb sq : Nat} (hfb : fb ≤ 7) (h : sq < 2 ^ 31) :
    limited' fb (2 ^ 31 - sq) + limited' fb sq = 2 ^ 31 := by
  have h1 := stopAt_symm hfb (i := 0) (by omega)
  have h2 := stopAt_le hfb (i := 0) (j := 24 * 2 ^ fb) (by omega) (le_refl _)
  rw [Nat.sub_zero] at h1
  unfold limited'
  omega

/-- the interval of a complemented input -/
theorem index_flip {fb x i i' : Nat} (hfb : fb ≤ 7) (hi : i < 24 * 2 ^ fb) (hi' : i' < 24 * 2 ^ fb) (hx : x ≤ 2 ^ 31)
    (hoff : ∀ k, 1 ≤ k → k < 24 * 2 ^ fb → stopAt fb k ≠ x) (h1 : stopAt fb i ≤ x) (h2 : x ≤ stopAt fb (i + 1))
    (h1' : stopAt fb i' ≤ 2 ^ 31 - x) (h2' : 2 ^ 31 - x ≤ stopAt fb (i' + 1)) : i' = 24 * 2 ^ fb - 1 - i := by
  have s1 := stopAt_symm hfb (i := i') (by omega)
  have s2 := stopAt_symm hfb (i := i' + 1) (by omega)
  rcases Nat.lt_trichotomy i (24 * 2 ^ fb - 1 - i') with h | h | h
  · exfalso
    have := stopAt_le hfb (i := i + 1) (j := 24 * 2 ^ fb - (i' + 1)) (by omega) (by omega)
    exact hoff (i + 1) (by omega) (by omega) (by omega)
  · omega
  · exfalso
    have := stopAt_le hfb (i := 24 * 2 ^ fb - i') (j := i) (by omega) (by omega)
    exact hoff i (by omega) (by omega) (by omega)

/-- the weights of complemented inputs -/
theorem weight_flip {len d d' : Nat} (h : len < 2 ^ 31) (h0 : len ≠ 0) (hd : d + d' = len) :
    weightAt len d + weightAt len d' ≤ 2 ^ 31 ∧ 2 ^ 31 ≤ weightAt len d + weightAt len d' + 2 := by
  have he := (extra_facts h).2.2 h0
  have hs : d * 2 ^ shiftOf len + d' * 2 ^ shiftOf len = len * 2 ^ shiftOf len := by rw [← hd, Nat.add_mul]
  unfold weightAt at *
  generalize extraOf len = e at *
  generalize d * 2 ^ shiftOf len = a at *
  generalize d' * 2 ^ shiftOf len = b at *
  rw [← hs] at he
  clear hs
  obtain ⟨x1, x2⟩ := sq31_exact a e
  obtain ⟨y1, y2⟩ := sq31_exact b e
  obtain ⟨z1, z2⟩ := sq31_exact (a + b) e
  rw [Nat.add_mul] at z1 z2
  omega

/-- the blended values of complemented entries -/
theorem blend_flip {L R w w' : Nat} (hL : L ≤ 2 ^ 31) (hR : R ≤ 2 ^ 31) (hw : w < 2 ^ 31) (hw' : w' < 2 ^ 31)
    (h1 : w + w' ≤ 2 ^ 31) (h2 : 2 ^ 31 ≤ w + w' + 2) (hLR : 0 < L ∧ L < 2 ^ 31) :
    |(blend L R w : Int) + blend (2 ^ 31 - R) (2 ^ 31 - L) w' - 2 ^ 31| ≤ 3 := by
  unfold blend
  obtain ⟨a1, a2⟩ := sq31_exact L (2 ^ 31 - w)
  obtain ⟨b1, b2⟩ := sq31_exact R w
  obtain ⟨c1, c2⟩ := sq31_exact (2 ^ 31 - R) (2 ^ 31 - w')
  obtain ⟨d1, d2⟩ := sq31_exact (2 ^ 31 - L) w'
  have key : (L : Int) * (2 ^ 31 - w) + R * w + (2 ^ 31 - R) * (2 ^ 31 - w') + (2 ^ 31 - L) * w' =
      2 ^ 31 * 2 ^ 31 + (R - L) * (w + w' - 2 ^ 31) := by ring
  have hb1 : ((R : Int) - L) * (w + w' - 2 ^ 31) ≤ 2 * (2 ^ 31 - 1) := by
    rcases show (w : Int) + w' - 2 ^ 31 = 0 ∨ (w : Int) + w' - 2 ^ 31 = -1 ∨ (w : Int) + w' - 2 ^ 31 = -2 by omega with
      h | h | h <;> rw [h] <;> omega
  have hb2 : -(2 * (2 ^ 31 - 1)) ≤ ((R : Int) - L) * (w + w' - 2 ^ 31) := by
    rcases show (w : Int) + w' - 2 ^ 31 = 0 ∨ (w : Int) + w' - 2 ^ 31 = -1 ∨ (w : Int) + w' - 2 ^ 31 = -2 by omega with
      h | h | h <;> rw [h] <;> omega
  zify [show w ≤ 2 ^ 31 by omega, show w' ≤ 2 ^ 31 by omega, hL, hR] at a1 a2 b1 b2 c1 c2 d1 d2
  push_cast
  rw [abs_le]
  generalize ((sq31 L (2 ^ 31 - w) : Nat) : Int) = A at *
  generalize ((sq31 R w : Nat) : Int) = B at *
  generalize ((sq31 (2 ^ 31 - R) (2 ^ 31 - w') : Nat) : Int) = C at *
  generalize ((sq31 (2 ^ 31 - L) w' : Nat) : Int) = D at *
  generalize (L : Int) * (2 ^ 31 - w) = p at *
  generalize (R : Int) * w = q at *
  generalize ((2 : Int) ^ 31 - R) * (2 ^ 31 - w') = r at *
  generalize ((2 : Int) ^ 31 - L) * w' = s at *
  generalize ((R : Int) - L) * (w + w' - 2 ^ 31) = t at *
  norm_num at *
  omega

/-- entries stay complemented -/
theorem learned_flip {w rate x : Nat} (bit : Bool) (hw : w ≤ 2 ^ 31) (hx : EntryOk x) :
    learned (!bit) w rate (2 ^ 31 - x) = 2 ^ 31 - learned bit w rate x := by
  obtain ⟨h1, h2⟩ := hx
  have hc : ∀ e, sq31 w e ≤ e := fun e => by rw [sq31_comm]; exact sq31_le' hw
  have hd : ∀ y, y / 2 ^ rate ≤ y := fun y => Nat.div_le_self _ _
  unfold learned
  cases bit
  · have := hc ((2 ^ 31 - x) / 2 ^ rate)
    have := hd (2 ^ 31 - x)
    simp only [Bool.not_false, if_true, Bool.false_eq_true, if_false]
    omega
  · have := hc (x / 2 ^ rate)
    have := hd x
    simp only [Bool.not_true, if_true, Bool.false_eq_true, if_false, show 2 ^ 31 - (2 ^ 31 - x) = x by omega]
    omega

/-- two maps with complemented entries -/
structure FlipApm (fb contexts : Nat) (p : Bool) (a b : Apm) : Prop where
  inv : ApmInv fb contexts p a
  inv' : ApmInv fb contexts p b
  entry : ∀ c k x, c < contexts → k ≤ 24 * 2 ^ fb → a.mappings[c * (24 * 2 ^ fb + 1) + k]? = some x →
    b.mappings[c * (24 * 2 ^ fb + 1) + (24 * 2 ^ fb - k)]? = some (2 ^ 31 - x)
  saved : ∀ i : Nat, a.saved = (i : Int) → i < 24 * 2 ^ fb → b.saved = ((24 * 2 ^ fb - 1 - i : Nat) : Int)

theorem newAt_get {fb : Nat} : ∀ {contexts c k : Nat}, c < contexts → k < 24 * 2 ^ fb + 1 →
    (newAt contexts fb).mappings[c * (24 * 2 ^ fb + 1) + k]? = some (stopAt fb k) := by
  intro contexts c k hc hk
  unfold newAt
  dsimp only
  induction c generalizing contexts with
  | zero =>
    obtain ⟨m, rfl⟩ : ∃ m, contexts = m + 1 := ⟨contexts - 1, by omega⟩
    rw [List.replicate_succ, List.flatten_cons, List.getElem?_append_left (by simp; omega), Nat.zero_mul,
      Nat.zero_add, get_range hk]
  | succ c ih =>
    obtain ⟨m, rfl⟩ : ∃ m, contexts = m + 1 := ⟨contexts - 1, by omega⟩
    rw [List.replicate_succ, List.flatten_cons, List.getElem?_append_right (by simp; rw [Nat.add_mul]; omega),
      List.length_map, List.length_range, show (c + 1) * (24 * 2 ^ fb + 1) + k - (24 * 2 ^ fb + 1) =
        c * (24 * 2 ^ fb + 1) + k by rw [Nat.add_mul]; omega]
    exact ih (by omega)

theorem flip_new {fb contexts : Nat} (hfb : fb ≤ 7) :
    FlipApm fb contexts false (newAt contexts fb) (newAt contexts fb) := by
  refine ⟨new_apm hfb, new_apm hfb, ?_, ?_⟩
  · intro c k x hc hk hx
    rw [newAt_get hc (by omega)] at hx
    obtain rfl := Option.some.inj hx
    rw [newAt_get hc (by omega)]
    have := stopAt_symm hfb hk
    exact congrArg some (by omega)
  · intro i hi _
    have : (-1 : Int) = i := hi
    omega

theorem belongs_flip {fb sq : Nat} {st : Int} (h : Belongs stretchTable squashTable fb sq st) :
    Belongs stretchTable squashTable fb (2 ^ 31 - sq) (-st) ∧ 0 < sq := by
  obtain ⟨h1, h2, h3⟩ := h
  rcases h3 with h3 | ⟨h4, h3⟩
  · obtain ⟨lut, table, e1, e2, -, hs⟩ := C36_squash
    rw [stretchLut_eq] at e1
    obtain rfl := Option.some.inj e1
    rw [squashLut_eq stretchTable_ok] at e2
    obtain rfl := Option.some.inj e2
    obtain ⟨r, k1, k2, k3, k4⟩ := hs st h1
    rw [h3] at k1
    obtain rfl := Option.some.inj k1
    exact ⟨⟨by rwa [abs_neg], by omega, Or.inl k2⟩, by omega⟩
  · have h0 : 0 < sq := by
      by_contra hcon
      rw [show sq = 0 by omega, C35_zero] at h3
      cases h3
    obtain ⟨lut, e1, -, hs⟩ := C35_stretch
    rw [stretchLut_eq] at e1
    obtain rfl := Option.some.inj e1
    obtain ⟨r, k1, k2, -⟩ := hs sq h0 h2
    rw [h3] at k1
    obtain rfl := Option.some.inj k1
    exact ⟨⟨by rwa [abs_neg], by omega, Or.inr ⟨h4, k2⟩⟩, h0⟩

theorem index_inj {n c c' k k' : Nat} (hk : k < n) (hk' : k' < n) (h : c * n + k = c' * n + k') : c = c' ∧ k = k' := by
  have h1 : (c * n + k) / n = c := by
    rw [Nat.mul_comm, Nat.mul_add_div (by omega), Nat.div_eq_of_lt hk, Nat.add_zero]
  have h2 : (c' * n + k') / n = c' := by
    rw [Nat.mul_comm, Nat.mul_add_div (by omega), Nat.div_eq_of_lt hk', Nat.add_zero]
  have : c = c' := by rw [← h1, h, h2]
  subst this
  exact ⟨rfl, by omega⟩

theorem apm_flip {fb contexts : Nat} (hfb : fb ≤ 7) : ∀ (es : List ApmEvent) (p : Bool) (a b : Apm),
    FlipApm fb contexts p a b → (∀ e ∈ es, e.Sane stretchTable squashTable fb ∧ e.Even squashTable fb) →
    ApmAllowed contexts p es → ∃ rs a' rs' b', apmCalls (lutAt fb) a es = some (rs, a') ∧
      apmCalls (lutAt fb) b (es.map ApmEvent.flip) = some (rs', b') ∧
      List.Forall₂ (fun r r' : Nat => |(r : Int) + r' - 2 ^ 31| ≤ 3) rs rs' := by
  intro es
  induction es with
  | nil => intro p a b _ _ _; exact ⟨[], a, [], b, rfl, rfl, .nil⟩
  | cons e es ih =>
    intro p a b hf hs hA
    have hs1 := hs e (by simp)
    have hs2 : ∀ e ∈ es, e.Sane stretchTable squashTable fb ∧ e.Even squashTable fb := fun e he => hs e (by simp [he])
    cases e with
    | refine c sq st =>
      obtain ⟨rfl, hc, hA⟩ := hA
      have hb : Belongs stretchTable squashTable fb sq st := hs1.1
      obtain ⟨hb', h0⟩ := belongs_flip hb
      obtain ⟨i, w, hi, hw, ew, g1, g2, hall⟩ := refine_eq hfb hb hc
      obtain ⟨L, R, hL, hR, oL, oR, er⟩ := hall a hf.inv.ok (hf.inv.idle rfl)
      obtain ⟨i', w', hi', hw', ew', g1', g2', hall'⟩ := refine_eq hfb hb' hc
      obtain ⟨L', R', hL', hR', oL', oR', er'⟩ := hall' b hf.inv'.ok (hf.inv'.idle rfl)
      have hlim := limited_flip hfb hb.2.1
      have hii : i' = 24 * 2 ^ fb - 1 - i := by
        refine index_flip hfb hi hi' (by omega) (fun k h1 h2 => offStops_stop hfb hs1.2 h1 h2) g1 g2 ?_ ?_
        · omega
        · omega
      subst hii
      have hL2 := hf.entry c i L hc (by omega) hL
      have hR2 := hf.entry c (i + 1) R hc (by omega) hR
      rw [show 24 * 2 ^ fb - 1 - i + 1 = 24 * 2 ^ fb - i by omega, hL2] at hR'
      rw [show 24 * 2 ^ fb - (i + 1) = 24 * 2 ^ fb - 1 - i by omega, hL'] at hR2
      obtain rfl := Option.some.inj hR'
      obtain rfl := Option.some.inj hR2
      have hlen := lenAt_symm hfb hi
      rw [show 24 * 2 ^ fb - i - 1 = 24 * 2 ^ fb - 1 - i by omega] at hlen
      rw [hlen] at ew'
      have s2 := stopAt_symm hfb (i := i + 1) (by omega)
      rw [show 24 * 2 ^ fb - (i + 1) = 24 * 2 ^ fb - 1 - i by omega] at s2
      have hl0 : lenAt fb i ≠ 0 := by
        intro hz
        unfold lenAt at hz
        have hoff1 : 1 ≤ i → stopAt fb i ≠ limited' fb sq := fun h1 => offStops_stop hfb hs1.2 h1 hi
        have hoff2 : i + 1 < 24 * 2 ^ fb → stopAt fb (i + 1) ≠ limited' fb sq :=
          fun h1 => offStops_stop hfb hs1.2 (by omega) h1
        have hp : 1 ≤ 2 ^ fb := Nat.one_le_two_pow
        rcases Nat.lt_or_ge (i + 1) (24 * 2 ^ fb) with h | h
        · exact hoff2 h (by omega)
        · exact hoff1 (by omega) (by omega)
      obtain ⟨k1, k2⟩ := weight_flip (lenAt_lt hfb hi) hl0 (d := limited' fb sq - stopAt fb i)
        (d' := limited' fb (2 ^ 31 - sq) - stopAt fb (24 * 2 ^ fb - 1 - i)) (by unfold lenAt; omega)
      rw [← ew, ← ew'] at k1 k2
      have hbl := blend_flip (L := L) (R := R) (by have := oL.2; omega) (by have := oR.2; omega) hw hw' k1 k2
        ⟨by have := oL.1; omega, by have := oL.2; omega⟩
      obtain ⟨rs, a', rs', b', f1, f2, f3⟩ := ih true { a with saved := (i : Int), savedWeight := 2 ^ 31 - w }
        { b with saved := ((24 * 2 ^ fb - 1 - i : Nat) : Int), savedWeight := 2 ^ 31 - w' } (by
          refine ⟨⟨⟨hf.inv.ok.bits, hf.inv.ok.ctx, hf.inv.ok.len, hf.inv.ok.entries⟩, fun h => (by cases h),
              fun _ => ⟨i, hi, rfl, by dsimp only; omega, by dsimp only; omega⟩⟩,
            ⟨⟨hf.inv'.ok.bits, hf.inv'.ok.ctx, hf.inv'.ok.len, hf.inv'.ok.entries⟩, fun h => (by cases h),
              fun _ => ⟨_, hi', rfl, by dsimp only; omega, by dsimp only; omega⟩⟩, hf.entry, ?_⟩
          intro k hk _
          have : (i : Int) = k := hk
          have : i = k := by omega
          rw [this]) hs2 hA
      refine ⟨_ :: rs, a', _ :: rs', b', ?_, ?_, .cons hbl f3⟩
      · rw [apmCalls, er, ob_some]
        dsimp only
        rw [f1, ob_some]
      · rw [List.map_cons, ApmEvent.flip, apmCalls, er', ob_some]
        dsimp only
        rw [f2, ob_some]
    | update c bit rate fixed =>
      obtain ⟨rfl, hc, hr1, hr2, hA⟩ := hA
      have hrate : rate ≠ 1 := hs1.1
      obtain rfl : fixed = true := hs1.2
      obtain ⟨i, hi, hsv, w1, w2⟩ := hf.inv.busy rfl
      have hsv' := hf.saved i hsv hi
      obtain ⟨L, hL, oL⟩ := hf.inv.ok.get hc (i := i) (by omega)
      obtain ⟨R, hR, oR⟩ := hf.inv.ok.get hc (i := i + 1) (by omega)
      have hL2 := hf.entry c i L hc (by omega) hL
      have hR2 := hf.entry c (i + 1) R hc (by omega) hR
      obtain ⟨i', hi', hsv2, w1', w2'⟩ := hf.inv'.busy rfl
      have hii : i' = 24 * 2 ^ fb - 1 - i := by omega
      subst hii
      obtain ⟨a1, ea, ia⟩ := update_inv (bit := bit) (fixed := true) hf.inv hc (show 2 ≤ rate by omega) hr2
      obtain ⟨b1, eb, ib⟩ := update_inv (bit := !bit) (fixed := true) hf.inv' hc (show 2 ≤ rate by omega) hr2
      have ca := update_closed (bit := bit) (fixed := true) hf.inv.ok hi hsv hc rfl w1 w2 (show 2 ≤ rate by omega) hr2 hL hR
      have cb := update_closed (bit := !bit) (fixed := true) hf.inv'.ok hi' hsv2 hc rfl w1' w2' (show 2 ≤ rate by omega)
        hr2 (by rw [show 24 * 2 ^ fb - 1 - i = 24 * 2 ^ fb - (i + 1) by omega]; exact hR2)
        (by rw [show 24 * 2 ^ fb - 1 - i + 1 = 24 * 2 ^ fb - i by omega]; exact hL2)
      have hlw : ∀ s, leftWeight true s = 2 ^ 30 := fun s => rfl
      rw [hlw, show (2 ^ 31 - 2 ^ 30 : Nat) = 2 ^ 30 by norm_num] at ca cb
      rw [learned_flip bit (by norm_num) oL, learned_flip bit (by norm_num) oR] at cb
      rw [ea] at ca
      rw [eb] at cb
      have ca := Option.some.inj ca
      have cb := Option.some.inj cb
      obtain ⟨rs, a', rs', b', f1, f2, f3⟩ := ih false a1 b1 (by
        refine ⟨ia, ib, ?_, ?_⟩
        · intro c' k x hc' hk hx
          rw [ca] at hx
          rw [cb]
          dsimp only at hx ⊢
          have hlt : ∀ {k}, k ≤ 24 * 2 ^ fb → c * (24 * 2 ^ fb + 1) + k < contexts * (24 * 2 ^ fb + 1) := by
            intro k hk
            calc c * (24 * 2 ^ fb + 1) + k < c * (24 * 2 ^ fb + 1) + (24 * 2 ^ fb + 1) := by omega
              _ = (c + 1) * (24 * 2 ^ fb + 1) := by rw [Nat.add_mul]; omega
              _ ≤ contexts * (24 * 2 ^ fb + 1) := Nat.mul_le_mul_right _ hc
          by_cases h1 : c' = c ∧ k = i + 1
          · obtain ⟨rfl, rfl⟩ := h1
            rw [List.getElem?_set_self (by rw [List.length_set, hf.inv.ok.len]; exact hlt hk)] at hx
            obtain rfl := Option.some.inj hx
            rw [List.getElem?_set_ne (by omega), show 24 * 2 ^ fb - (i + 1) = 24 * 2 ^ fb - 1 - i by omega,
              List.getElem?_set_self (by rw [hf.inv'.ok.len]; exact hlt (by omega))]
          · rw [List.getElem?_set_ne (by
              intro hcon
              obtain ⟨e1, e2⟩ := index_inj (by omega) (by omega) hcon
              exact h1 ⟨e1.symm, e2.symm⟩)] at hx
            by_cases h2 : c' = c ∧ k = i
            · obtain ⟨rfl, rfl⟩ := h2
              rw [List.getElem?_set_self (by rw [hf.inv.ok.len]; exact hlt hk)] at hx
              obtain rfl := Option.some.inj hx
              rw [show 24 * 2 ^ fb - 1 - k + 1 = 24 * 2 ^ fb - k by omega,
                List.getElem?_set_self (by rw [List.length_set, hf.inv'.ok.len]; exact hlt (by omega))]
            · rw [List.getElem?_set_ne (by
                intro hcon
                obtain ⟨e1, e2⟩ := index_inj (by omega) (by omega) hcon
                exact h2 ⟨e1.symm, e2.symm⟩)] at hx
              rw [List.getElem?_set_ne (by
                  intro hcon
                  obtain ⟨e1, e2⟩ := index_inj (by omega) (by omega) hcon
                  exact h2 ⟨e1.symm, by omega⟩),
                List.getElem?_set_ne (by
                  intro hcon
                  obtain ⟨e1, e2⟩ := index_inj (by omega) (by omega) hcon
                  exact h1 ⟨e1.symm, by omega⟩)]
              exact hf.entry c' k x hc' hk hx
        · intro k hk _
          rw [ia.idle rfl] at hk
          omega) hs2 hA
      refine ⟨rs, a', rs', b', ?_, ?_, f3⟩
      · rw [apmCalls, ea, ob_some, f1]
      · rw [List.map_cons, ApmEvent.flip, apmCalls, eb, ob_some, f2]

/-- **C64 (complemented histories).** A map that learns with fixed weights does not favour one of the two bits: the same
history with all probabilities and bits complemented gives complemented results, within three units of the last place,
however long the history is. Inputs exactly on an interior stop are excluded, see `C64_on_stop`. -/
theorem C64_complement (lut : List (List Int)) (table : List Nat) (al : ApmLut) (a : Apm) (fb contexts : Nat)
    (hfb : fb ≤ 7) (hlut : stretchLutNew = some lut) (htab : squashLutNew lut = some table)
    (hal : apmLutNew fb table = some al) (ha : apmNew contexts fb table = some a) (es : List ApmEvent)
    (hs : ∀ e ∈ es, e.Sane lut table fb ∧ e.Even table fb) (hA : ApmAllowed contexts false es) :
    ∃ rs a' rs' b', apmCalls al a es = some (rs, a') ∧ apmCalls al a (es.map ApmEvent.flip) = some (rs', b') ∧
      List.Forall₂ (fun r r' : Nat => |(r : Int) + r' - 2 ^ 31| ≤ 3) rs rs' := by
  obtain ⟨rfl, rfl, rfl, rfl⟩ := tables_eq hfb hlut htab hal ha
  exact apm_flip hfb es false _ _ (flip_new hfb) hs hA

theorem belongs_half : Belongs stretchTable squashTable 0 (2 ^ 30) 0 := by
  refine ⟨by norm_num, by norm_num, Or.inl ?_⟩
  have := stop_squash (fb := 0) (i := 0) (by omega) (by norm_num)
  rw [Int.zero_mul] at this
  rw [this]
  decide +kernel

theorem stretch_billion : stOut 1000000000 = -288508 := by decide +kernel

theorem belongs_billion : Belongs stretchTable squashTable 0 1000000000 (-288508) := by
  refine ⟨by norm_num, by norm_num, Or.inr ⟨by omega, ?_⟩⟩
  rw [(stretch_eq stretchTable_ok (by norm_num) (by norm_num)).1, stretch_billion]

/-- learn that the probability one half is too high, then ask about a lower one -/
def halfHistory : List ApmEvent := [.refine 0 (2 ^ 30) 0, .update 0 true 2 true, .refine 0 1000000000 (-288508)]

set_option maxRecDepth 100000 in
theorem half_results :
    (apmCalls (lutAt 0) (newAt 1 0) halfHistory).map Prod.fst = some [1073741824, 885729004] ∧
    (apmCalls (lutAt 0) (newAt 1 0) (halfHistory.map ApmEvent.flip)).map Prod.fst = some [1073741824, 1272483648] := by
  decide +kernel

/-- **C64 (inputs on a stop).** With fixed weights, an input exactly on a stop (probability one half, for example) moves
that stop and the one above it, whatever the bit is: complemented histories then give results that are far from
complemented, here by more than ten million units. -/
theorem C64_on_stop (lut : List (List Int)) (table : List Nat) (al : ApmLut) (a : Apm)
    (hlut : stretchLutNew = some lut) (htab : squashLutNew lut = some table)
    (hal : apmLutNew 0 table = some al) (ha : apmNew 1 0 table = some a) :
    ∃ es : List ApmEvent, (∀ e ∈ es, e.Sane lut table 0) ∧ (∀ e ∈ es, ∀ c bit rate fixed,
        e = .update c bit rate fixed → fixed = true) ∧ ApmAllowed 1 false es ∧
      ∃ r r', (apmCalls al a es).map Prod.fst = some [2 ^ 30, r] ∧
        (apmCalls al a (es.map ApmEvent.flip)).map Prod.fst = some [2 ^ 30, r'] ∧ (r : Int) + r' - 2 ^ 31 = 10729004 := by
  obtain ⟨rfl, rfl, rfl, rfl⟩ := tables_eq (by omega) hlut htab hal ha
  refine ⟨halfHistory, ?_, ?_, ?_, 885729004, 1272483648, half_results.1, half_results.2, by norm_num⟩
  · intro e he
    simp only [halfHistory, List.mem_cons, List.not_mem_nil, or_false] at he
    rcases he with rfl | rfl | rfl
    · exact belongs_half
    · show (2 : Nat) ≠ 1
      omega
    · exact belongs_billion
  · intro e he c bit rate fixed heq
    simp only [halfHistory, List.mem_cons, List.not_mem_nil, or_false] at he
    rcases he with rfl | rfl | rfl
    · cases heq
    · cases heq
      rfl
    · cases heq
  · exact ⟨rfl, by omega, rfl, by omega, by omega, by omega, rfl, by omega, trivial⟩

/-! ## an instance -/

set_option maxRecDepth 100000 in
theorem billion_stops : ∀ i ∈ List.range 25, stopAt 0 i ≠ 1000000000 := by decide +kernel

set_option maxRecDepth 100000 in
theorem outer_stops : stopAt 0 0 < 1000000000 ∧ 1000000000 < stopAt 0 24 := by decide +kernel

theorem even_billion : OffStops squashTable 0 1000000000 := by
  intro lo up v i h1 h2 h3 h4
  have e1 := stop_squash (fb := 0) (i := -12) (by omega) (by norm_num)
  have e2 := stop_squash (fb := 0) (i := 12) (by omega) (by norm_num)
  have e3 := stop_squash (fb := 0) (i := i) (by omega) (le_of_lt h3)
  rw [show (-12 : Int) * 2 ^ (21 - 0) = -(12 * 2 ^ 21) by norm_num, h1] at e1
  rw [show (12 : Int) * 2 ^ (21 - 0) = 12 * 2 ^ 21 by norm_num, h2] at e2
  rw [h4] at e3
  obtain rfl := Option.some.inj e1
  obtain rfl := Option.some.inj e2
  obtain rfl := Option.some.inj e3
  obtain ⟨o1, o2⟩ := outer_stops
  rw [show (-12 + 12 * 2 ^ 0 : Int).toNat = 0 by norm_num, show (12 + 12 * 2 ^ 0 : Int).toNat = 24 by rfl]
  rw [abs_lt] at h3
  have := billion_stops (i + 12 * 2 ^ 0).toNat (List.mem_range.mpr (by omega))
  omega

/-- a history that meets the hypotheses of `C64_complement` -/
def evenHistory : List ApmEvent := [.refine 0 1000000000 (-288508), .update 0 true 3 true,
  .refine 0 1000000000 (-288508), .update 0 false 5 true, .refine 0 1000000000 (-288508)]

example : (∀ e ∈ evenHistory, e.Sane stretchTable squashTable 0 ∧ e.Even squashTable 0) ∧
    ApmAllowed 1 false evenHistory := by
  constructor
  · intro e he
    simp only [evenHistory, List.mem_cons, List.not_mem_nil, or_false] at he
    rcases he with rfl | rfl | rfl | rfl | rfl
    · exact ⟨belongs_billion, even_billion⟩
    · exact ⟨(by decide : (3 : Nat) ≠ 1), rfl⟩
    · exact ⟨belongs_billion, even_billion⟩
    · exact ⟨(by decide : (5 : Nat) ≠ 1), rfl⟩
    · exact ⟨belongs_billion, even_billion⟩
  · exact ⟨rfl, by omega, rfl, by omega, by omega, by omega, rfl, by omega, rfl, by omega, by omega, by omega, rfl,
      by omega, trivial⟩

set_option maxRecDepth 100000 in
/-- its results and those of the complemented history add up to `2^31`, up to one -/
example : (apmCalls (lutAt 0) (newAt 1 0) evenHistory).map Prod.fst = some [1000000000, 937500000, 956405994] ∧
    (apmCalls (lutAt 0) (newAt 1 0) (evenHistory.map ApmEvent.flip)).map Prod.fst =
      some [1147483648, 1209983648, 1191077653] := by decide +kernel

end Verif.Mix
