import Verif.Mix.ApmLemmas
import Verif.Mix.ApmSpec

/-! # Closed forms of refining and updating -/

namespace Verif.Mix

open Verif Verif.Fixed Verif.Lut

attribute [local irreducible] squashTable stretchTable

/-! ## The interval -/

/-- the input limited to the stops -/
def limited' (fb sq : Nat) : Nat := max (min sq (stopAt fb (24 * 2 ^ fb))) (stopAt fb 0)

theorem limitSq_eq {fb sq : Nat} : limitSq (lutAt fb) (24 * 2 ^ fb + 1) sq = some (limited' fb sq) := by
  unfold limitSq lutAt
  dsimp only
  rw [Nat.add_sub_cancel, get_range (by omega), ob_some, get_range (by omega), ob_some]
  rfl

theorem stopAt_le {fb i j : Nat} (hfb : fb ≤ 7) (h : i ≤ j) (hj : j ≤ 24 * 2 ^ fb) : stopAt fb i ≤ stopAt fb j :=
  sqAt_le (Nat.mul_le_mul_right _ h) (stopAt_index hfb hj)

theorem limited_bounds {fb sq : Nat} (hfb : fb ≤ 7) :
    stopAt fb 0 ≤ limited' fb sq ∧ limited' fb sq ≤ stopAt fb (24 * 2 ^ fb) := by
  have := stopAt_le hfb (Nat.zero_le (24 * 2 ^ fb)) (le_refl _)
  unfold limited'
  omega

theorem stopAt_split {fb l x : Nat} (hfb : fb ≤ 2) (h1 : 1 ≤ l) (h2 : l < 24 * 2 ^ fb) (hx : 0 < x) (hx2 : x < 2 ^ 31) :
    (stopAt fb l < x → ((l : Int) - 12 * 2 ^ fb) * 2 ^ (21 - fb) ≤ stOut x) ∧
    (x < stopAt fb l → stOut x ≤ ((l : Int) - 12 * 2 ^ fb) * 2 ^ (21 - fb)) := by
  have hp : 1 ≤ 2 ^ (2 - fb) := Nat.one_le_two_pow
  have hq : 2 ^ fb * 2 ^ (2 - fb) = 4 := by rw [← pow_add, show fb + (2 - fb) = 2 by omega]; rfl
  have h3 : 1 ≤ l * 2 ^ (2 - fb) := Nat.mul_pos h1 hp
  have h4 : l * 2 ^ (2 - fb) ≤ 95 := by
    have : l * 2 ^ (2 - fb) < 24 * 2 ^ fb * 2 ^ (2 - fb) := Nat.mul_lt_mul_of_pos_right h2 hp
    rw [Nat.mul_assoc, hq] at this
    omega
  have h := stop_split h3 h4 hx hx2
  have e1 : sqAt (32 * (l * 2 ^ (2 - fb))) = stopAt fb l := by
    unfold stopAt
    congr 1
    rw [show 7 - fb = (2 - fb) + 5 by omega, pow_add]
    ring
  have e2 : (((l * 2 ^ (2 - fb) : Nat) : Int) - 48) * 2 ^ 19 = ((l : Int) - 12 * 2 ^ fb) * 2 ^ (21 - fb) := by
    have hq' : (2 : Int) ^ fb * 2 ^ (2 - fb) = 4 := by exact_mod_cast hq
    rw [show 21 - fb = (2 - fb) + 19 by omega, pow_add]
    push_cast
    linear_combination (12 * 2 ^ 19 : Int) * hq'
  rwa [e1, e2] at h

theorem innerSt_eq {st : Int} (h : |st| ≤ 12 * 2 ^ 21) : ∃ s, innerSt st = some s ∧ -(12 * 2 ^ 21) < s ∧
    s < 12 * 2 ^ 21 ∧ (|st| < 12 * 2 ^ 21 → s = st) ∧ (st = -(12 * 2 ^ 21) → s = -(12 * 2 ^ 21) + 1) ∧
    (st = 12 * 2 ^ 21 → s = 12 * 2 ^ 21 - 1) := by
  unfold innerSt
  have h' := abs_le.mp h
  by_cases h1 : st = -(12 * 2 ^ 21)
  · refine ⟨-(12 * 2 ^ 21) + 1, ?_, by norm_num, by norm_num, ?_, fun _ => rfl, ?_⟩
    · rw [if_pos h1]; rfl
    · intro h2
      rw [h1] at h2
      norm_num at h2
    · intro h2
      rw [h1] at h2
      norm_num at h2
  · rw [if_neg h1]
    by_cases h2 : st = 12 * 2 ^ 21
    · refine ⟨12 * 2 ^ 21 - 1, ?_, by norm_num, by norm_num, ?_, fun h3 => absurd h3 h1, fun _ => rfl⟩
      · rw [if_pos h2]; rfl
      · intro h3
        rw [h2] at h3
        norm_num at h3
    · rw [if_neg h2]
      exact ⟨st, rfl, by omega, by omega, fun _ => rfl, fun h3 => absurd h3 h1, fun h3 => absurd h3 h2⟩

/-- the interval found before the correction -/
theorem rawIndex {fb : Nat} (hfb : fb ≤ 7) {s : Int} (h1 : -(12 * 2 ^ 21) < s) (h2 : s < 12 * 2 ^ 21) :
    ∃ l : Nat, s / 2 ^ (21 - fb) + (12 * 2 ^ fb : Nat) = l ∧ l < 24 * 2 ^ fb ∧
      ((l : Int) - 12 * 2 ^ fb) * 2 ^ (21 - fb) ≤ s ∧ s < ((l : Int) + 1 - 12 * 2 ^ fb) * 2 ^ (21 - fb) := by
  have hp : (0 : Int) < 2 ^ (21 - fb) := by positivity
  have hq : (2 : Int) ^ fb * 2 ^ (21 - fb) = 2 ^ 21 := by rw [← pow_add, show fb + (21 - fb) = 21 by omega]
  have h3 := Int.mul_ediv_self_le (x := s) (k := 2 ^ (21 - fb)) (ne_of_gt hp)
  have h4 := Int.lt_mul_ediv_self_add (x := s) (k := 2 ^ (21 - fb)) hp
  generalize s / 2 ^ (21 - fb) = z at *
  generalize (2 : Int) ^ (21 - fb) = P at *
  have hF : (0 : Int) < 2 ^ fb := by positivity
  have hcast : ((12 * 2 ^ fb : Nat) : Int) = 12 * 2 ^ fb := by push_cast; ring
  have h5 : -(12 * 2 ^ fb) ≤ z := by
    by_contra hc
    have : z + 1 ≤ -(12 * 2 ^ fb : Int) := by omega
    nlinarith
  have h6 : z < 12 * 2 ^ fb := by
    by_contra hc
    have : (12 * 2 ^ fb : Int) ≤ z := by omega
    nlinarith
  refine ⟨(z + 12 * 2 ^ fb).toNat, by omega, ?_, ?_, ?_⟩
  · have : ((24 * 2 ^ fb : Nat) : Int) = 24 * 2 ^ fb := by push_cast; ring
    omega
  · rw [Int.toNat_of_nonneg (by omega)]
    nlinarith
  · rw [Int.toNat_of_nonneg (by omega)]
    nlinarith

theorem apmIndex_eq {fb sq : Nat} {st : Int} (hfb : fb ≤ 7) (hb : Belongs stretchTable squashTable fb sq st) :
    ∃ s i, innerSt st = some s ∧ apmIndex (lutAt fb) fb (limited' fb sq) s = some i ∧ i < 24 * 2 ^ fb ∧
      stopAt fb i ≤ limited' fb sq ∧ limited' fb sq ≤ stopAt fb (i + 1) := by
  obtain ⟨hst, hsq, hb⟩ := hb
  obtain ⟨s, hs, hs1, hs2, hs3, hs4, hs5⟩ := innerSt_eq hst
  obtain ⟨l, hl1, hl2, hl3, hl4⟩ := rawIndex hfb hs1 hs2
  have hn : intervalStopsCount fb = 24 * 2 ^ fb + 1 := by unfold intervalStopsCount intervalsCount; omega
  have hpow : 2 ^ fb ≤ 128 := le_trans (Nat.pow_le_pow_right (by omega) hfb) (by norm_num)
  have hidx : apmIndex (lutAt fb) fb (limited' fb sq) s =
      (if limited' fb sq < stopAt fb l then do
        check (l ≠ 0)
        some (l - 1)
      else some l) := by
    unfold apmIndex
    dsimp only
    rw [subU_eq (by omega), ob_some, hn, show (24 * 2 ^ fb + 1) / 2 = 12 * 2 ^ fb by omega, hl1,
      i32_eq (by omega), ob_some, check_pos (by omega), ob_some, Int.toNat_natCast]
    unfold lutAt
    dsimp only
    rw [get_range (by omega), ob_some]
  obtain ⟨lb1, lb2⟩ := limited_bounds (sq := sq) hfb
  have hmono := stopAt_mono hfb (i := l) (by omega)
  have htop := stopAt_le hfb (i := l) (j := 24 * 2 ^ fb) (by omega) (le_refl _)
  have htop1 := stopAt_le hfb (i := l + 1) (j := 24 * 2 ^ fb) (by omega) (le_refl _)
  have hbot := stopAt_le hfb (i := 0) (j := l) (by omega) (by omega)
  rcases hb with hb | ⟨hfb2, hb⟩
  · -- squashed from the stretched input
    obtain ⟨j, d, hd, hj, hjd, hx⟩ := squash_int hst
    rw [squash_at hd hjd hx] at hb
    obtain rfl := Option.some.inj hb
    have hP : (2 : Nat) ^ (21 - fb) = 2 ^ (7 - fb) * 16384 := by
      rw [show 21 - fb = (7 - fb) + 14 by omega, pow_add]; norm_num
    have hQ : 2 ^ fb * 2 ^ (7 - fb) = 128 := by rw [← pow_add, show fb + (7 - fb) = 7 by omega]; norm_num
    have hlow : l * 2 ^ (7 - fb) * 16384 ≤ (s + 25165824).toNat ∧
        (s + 25165824).toNat < (l + 1) * 2 ^ (7 - fb) * 16384 := by
      have hP' : (2 : Int) ^ (21 - fb) = 2 ^ (7 - fb) * 16384 := by exact_mod_cast hP
      have hQ' : (2 : Int) ^ fb * 2 ^ (7 - fb) = 128 := by exact_mod_cast hQ
      rw [hP'] at hl3 hl4
      have e1 : ((l : Int) - 12 * 2 ^ fb) * (2 ^ (7 - fb) * 16384) =
        (l * 2 ^ (7 - fb) * 16384 : Nat) - 25165824 := by
        push_cast
        linear_combination (-12 * 16384 : Int) * hQ'
      have e2 : ((l : Int) + 1 - 12 * 2 ^ fb) * (2 ^ (7 - fb) * 16384) =
        ((l + 1) * 2 ^ (7 - fb) * 16384 : Nat) - 25165824 := by
        push_cast
        linear_combination (-12 * 16384 : Int) * hQ'
      rw [e1] at hl3
      rw [e2] at hl4
      omega
    have hlim : limited' fb (sqOut j d) = sqOut j d ∧ stopAt fb l ≤ sqOut j d ∧ sqOut j d ≤ stopAt fb (l + 1) := by
      have key : stopAt fb l ≤ sqOut j d ∧ sqOut j d ≤ stopAt fb (l + 1) := by
        have hl24 : l * 2 ^ (7 - fb) ≤ 3072 := stopAt_index hfb (by omega)
        have hl25 : (l + 1) * 2 ^ (7 - fb) ≤ 3072 := stopAt_index hfb (by omega)
        by_cases hj2 : j = 3072
        · subst hj2
          have hst2 : st = 12 * 2 ^ 21 := by norm_num; omega
          have := hs5 hst2
          unfold sqOut
          rw [if_pos rfl]
          have h3 : (l + 1) * 2 ^ (7 - fb) = 3072 := by
            have e : (s + 25165824).toNat = 50331647 := by omega
            rw [e] at hlow
            generalize (l + 1) * 2 ^ (7 - fb) = y at *
            omega
          unfold stopAt
          rw [h3]
          exact ⟨sqAt_le hl24 (le_refl _), le_refl _⟩
        · obtain ⟨b1, b2⟩ := sqOut_between hd (show j < 3072 by omega)
          have hjl : l * 2 ^ (7 - fb) ≤ j ∧ j + 1 ≤ (l + 1) * 2 ^ (7 - fb) := by
            by_cases hst2 : st = -(12 * 2 ^ 21)
            · have := hs4 hst2
              norm_num at hst2
              have hj0 : j = 0 := by omega
              have hd0 : d = 0 := by omega
              subst hj0
              subst this
              norm_num at hlow
              have hl0 : l * 2 ^ (7 - fb) = 0 := by omega
              have hp0 : 0 < 2 ^ (7 - fb) := by positivity
              rw [Nat.add_mul]
              omega
            · have := hs3 (by
                rw [abs_lt]
                norm_num at hst2 ⊢
                omega)
              subst this
              have e : (s + 25165824).toNat = 16384 * j + d := by omega
              rw [e] at hlow
              omega
          unfold stopAt
          exact ⟨le_trans (sqAt_le hjl.1 (by omega)) b1, le_trans b2 (sqAt_le hjl.2 hl25)⟩
      refine ⟨?_, key⟩
      unfold limited'
      omega
    refine ⟨s, l, hs, ?_, hl2, by omega, by omega⟩
    rw [hidx, if_neg (by omega)]
  · -- stretched from the squashed input
    have hsq0 : 0 < sq := by
      rcases Nat.eq_zero_or_pos sq with h | h
      · subst h
        rw [C35_zero] at hb
        cases hb
      · exact h
    rw [(stretch_eq stretchTable_ok hsq0 hsq).1] at hb
    obtain rfl := Option.some.inj hb
    have hss : s = stOut sq := hs3 (by
      have := (stOut_bounds hsq0 hsq).1
      unfold stretchLimit at this
      norm_num
      omega)
    subst hss
    have hp : (0 : Int) < 2 ^ (21 - fb) := by positivity
    by_cases hlt : limited' fb sq < stopAt fb l
    · have hl0 : l ≠ 0 := by
        intro h
        subst h
        omega
      refine ⟨_, l - 1, hs, ?_, by omega, ?_, ?_⟩
      · rw [hidx, if_pos hlt, check_pos hl0]; rfl
      · by_cases hl1 : l - 1 = 0
        · rw [hl1]; exact lb1
        · by_contra hc
          have h1 : sq < stopAt fb (l - 1) := by unfold limited' at *; omega
          have h2 := (stopAt_split hfb2 (l := l - 1) (by omega) (by omega) hsq0 hsq).2 h1
          rw [Nat.cast_sub (by omega)] at h2
          have : ((l : Int) - (1 : Nat) - 12 * 2 ^ fb) * 2 ^ (21 - fb) =
            ((l : Int) - 12 * 2 ^ fb) * 2 ^ (21 - fb) - 2 ^ (21 - fb) := by push_cast; ring
          omega
      · rw [show l - 1 + 1 = l by omega]
        omega
    · refine ⟨_, l, hs, by rw [hidx, if_neg hlt], hl2, by omega, ?_⟩
      by_cases hl1 : l + 1 = 24 * 2 ^ fb
      · rw [hl1]; exact lb2
      · by_contra hc
        have h0 := stopAt_le hfb (i := 0) (j := l + 1) (by omega) (by omega)
        have h1 : stopAt fb (l + 1) < sq := by unfold limited' at *; omega
        have h2 := (stopAt_split hfb2 (l := l + 1) (by omega) (by omega) hsq0 hsq).1 h1
        push_cast at h2
        omega

/-! ## The weight -/

theorem apmWeight_eq {fb i x : Nat} (hfb : fb ≤ 7) (hi : i < 24 * 2 ^ fb) (h1 : stopAt fb i ≤ x)
    (h2 : x ≤ stopAt fb (i + 1)) :
    apmWeight (lutAt fb) i x = some (weightAt (lenAt fb i) (x - stopAt fb i)) ∧
      weightAt (lenAt fb i) (x - stopAt fb i) < 2 ^ 31 := by
  have hl := lenAt_lt hfb hi
  have hd : x - stopAt fb i ≤ lenAt fb i := by unfold lenAt; omega
  have hw := weightAt_lt hl hd
  refine ⟨?_, hw⟩
  obtain ⟨-, s1, -⟩ := shift_facts hl
  obtain ⟨-, e1, -⟩ := extra_facts hl
  have hD : (x - stopAt fb i) * 2 ^ shiftOf (lenAt fb i) < 2 ^ 31 :=
    lt_of_le_of_lt (Nat.mul_le_mul_right _ hd) s1
  unfold apmWeight lutAt
  dsimp only
  rw [get_range (by omega), ob_some, sub_eq h1 (by omega), ob_some, get_range hi, ob_some,
    wrapU32_eq (lt_trans hD (by norm_num)), fu_new hD, ob_some, get_range hi, ob_some,
    mulP_eq (by omega) (by omega) (lt_of_le_of_lt (sq31_le' (by omega)) hD), ob_some]
  exact add_eq hw

/-! ## Refining and updating -/

/-- an entry of a map -/
def EntryOk (x : Nat) : Prop := 2 ≤ x ∧ x ≤ 2 ^ 31 - 2

/-- a map that works -/
structure ApmOk (fb contexts : Nat) (a : Apm) : Prop where
  bits : a.fb = fb
  ctx : a.contexts = contexts
  len : a.mappings.length = contexts * (24 * 2 ^ fb + 1)
  entries : ∀ x ∈ a.mappings, EntryOk x

theorem ApmOk.get {fb contexts : Nat} {a : Apm} (h : ApmOk fb contexts a) {c i : Nat} (hc : c < contexts)
    (hi : i < 24 * 2 ^ fb + 1) : ∃ x, a.mappings[c * (24 * 2 ^ fb + 1) + i]? = some x ∧ EntryOk x := by
  have hlt : c * (24 * 2 ^ fb + 1) + i < a.mappings.length := by
    rw [h.len]
    calc c * (24 * 2 ^ fb + 1) + i < c * (24 * 2 ^ fb + 1) + (24 * 2 ^ fb + 1) := by omega
      _ = (c + 1) * (24 * 2 ^ fb + 1) := by rw [Nat.add_mul]; omega
      _ ≤ contexts * (24 * 2 ^ fb + 1) := Nat.mul_le_mul_right _ hc
  exact ⟨_, List.getElem?_eq_getElem hlt, h.entries _ (List.getElem_mem hlt)⟩

/-- interpolation between two entries -/
def blend (L R w : Nat) : Nat := sq31 L (2 ^ 31 - w) + sq31 R w

theorem blend_bounds {L R w : Nat} (hL : EntryOk L) (hR : EntryOk R) (hw : w < 2 ^ 31) :
    2 ≤ blend L R w ∧ blend L R w ≤ 2 ^ 31 - 1 := by
  obtain ⟨l1, l2⟩ := hL
  obtain ⟨r1, r2⟩ := hR
  unfold blend
  obtain ⟨a1, a2⟩ := sq31_exact L (2 ^ 31 - w)
  obtain ⟨b1, b2⟩ := sq31_exact R w
  have c1 : 2 * (2 ^ 31 - w) ≤ L * (2 ^ 31 - w) := Nat.mul_le_mul_right _ l1
  have c2 : L * (2 ^ 31 - w) ≤ (2 ^ 31 - 2) * (2 ^ 31 - w) := Nat.mul_le_mul_right _ l2
  have d1 : 2 * w ≤ R * w := Nat.mul_le_mul_right _ r1
  have d2 : R * w ≤ (2 ^ 31 - 2) * w := Nat.mul_le_mul_right _ r2
  generalize L * (2 ^ 31 - w) = X at *
  generalize R * w = Y at *
  generalize sq31 L (2 ^ 31 - w) = x at *
  generalize sq31 R w = y at *
  norm_num at *
  omega

/-- closed form of refining: the interval and the weight do not depend on the contents of the map -/
theorem refine_eq {fb contexts c sq : Nat} {st : Int} (hfb : fb ≤ 7)
    (hb : Belongs stretchTable squashTable fb sq st) (hc : c < contexts) :
    ∃ i w, i < 24 * 2 ^ fb ∧ w < 2 ^ 31 ∧ w = weightAt (lenAt fb i) (limited' fb sq - stopAt fb i) ∧
      stopAt fb i ≤ limited' fb sq ∧ limited' fb sq ≤ stopAt fb (i + 1) ∧
      ∀ a : Apm, ApmOk fb contexts a → a.saved = -1 → ∃ L R,
        a.mappings[c * (24 * 2 ^ fb + 1) + i]? = some L ∧ a.mappings[c * (24 * 2 ^ fb + 1) + (i + 1)]? = some R ∧
        EntryOk L ∧ EntryOk R ∧
        refine a c sq st (lutAt fb) = some (blend L R w, { a with saved := (i : Int), savedWeight := 2 ^ 31 - w }) := by
  obtain ⟨s, i, h1, h2, h3, h4, h5⟩ := apmIndex_eq hfb hb
  obtain ⟨w1, w2⟩ := apmWeight_eq hfb h3 h4 h5
  have hn : intervalStopsCount fb = 24 * 2 ^ fb + 1 := by unfold intervalStopsCount intervalsCount; omega
  refine ⟨i, _, h3, w2, rfl, h4, h5, ?_⟩
  intro a ha hsv
  obtain ⟨L, hL1, hL2⟩ := ha.get hc (i := i) (by omega)
  obtain ⟨R, hR1, hR2⟩ := ha.get hc (i := i + 1) (by omega)
  refine ⟨L, R, hL1, hR1, hL2, hR2, ?_⟩
  generalize weightAt (lenAt fb i) (limited' fb sq - stopAt fb i) = w at *
  have hg1 : (lutAt fb).stops[i]? = some (stopAt fb i) := get_range (by omega)
  have hg2 : (lutAt fb).stops[i + 1]? = some (stopAt fb (i + 1)) := get_range (by omega)
  have hwl : weightLeft w = some (2 ^ 31 - w) := by
    unfold weightLeft
    by_cases hw : w = 0
    · rw [if_pos hw]; subst hw; rfl
    · rw [if_neg hw, flip_eq (by omega) (by omega)]
  have hbl := blend_bounds hL2 hR2 w2
  unfold refine
  dsimp only
  rw [check_pos (show a.fb = (lutAt fb).fb from ha.bits), ob_some, check_pos hsv, ob_some, ha.bits, hn, limitSq_eq, ob_some,
    h1, ob_some, h2, ob_some, hg1, ob_some, check_pos h4, ob_some, hg2, ob_some, check_pos h5, ob_some, hL1, ob_some,
    hR1, ob_some, w1, ob_some, hwl, ob_some,
    mulP_eq (by have := hR2.2; omega) (by omega) (lt_of_le_of_lt (sq31_le' (by omega)) (by have := hR2.2; omega)),
    ob_some,
    mulP_eq (by have := hL2.2; omega) (by omega) (lt_of_le_of_lt (sq31_le' (by omega)) (by have := hL2.2; omega)),
    ob_some, add_eq (by unfold blend at hbl; omega), ob_some]
  rw [← ha.bits]
  rfl

/-- an entry after learning -/
def learned (bit : Bool) (w rate x : Nat) : Nat :=
  if bit then x - sq31 w (x / 2 ^ rate) else x + sq31 w ((2 ^ 31 - x) / 2 ^ rate)

theorem quarter {x rate : Nat} (h : 2 ≤ rate) : x / 2 ^ rate ≤ x / 4 :=
  Nat.div_le_div_left (by
    calc 4 = 2 ^ 2 := rfl
      _ ≤ 2 ^ rate := Nat.pow_le_pow_right (by omega) h) (by omega)

theorem learned_ok {bit : Bool} {w rate x : Nat} (hw : w ≤ 2 ^ 31) (hr : 2 ≤ rate) (hx : EntryOk x) :
    EntryOk (learned bit w rate x) := by
  obtain ⟨h1, h2⟩ := hx
  unfold learned EntryOk
  have hc : ∀ e, sq31 w e ≤ e := fun e => by rw [sq31_comm]; exact sq31_le' hw
  cases bit
  · have := hc ((2 ^ 31 - x) / 2 ^ rate)
    have := quarter (x := 2 ^ 31 - x) hr
    simp only [Bool.false_eq_true, if_false]
    omega
  · have := hc (x / 2 ^ rate)
    have := quarter (x := x) hr
    simp only [if_true]
    omega

theorem newEntry_eq {bit : Bool} {w rate x : Nat} (hw : w ≤ 2 ^ 31) (hr : 2 ≤ rate) (hr2 : rate < 30)
    (hx : EntryOk x) : newEntry bit w rate x = some (learned bit w rate x) := by
  obtain ⟨o1, o2⟩ := learned_ok (bit := bit) hw hr hx
  obtain ⟨h1, h2⟩ := hx
  have hc : ∀ e, sq31 w e ≤ e := fun e => by rw [sq31_comm]; exact sq31_le' hw
  unfold newEntry
  rw [check_pos (by omega), ob_some]
  cases bit
  · have q1 := quarter (x := 2 ^ 31 - x) hr
    have q2 := hc ((2 ^ 31 - x) / 2 ^ rate)
    simp only [Bool.false_eq_true, if_false]
    rw [flip_eq (by omega) (by omega), ob_some, fu_new (by omega), ob_some,
      mulP_eq hw (by omega) (by omega), ob_some]
    unfold learned at o2 ⊢
    simp only [Bool.false_eq_true, if_false] at o2 ⊢
    exact add_eq (by omega)
  · have q1 := quarter (x := x) hr
    have q2 := hc (x / 2 ^ rate)
    simp only [if_true]
    rw [ob_some, fu_new (by omega), ob_some, mulP_eq hw (by omega) (by omega), ob_some]
    unfold learned
    simp only [if_true]
    exact sub_eq (by omega) (by omega)

/-- the weight of the left entry in an update -/
def leftWeight (fixed : Bool) (saved : Nat) : Nat := if fixed then 2 ^ 30 else saved

/-- closed form of updating -/
theorem update_closed {fb contexts c i wl rate L R : Nat} {a : Apm} {bit fixed : Bool} (ha : ApmOk fb contexts a)
    (hi : i < 24 * 2 ^ fb) (hs : a.saved = (i : Int)) (hc : c < contexts) (hwl : wl = leftWeight fixed a.savedWeight)
    (hw1 : 1 ≤ a.savedWeight) (hw2 : a.savedWeight ≤ 2 ^ 31) (hr : 2 ≤ rate) (hr2 : rate < 30)
    (hL : a.mappings[c * (24 * 2 ^ fb + 1) + i]? = some L)
    (hR : a.mappings[c * (24 * 2 ^ fb + 1) + (i + 1)]? = some R) :
    updatePredictions a c bit rate fixed = some { a with
      mappings := (a.mappings.set (c * (24 * 2 ^ fb + 1) + i) (learned bit wl rate L)).set
        (c * (24 * 2 ^ fb + 1) + (i + 1)) (learned bit (2 ^ 31 - wl) rate R)
      saved := -1 } := by
  have hn : intervalStopsCount fb = 24 * 2 ^ fb + 1 := by unfold intervalStopsCount intervalsCount; omega
  have hwl1 : 1 ≤ wl ∧ wl ≤ 2 ^ 31 := by
    rw [hwl]; unfold leftWeight; split <;> omega
  have hLo : EntryOk L := ha.entries _ (List.mem_of_getElem? hL)
  have hRo : EntryOk R := ha.entries _ (List.mem_of_getElem? hR)
  unfold updatePredictions
  dsimp only
  rw [check_pos (by omega), ob_some, check_pos (by rw [ha.ctx]; exact hc), ob_some, ha.bits, hn, hs, Int.toNat_natCast]
  rw [show (if fixed = true then 2 ^ 30 else a.savedWeight) = wl from hwl.symm]
  rw [sub_eq (by unfold oneUnsafe; omega) (by unfold oneUnsafe; omega), ob_some,
    show oneUnsafe - wl = 2 ^ 31 - wl from rfl]
  unfold updateEntry
  rw [hL, ob_some, newEntry_eq hwl1.2 hr hr2 hLo, ob_some, ob_some,
    show c * (24 * 2 ^ fb + 1) + i + 1 = c * (24 * 2 ^ fb + 1) + (i + 1) by omega,
    List.getElem?_set_ne (by omega), hR, ob_some, newEntry_eq (by omega) hr hr2 hRo, ob_some, ob_some, ha.bits.symm]

end Verif.Mix
