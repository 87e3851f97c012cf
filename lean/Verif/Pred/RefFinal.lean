import Verif.Pred.RefChain
import Verif.Pred.Final

/-! # The final stage works like the reference -/

namespace Verif.Pred

open Verif Verif.Fixed Verif.Lut Verif.Mix Verif.Util Verif.History Verif.Tree

attribute [local irreducible] squashTable stretchTable

/-! ## One context of a map -/

/-- the values of context `c` -/
def Slice (l : List Nat) (c : Nat) (vals : List Nat) : Prop :=
  vals.length = 25 ∧ ∀ i < 25, l[c * 25 + i]? = vals[i]?

theorem Slice.set {l vals : List Nat} {c i : Nat} (h : Slice l c vals) (hi : i < 25) (v : Nat) :
    Slice (l.set (c * 25 + i) v) c (vals.set i v) := by
  refine ⟨by rw [List.length_set]; exact h.1, fun j hj => ?_⟩
  have hlt : c * 25 + i < l.length := by
    have := (h.2 i hi).trans (List.getElem?_eq_getElem (by rw [h.1]; exact hi))
    exact (List.getElem?_eq_some_iff.mp this).1
  rw [List.getElem?_set, List.getElem?_set]
  by_cases e : i = j
  · subst e
    rw [if_pos rfl, if_pos rfl, if_pos hlt, if_pos (by rw [h.1]; exact hi)]
  · rw [if_neg (by omega), if_neg e]
    exact h.2 j hj

theorem Slice.set_other {l vals : List Nat} {c c' i : Nat} (h : Slice l c' vals) (hc : c' ≠ c) (hi : i < 25) (v : Nat) :
    Slice (l.set (c * 25 + i) v) c' vals := by
  refine ⟨h.1, fun j hj => ?_⟩
  rw [List.getElem?_set, if_neg (by omega)]
  exact h.2 j hj

theorem apmIndex_lt {lut : ApmLut} {sq i : Nat} {st : Int} (h : apmIndex lut 0 sq st = some i) : i < 24 := by
  unfold apmIndex at h
  obtain ⟨sc, -, h⟩ := ob_inv h
  obtain ⟨left, -, h⟩ := ob_inv h
  obtain ⟨_, hc, h⟩ := ob_inv h
  have hc : 0 ≤ left ∧ left + 1 < (intervalStopsCount 0 : Nat) := check_eq_some.mp hc
  rw [show intervalStopsCount 0 = 25 by decide] at hc
  obtain ⟨stop, -, h⟩ := ob_inv h
  split at h
  · obtain ⟨_, -, h⟩ := ob_inv h
    have := Option.some.inj h
    omega
  · have := Option.some.inj h
    omega

theorem updateEntry_slice {l l' vals : List Nat} {bit : Bool} {w c i rate : Nat} (h : Slice l c vals) (hi : i < 25)
    (hu : updateEntry l bit w (c * 25 + i) rate = some l') :
    ∃ vals', updateEntry vals bit w i rate = some vals' ∧ Slice l' c vals' ∧
      ∀ c' v, c' ≠ c → Slice l c' v → Slice l' c' v := by
  unfold updateEntry at hu
  rw [h.2 i hi] at hu
  obtain ⟨x, e1, hu⟩ := ob_inv hu
  obtain ⟨v, e2, hu⟩ := ob_inv hu
  obtain rfl := Option.some.inj hu
  refine ⟨vals.set i v, ?_, h.set hi v, fun c' v' hc h' => h'.set_other hc hi v⟩
  unfold updateEntry
  rw [e1, ob_some, e2, ob_some]

/-- a context of a map behaves like a map of its own -/
theorem map_rel {a a1 : Apm} {c sq p : Nat} {st : Int} {lut : ApmLut} {vals : List Nat} (hfb : a.fb = 0)
    (hs : Slice a.mappings c vals) (h : refine a c sq st lut = some (p, a1)) :
    ∃ b, refine (single vals) 0 sq st lut = some (p, b) ∧ ∀ bit fixed a2,
      updatePredictions a1 c bit 5 fixed = some a2 →
      ∃ b2, updatePredictions b 0 bit 5 fixed = some b2 ∧ Slice a2.mappings c b2.mappings ∧
        ∀ c' v, c' ≠ c → Slice a.mappings c' v → Slice a2.mappings c' v := by
  unfold refine at h
  rw [hfb] at h
  obtain ⟨_, k1, h⟩ := ob_inv h
  obtain ⟨_, k2, h⟩ := ob_inv h
  dsimp only at h
  rw [show intervalStopsCount 0 = 25 by decide] at h
  obtain ⟨s, k3, h⟩ := ob_inv h
  obtain ⟨s', k4, h⟩ := ob_inv h
  obtain ⟨left, k5, h⟩ := ob_inv h
  obtain ⟨lo, k6, h⟩ := ob_inv h
  obtain ⟨_, k7, h⟩ := ob_inv h
  obtain ⟨hi, k8, h⟩ := ob_inv h
  obtain ⟨_, k9, h⟩ := ob_inv h
  have hleft := apmIndex_lt k5
  rw [hs.2 left (by omega), hs.2 (left + 1) (by omega)] at h
  obtain ⟨L, k10, h⟩ := ob_inv h
  obtain ⟨R, k11, h⟩ := ob_inv h
  obtain ⟨wr, k12, h⟩ := ob_inv h
  obtain ⟨wl, k13, h⟩ := ob_inv h
  obtain ⟨rr, k14, h⟩ := ob_inv h
  obtain ⟨rl, k15, h⟩ := ob_inv h
  obtain ⟨res, k16, h⟩ := ob_inv h
  obtain ⟨rfl, rfl⟩ := Prod.mk.inj (Option.some.inj h)
  refine ⟨⟨vals, 0, 1, (left : Int), wl⟩, ?_, ?_⟩
  · unfold refine single
    dsimp only
    rw [k1, ob_some, check_pos rfl, ob_some, show intervalStopsCount 0 = 25 by decide, k3, ob_some, k4, ob_some, k5,
      ob_some, k6, ob_some, k7, ob_some, k8, ob_some, k9, ob_some, Nat.zero_mul, Nat.zero_add, Nat.zero_add, k10, ob_some,
      k11, ob_some, k12, ob_some, k13, ob_some, k14, ob_some, k15, ob_some, k16, ob_some]
  · intro bit fixed a2 hu
    unfold updatePredictions at hu
    dsimp only at hu
    rw [show intervalStopsCount 0 = 25 by decide, Int.toNat_natCast] at hu
    obtain ⟨_, u1, hu⟩ := ob_inv hu
    obtain ⟨_, -, hu⟩ := ob_inv hu
    obtain ⟨wr', u2, hu⟩ := ob_inv hu
    obtain ⟨l1, u3, hu⟩ := ob_inv hu
    obtain ⟨l2, u4, hu⟩ := ob_inv hu
    obtain rfl := Option.some.inj hu
    obtain ⟨v1, e1, e2, e3⟩ := updateEntry_slice hs (by omega) u3
    rw [Nat.add_assoc] at u4
    obtain ⟨v2, e4, e5, e6⟩ := updateEntry_slice e2 (by omega) u4
    refine ⟨⟨v2, 0, 1, -1, wl⟩, ?_, e5, fun c' v hc' h' => e6 c' v hc' (e3 c' v hc' h')⟩
    unfold updatePredictions
    dsimp only
    rw [u1, ob_some, check_pos (by omega), ob_some, show intervalStopsCount 0 = 25 by decide, Int.toNat_natCast,
      u2, ob_some, Nat.zero_mul, Nat.zero_add, e1, ob_some, e4, ob_some]

/-- updating the map is learning -/
def MapPend (contexts : Nat) (a : Apm) (mp : Mapped) (vals : Nat → List Nat) : Prop :=
  ∀ bit fixed a2, updatePredictions a mp.hash bit 5 fixed = some a2 →
    ∃ b, updatePredictions mp.apm 0 bit 5 fixed = some b ∧
      ∀ c < contexts, Slice a2.mappings c (put vals mp.hash b.mappings c)

theorem ask_rel {t : Tables} (ht : TablesOk t) {R : Ref} {hs : List Nat} {k h contexts p : Nat} {mix : Prob} {a a1 : Apm}
    (hk : hs[k]? = some h) (hlt : h < contexts) (hfb : a.fb = 0) (hv : ∀ c < contexts, Slice a.mappings c (R.maps k c))
    (hr : refine a h mix.1 mix.2 (lutAt 0) = some (p, a1)) :
    ∃ mp, askMap t R hs k mix = some mp ∧ mp.k = k ∧ mp.hash = h ∧ mp.prob = p ∧ MapPend contexts a1 mp (R.maps k) := by
  obtain ⟨b, b1, b2⟩ := map_rel hfb (hv h hlt) hr
  refine ⟨⟨k, h, p, b⟩, ?_, rfl, rfl, rfl, ?_⟩
  · unfold askMap
    rw [hk, ob_some, apmLut_ok ht, ob_some, b1, ob_some]
  · intro bit fixed a2 hu
    obtain ⟨b3, u1, u2, u3⟩ := b2 bit fixed a2 hu
    refine ⟨b3, u1, fun c hc => ?_⟩
    unfold put
    by_cases e : c = h
    · rw [if_pos e, e]; exact u2
    · rw [if_neg e]; exact u3 c _ e (hv c hc)

theorem learnMaps_rel {fixed bit : Bool} : ∀ {as : List Mapped} {R : Ref}, (as.map Mapped.k).Nodup →
    (∀ a ∈ as, ∃ b, updatePredictions a.apm 0 bit 5 fixed = some b) →
    ∃ R', learnMaps fixed bit R as = some R' ∧ R'.row = R.row ∧ R'.last = R.last ∧
      (∀ a ∈ as, ∃ b, updatePredictions a.apm 0 bit 5 fixed = some b ∧
        R'.maps a.k = put (R.maps a.k) a.hash b.mappings) ∧
      ∀ k, k ∉ as.map Mapped.k → R'.maps k = R.maps k := by
  intro as
  induction as with
  | nil => intro R _ _; exact ⟨R, rfl, rfl, rfl, (fun a h => by cases h), fun _ _ => rfl⟩
  | cons a as ih =>
    intro R hn hu
    rw [List.map_cons, List.nodup_cons] at hn
    obtain ⟨b, hb⟩ := hu a (by simp)
    obtain ⟨R', h1, h2, h3, h4, h5⟩ := ih (R := { R with maps := put2 R.maps a.k a.hash b.mappings }) hn.2
      fun x hx => hu x (by simp [hx])
    refine ⟨R', by rw [learnMaps, hb, ob_some, h1], h2, h3, ?_, ?_⟩
    · intro x hx
      rcases List.mem_cons.mp hx with rfl | hx
      · refine ⟨b, hb, ?_⟩
        rw [h5 _ hn.1]
        exact put2_row _ _ _ _
      · obtain ⟨b', e1, e2⟩ := h4 x hx
        refine ⟨b', e1, ?_⟩
        rw [e2]
        have : x.k ≠ a.k := fun e => hn.1 (e ▸ List.mem_map_of_mem hx)
        dsimp only
        rw [put2_other _ this]
    · intro k hk
      rw [List.map_cons, List.mem_cons, not_or] at hk
      rw [h5 k hk.2]
      exact put2_other _ hk.1 _ _

/-! ## The final stage -/

/-- the final stage holds the maps and mixers of the reference -/
structure FinRel (mode : Mode) (f : Finalizer) (R : Ref) : Prop where
  m0 : mode ≠ .none → ∀ c < 256, Slice f.order0.mappings c (R.maps 0 c)
  m1 : mode ≠ .none → ∀ c < 65536, Slice f.order1.mappings c (R.maps 1 c)
  m2 : mode ≠ .none → ∀ c < 65536, Slice f.order2.mappings c (R.maps 2 c)
  m3 : mode ≠ .none → ∀ c < 65536, Slice f.order3.mappings c (R.maps 3 c)
  last : ∀ i m, f.mixers[i]? = some m → R.last i = m

theorem FinRel.congr {mode : Mode} {f : Finalizer} {R R' : Ref} (h : FinRel mode f R) (h1 : R'.maps = R.maps)
    (h2 : R'.last = R.last) : FinRel mode f R' := by
  refine ⟨?_, ?_, ?_, ?_, ?_⟩
  · rw [h1]; exact h.m0
  · rw [h1]; exact h.m1
  · rw [h1]; exact h.m2
  · rw [h1]; exact h.m3
  · rw [h2]; exact h.last

/-- updating the final stage is learning -/
def FinPend (t : Tables) (mode : Mode) (count : Nat) (lb : LB) (v : Verdict) (f : Finalizer) (R : Ref) : Prop :=
  ∀ S : Ref, S.maps = R.maps → S.last = R.last → ∀ bit f', finalizerUpdate t mode f bit count lb = some f' →
    ∃ S', learnVerdict t mode S v bit = some S' ∧ FinRel mode f' S' ∧ S'.row = S.row

theorem quarter_eq {sum r : Nat} (h : quarter sum = some r) (h1 : sum + 2 < 2 ^ 33) (h0 : 2 ≤ sum) : r = quartered sum := by
  rw [(quarter_ok h0 h1).1] at h
  exact (Option.some.inj h).symm

theorem finish_eq {p q : Nat} (h : toFixU 32 fractOnlyU32 finalProbability p = some q) (hp : p < 2 ^ 31) :
    q = finish p := by
  unfold toFixU at h
  rw [if_pos (by decide)] at h
  rw [show fractOnlyU32.frac - finalProbability.frac = 8 by decide,
    scaledDownU_nosat (by norm_num) (by norm_num) (by omega), ob_some] at h
  unfold finalProbability Coding.FinalProbability.newUnchecked at h
  dsimp only at h
  rw [check_pos (by omega), ob_some] at h
  have := Option.some.inj h
  unfold finish
  omega

theorem contextsClass_eq (n : Nat) : quantizeContexts n = contextsClass n := by
  unfold quantizeContexts contextsClass
  repeat' split
  all_goals omega

theorem hashes_eq {lb : LB} {u h1 h2 h3 : Nat} (e0 : lbUnfinished lb = some u) (e1 : lbHash01 lb = some h1)
    (e2 : lbHash02 lb = some h2) (e3 : lbHash03 lb = some h3) : hashes lb = some [u, h1, h2, h3] := by
  unfold hashes
  rw [e0, ob_some, e1, ob_some, e2, ob_some, e3, ob_some]

/-- first phase -/
theorem phase0_rel {t : Tables} (ht : TablesOk t) {f f1 : Finalizer} {R : Ref} {r mix : Prob} {lb : LB}
    {u p0 : Nat} {hs : List Nat} (hr : MixedOk t r) (hu : lbUnfinished lb = some u) (hu2 : u < 256) (h0 : hs[0]? = some u)
    (hi : ApmInv 0 256 false f.order0) (hrel : ∀ c < 256, Slice f.order0.mappings c (R.maps 0 c))
    (h : phase0 t f r.1 r.2 lb = some (p0, mix, f1)) :
    ∃ mp a, f1 = { f with order0 := a } ∧ askMap t R hs 0 r = some mp ∧ mp.k = 0 ∧ mp.hash = u ∧ mp.prob = p0 ∧
      MapPend 256 a mp (R.maps 0) ∧ stretched t (quartered (3 * r.1 + p0)) = some mix := by
  obtain ⟨p0', a0', p1, p2, p3, p4⟩ := refine_ok hi (hr.belongs ht) hu2
  unfold phase0 at h
  rw [hu, ob_some, apmLut_ok ht, ob_some, p1, ob_some] at h
  dsimp only at h
  have h1 := hr.low
  have h2 := hr.high
  obtain ⟨q, q1, h⟩ := ob_inv h
  obtain ⟨st, q2, h⟩ := ob_inv h
  obtain ⟨rfl, h'⟩ := Prod.mk.inj (Option.some.inj h)
  obtain ⟨rfl, rfl⟩ := Prod.mk.inj h'
  obtain rfl := quarter_eq q1 (by omega) (by omega)
  obtain ⟨mp, m1, m2, m3, m4, m5⟩ := ask_rel ht h0 hu2 hi.ok.bits hrel p1
  refine ⟨mp, a0', rfl, m1, m2, m3, m4, m5, ?_⟩
  unfold stretched
  rw [Nat.mul_comm 3, q2, ob_some]

theorem light_rel {t : Tables} (ht : TablesOk t) {f f1 : Finalizer} {R : Ref} {r : Prob} {lb : LB} {p count : Nat}
    (hr : MixedOk t r) (hlb : LbOk lb) (hf : FinOk t .light none f) (hrel : FinRel .light f R)
    (h : refineLight t f r.1 r.2 lb = some (p, f1)) :
    ∃ hs v, hashes lb = some hs ∧ verdict t .light R hs r count = some v ∧ v.prob = p ∧
      FinPend t .light count lb v f1 R := by
  obtain ⟨u, u1, u2⟩ := hlb.u
  obtain ⟨h1, g1, g2⟩ := hlb.h1
  obtain ⟨h2, g3, g4⟩ := hlb.h2
  obtain ⟨h3, g5, g6⟩ := hlb.h3
  obtain ⟨p0, mix, a0, e0, -, -, hm, k0⟩ := phase0_ok ht hr hlb (hf.order0 (by decide))
  obtain ⟨p1, a1, e1, b1, c1, k1⟩ := refine_ok (hf.order1 (by decide)) hm g2
  obtain ⟨p2, a2, e2, b2, c2, k2⟩ := refine_ok (hf.order2 (by decide)) hm g4
  obtain ⟨p3, a3, e3, b3, c3, k3⟩ := refine_ok (hf.order3 (by decide)) hm g6
  obtain ⟨mp0, a0', hf0, m1, m2, m3, rfl, m5, m6⟩ := phase0_rel (hs := [u, h1, h2, h3]) ht hr u1 u2 rfl
    (hf.order0 (by decide)) (hrel.m0 (by decide)) e0
  have ha0 : a0 = a0' := congrArg Finalizer.order0 hf0
  subst ha0
  obtain ⟨mp1, x1, x2, x3, rfl, x5⟩ := ask_rel (hs := [u, h1, h2, h3]) (k := 1) ht rfl g2 (hf.order1 (by decide)).ok.bits
    (hrel.m1 (by decide)) e1
  obtain ⟨mp2, y1, y2, y3, rfl, y5⟩ := ask_rel (hs := [u, h1, h2, h3]) (k := 2) ht rfl g4 (hf.order2 (by decide)).ok.bits
    (hrel.m2 (by decide)) e2
  obtain ⟨mp3, z1, z2, z3, rfl, z5⟩ := ask_rel (hs := [u, h1, h2, h3]) (k := 3) ht rfl g6 (hf.order3 (by decide)).ok.bits
    (hrel.m3 (by decide)) e3
  unfold refineLight at h
  rw [e0, ob_some] at h
  dsimp only at h
  rw [apmLut_ok ht, ob_some, g1, ob_some, e1, ob_some] at h
  dsimp only at h
  rw [g3, ob_some, e2, ob_some] at h
  dsimp only at h
  rw [g5, ob_some, e3, ob_some] at h
  dsimp only at h
  obtain ⟨out, o1, h⟩ := ob_inv h
  obtain ⟨q, o2, h⟩ := ob_inv h
  obtain ⟨rfl, rfl⟩ := Prod.mk.inj (Option.some.inj h)
  obtain ⟨-, o4, o5⟩ := quarter_ok (sum := mp1.prob + mp2.prob * 2 + mp3.prob) (by omega) (by omega)
  obtain rfl := quarter_eq o1 (by omega) (by omega)
  obtain rfl := finish_eq o2 o5
  refine ⟨_, ⟨finish (quartered (mp1.prob + 2 * mp2.prob + mp3.prob)), [mp0, mp1, mp2, mp3], none⟩,
    hashes_eq u1 g1 g3 g5, ?_, by rw [Nat.mul_comm 2], ?_⟩
  · unfold verdict
    dsimp only
    rw [m1, ob_some, m6, ob_some, x1, ob_some, y1, ob_some, z1, ob_some]
  · intro S hS1 hS2 bit f' hu
    unfold finalizerUpdate updateLight at hu
    dsimp only at hu
    rw [u1, ob_some, g1, g3, g5] at hu
    obtain ⟨w0, v0, hu⟩ := ob_inv hu
    rw [ob_some] at hu
    obtain ⟨w1, v1, hu⟩ := ob_inv hu
    rw [ob_some] at hu
    obtain ⟨w2, v2, hu⟩ := ob_inv hu
    rw [ob_some] at hu
    obtain ⟨w3, v3, hu⟩ := ob_inv hu
    obtain rfl := Option.some.inj hu
    rw [← m3] at v0
    rw [← x3] at v1
    rw [← y3] at v2
    rw [← z3] at v3
    obtain ⟨c0, n1, n2⟩ := m5 bit true w0 v0
    obtain ⟨c1, n3, n4⟩ := x5 bit true w1 v1
    obtain ⟨c2, n5, n6⟩ := y5 bit true w2 v2
    obtain ⟨c3, n7, n8⟩ := z5 bit true w3 v3
    obtain ⟨S', l1, l2, l3, l4, -⟩ := learnMaps_rel (fixed := true) (bit := bit) (as := [mp0, mp1, mp2, mp3]) (R := S)
      (by simp [m2, x2, y2, z2])
      (by
        intro a ha
        simp only [List.mem_cons, List.not_mem_nil, or_false] at ha
        rcases ha with rfl | rfl | rfl | rfl
        · exact ⟨_, n1⟩
        · exact ⟨_, n3⟩
        · exact ⟨_, n5⟩
        · exact ⟨_, n7⟩)
    refine ⟨S', ?_, ?_, l2⟩
    · unfold learnVerdict
      dsimp only
      rw [show decide (Mode.light = Mode.light) = true from rfl, l1, ob_some]
    · rw [hS1] at l4
      obtain ⟨_, d1, d2⟩ := l4 mp0 (by simp)
      rw [n1] at d1
      obtain rfl := Option.some.inj d1
      obtain ⟨_, d3, d4⟩ := l4 mp1 (by simp)
      rw [n3] at d3
      obtain rfl := Option.some.inj d3
      obtain ⟨_, d5, d6⟩ := l4 mp2 (by simp)
      rw [n5] at d5
      obtain rfl := Option.some.inj d5
      obtain ⟨_, d7, d8⟩ := l4 mp3 (by simp)
      rw [n7] at d7
      obtain rfl := Option.some.inj d7
      rw [m2] at d2
      rw [x2] at d4
      rw [y2] at d6
      rw [z2] at d8
      refine ⟨fun _ => ?_, fun _ => ?_, fun _ => ?_, fun _ => ?_, ?_⟩
      · rw [d2]; exact n2
      · rw [d4]; exact n4
      · rw [d6]; exact n6
      · rw [d8]; exact n8
      · rw [l3, hS2]; exact hrel.last

/-- what became of a map of the second phase -/
structure InRel (R : Ref) (k h : Nat) (on : Bool) (a a' : Apm) (o : Option Mapped) : Prop where
  off : on = false → o = none ∧ a' = a
  on : on = true → o.isSome = true
  some : ∀ mp, o = some mp → mp.k = k ∧ mp.hash = h ∧ MapPend 65536 a' mp (R.maps k)

theorem input_rel {t : Tables} (ht : TablesOk t) {R : Ref} {hs : List Nat} {on : Bool} {a a' : Apm} {k h input : Nat}
    {mix : Prob} {m m' : Mixer} (hk : hs[k]? = some h) (hlt : h < 65536) (hfb : a.fb = 0)
    (hv : ∀ c < 65536, Slice a.mappings c (R.maps k c))
    (he : refineInput t on a (some h) mix m input = some (a', m')) :
    ∃ o, InRel R k h on a a' o ∧ (on = false → m' = m) ∧ ∀ mp, o = some mp → askMap t R hs k mix = some mp ∧
      ∃ pr, stretched t mp.prob = some pr ∧ setInput m input pr.1 pr.2 = some m' := by
  unfold refineInput at he
  cases on with
  | false =>
    rw [if_neg (by decide)] at he
    obtain ⟨rfl, rfl⟩ := Prod.mk.inj (Option.some.inj he)
    exact ⟨none, ⟨fun _ => ⟨rfl, rfl⟩, (fun e => by cases e), (fun mp e => by cases e)⟩, fun _ => rfl, fun mp e => by cases e⟩
  | true =>
    rw [if_pos rfl, ob_some, apmLut_ok ht, ob_some] at he
    obtain ⟨⟨p, a1⟩, r1, he⟩ := ob_inv he
    dsimp only at he
    obtain ⟨st, r2, he⟩ := ob_inv he
    obtain ⟨m1, r3, he⟩ := ob_inv he
    obtain ⟨rfl, rfl⟩ := Prod.mk.inj (Option.some.inj he)
    obtain ⟨mp, x1, x2, x3, rfl, x5⟩ := ask_rel ht hk hlt hfb hv r1
    refine ⟨some mp, ⟨(fun e => by cases e), fun _ => rfl, ?_⟩, (fun e => by cases e), ?_⟩
    · intro mp' e
      obtain rfl := Option.some.inj e
      exact ⟨x2, x3, x5⟩
    · intro mp' e
      obtain rfl := Option.some.inj e
      refine ⟨x1, (mp.prob, st), ?_, r3⟩
      unfold stretched
      rw [r2, ob_some]

theorem updateIf_rel {R : Ref} {k h : Nat} {on bit : Bool} {a a' a2 : Apm} {o : Option Mapped}
    (hv : ∀ c < 65536, Slice a.mappings c (R.maps k c)) (hi : InRel R k h on a a' o)
    (hu : updateIf on a' (some h) bit = some a2) :
    (∀ mp ∈ o.toList, ∃ b, updatePredictions mp.apm 0 bit 5 false = some b) ∧
      ∀ S' : Ref, (∀ mp ∈ o.toList, ∃ b, updatePredictions mp.apm 0 bit 5 false = some b ∧
        S'.maps mp.k = put (R.maps mp.k) mp.hash b.mappings) → (o = none → S'.maps k = R.maps k) →
        ∀ c < 65536, Slice a2.mappings c (S'.maps k c) := by
  unfold updateIf at hu
  cases on with
  | false =>
    rw [if_neg (by decide)] at hu
    obtain rfl := Option.some.inj hu
    obtain ⟨rfl, rfl⟩ := hi.off rfl
    refine ⟨(fun mp hm => by cases hm), fun S' _ h2 => ?_⟩
    rw [h2 rfl]
    exact hv
  | true =>
    rw [if_pos rfl, ob_some] at hu
    obtain ⟨mp, rfl⟩ := Option.isSome_iff_exists.mp (hi.on rfl)
    obtain ⟨e1, e2, e3⟩ := hi.some mp rfl
    rw [← e2] at hu
    obtain ⟨b, n1, n2⟩ := e3 bit false a2 hu
    refine ⟨fun x hx => ?_, fun S' h1 _ => ?_⟩
    · obtain rfl : x = mp := by simpa using hx
      exact ⟨b, n1⟩
    · obtain ⟨b', f1, f2⟩ := h1 mp (by simp)
      rw [n1] at f1
      obtain rfl := Option.some.inj f1
      rw [e1] at f2
      rw [f2]
      exact n2

/-- the maps of the second phase are asked up to the class of the number of contexts -/
theorem second_rel {t : Tables} {R : Ref} {hs : List Nat} {mix : Prob} {h1 h2 h3 i : Nat} (hi : i < 4)
    {a1 a1' a2 a2' a3 a3' : Apm} {n1 n2 n3 n4 : Mixer} {o1 o2 o3 : Option Mapped}
    (x1 : InRel R 1 h1 (decide (i ≥ 1)) a1 a1' o1) (y1 : decide (i ≥ 1) = false → n2 = n1)
    (z1 : ∀ mp, o1 = some mp → askMap t R hs 1 mix = some mp ∧
      ∃ pr, stretched t mp.prob = some pr ∧ setInput n1 2 pr.1 pr.2 = some n2)
    (x2 : InRel R 2 h2 (decide (i ≥ 2)) a2 a2' o2) (y2 : decide (i ≥ 2) = false → n3 = n2)
    (z2 : ∀ mp, o2 = some mp → askMap t R hs 2 mix = some mp ∧
      ∃ pr, stretched t mp.prob = some pr ∧ setInput n2 3 pr.1 pr.2 = some n3)
    (x3 : InRel R 3 h3 (decide (i ≥ 3)) a3 a3' o3) (y3 : decide (i ≥ 3) = false → n4 = n3)
    (z3 : ∀ mp, o3 = some mp → askMap t R hs 3 mix = some mp ∧
      ∃ pr, stretched t mp.prob = some pr ∧ setInput n3 4 pr.1 pr.2 = some n4) :
    askMaps t R hs mix ([1, 2, 3].take i) = some (o1.toList ++ o2.toList ++ o3.toList) ∧
      ∃ ps, mapInputs t (o1.toList ++ o2.toList ++ o3.toList) = some ps ∧
        setInputs n1 (ps.mapIdx fun i p => (i + 2, p.1, p.2)) = some n4 := by
  match i, hi with
  | 0, _ =>
    obtain ⟨rfl, -⟩ := x1.off rfl
    obtain ⟨rfl, -⟩ := x2.off rfl
    obtain ⟨rfl, -⟩ := x3.off rfl
    obtain rfl := y1 rfl
    obtain rfl := y2 rfl
    obtain rfl := y3 rfl
    exact ⟨rfl, [], rfl, rfl⟩
  | 1, _ =>
    obtain ⟨m1, rfl⟩ := Option.isSome_iff_exists.mp (x1.on rfl)
    obtain ⟨rfl, -⟩ := x2.off rfl
    obtain ⟨rfl, -⟩ := x3.off rfl
    obtain rfl := y2 rfl
    obtain rfl := y3 rfl
    obtain ⟨b1, p1, c1, d1⟩ := z1 m1 rfl
    refine ⟨?_, [p1], ?_, ?_⟩
    · change askMaps t R hs mix [1] = some [m1]
      simp only [askMaps, b1, ob_some]
    · change mapInputs t [m1] = _
      simp only [mapInputs, c1, ob_some]
    · change setInputs n1 [(2, p1.1, p1.2)] = _
      simp only [setInputs, d1, ob_some]
  | 2, _ =>
    obtain ⟨m1, rfl⟩ := Option.isSome_iff_exists.mp (x1.on rfl)
    obtain ⟨m2, rfl⟩ := Option.isSome_iff_exists.mp (x2.on rfl)
    obtain ⟨rfl, -⟩ := x3.off rfl
    obtain rfl := y3 rfl
    obtain ⟨b1, p1, c1, d1⟩ := z1 m1 rfl
    obtain ⟨b2, p2, c2, d2⟩ := z2 m2 rfl
    refine ⟨?_, [p1, p2], ?_, ?_⟩
    · change askMaps t R hs mix [1, 2] = some [m1, m2]
      simp only [askMaps, b1, b2, ob_some]
    · change mapInputs t [m1, m2] = _
      simp only [mapInputs, c1, c2, ob_some]
    · change setInputs n1 [(2, p1.1, p1.2), (3, p2.1, p2.2)] = _
      simp only [setInputs, d1, d2, ob_some]
  | 3, _ =>
    obtain ⟨m1, rfl⟩ := Option.isSome_iff_exists.mp (x1.on rfl)
    obtain ⟨m2, rfl⟩ := Option.isSome_iff_exists.mp (x2.on rfl)
    obtain ⟨m3, rfl⟩ := Option.isSome_iff_exists.mp (x3.on rfl)
    obtain ⟨b1, p1, c1, d1⟩ := z1 m1 rfl
    obtain ⟨b2, p2, c2, d2⟩ := z2 m2 rfl
    obtain ⟨b3, p3, c3, d3⟩ := z3 m3 rfl
    refine ⟨?_, [p1, p2, p3], ?_, ?_⟩
    · change askMaps t R hs mix [1, 2, 3] = some [m1, m2, m3]
      simp only [askMaps, b1, b2, b3, ob_some]
    · change mapInputs t [m1, m2, m3] = _
      simp only [mapInputs, c1, c2, c3, ob_some]
    · change setInputs n1 [(2, p1.1, p1.2), (3, p2.1, p2.2), (4, p3.1, p3.2)] = _
      simp only [setInputs, d1, d2, d3, ob_some]

theorem InRel.keys {R : Ref} {k h : Nat} {on : Bool} {a a' : Apm} {o : Option Mapped} (h : InRel R k h on a a' o) :
    o.toList.map Mapped.k = if o.isSome then [k] else [] := by
  cases o with
  | none => rfl
  | some mp => simp [(h.some mp rfl).1]

theorem adaptive_rel {t : Tables} (ht : TablesOk t) {f f1 : Finalizer} {R : Ref} {r : Prob} {lb : LB} {p count : Nat}
    (hr : MixedOk t r) (hlb : LbOk lb) (hf : FinOk t .adaptive none f) (hrel : FinRel .adaptive f R)
    (h : refineAdaptive t f r.1 r.2 count lb = some (p, f1)) :
    ∃ hs v, hashes lb = some hs ∧ verdict t .adaptive R hs r count = some v ∧ v.prob = p ∧
      FinPend t .adaptive count lb v f1 R := by
  obtain ⟨u, u1, u2⟩ := hlb.u
  obtain ⟨h1, g1, g2⟩ := hlb.h1
  obtain ⟨h2, g3, g4⟩ := hlb.h2
  obtain ⟨h3, g5, g6⟩ := hlb.h3
  have hq := quantizeContexts_lt count
  have hcc := contextsClass_eq count
  have hres : ∃ x, f1.result = some x ∧ x.1 < 2 ^ 31 := by
    obtain ⟨_, f', e1, -, -, e2⟩ := refineAdaptive_ok ht hr hlb hf count
    rw [h] at e1
    obtain ⟨-, rfl⟩ := Prod.mk.inj (Option.some.inj e1)
    have := e2.result
    rw [if_pos (by simp)] at this
    obtain ⟨x, x1, x2⟩ := this
    exact ⟨x, x1, x2.prob.lt⟩
  unfold refineAdaptive at h
  dsimp only at h
  rw [g1, g3, g5] at h
  generalize hi : quantizeContexts count = i at *
  obtain ⟨m, hm, h⟩ := ob_inv h
  obtain ⟨⟨p0, mix, f2⟩, e0, h⟩ := ob_inv h
  obtain ⟨mp0, a0, rfl, m1, m2, m3, rfl, m5, m6⟩ := phase0_rel (hs := [u, h1, h2, h3]) ht hr u1 u2 rfl
    (hf.order0 (by decide)) (hrel.m0 (by decide)) e0
  dsimp only at h
  obtain ⟨n0, s0, h⟩ := ob_inv h
  obtain ⟨st0, s1, h⟩ := ob_inv h
  obtain ⟨n1, s2, h⟩ := ob_inv h
  obtain ⟨⟨a1, n2⟩, s3, h⟩ := ob_inv h
  dsimp only at h
  obtain ⟨⟨a2, n3⟩, s4, h⟩ := ob_inv h
  dsimp only at h
  obtain ⟨⟨a3, n4⟩, s5, h⟩ := ob_inv h
  dsimp only at h
  obtain ⟨res, s6, h⟩ := ob_inv h
  obtain ⟨q, s7, h⟩ := ob_inv h
  obtain ⟨rfl, rfl⟩ := Prod.mk.inj (Option.some.inj h)
  obtain ⟨o1, i1, j1, k1⟩ := input_rel (hs := [u, h1, h2, h3]) (k := 1) ht rfl g2 (hf.order1 (by decide)).ok.bits
    (hrel.m1 (by decide)) s3
  obtain ⟨o2, i2, j2, k2⟩ := input_rel (hs := [u, h1, h2, h3]) (k := 2) ht rfl g4 (hf.order2 (by decide)).ok.bits
    (hrel.m2 (by decide)) s4
  obtain ⟨o3, i3, j3, k3⟩ := input_rel (hs := [u, h1, h2, h3]) (k := 3) ht rfl g6 (hf.order3 (by decide)).ok.bits
    (hrel.m3 (by decide)) s5
  obtain ⟨c1, ps, c2, c3⟩ := second_rel hq i1 j1 k1 i2 j2 k2 i3 j3 k3
  have hres : res.1 < 2 ^ 31 := by
    obtain ⟨x, x1, x2⟩ := hres
    rw [Option.some.inj x1]
    exact x2
  obtain rfl := finish_eq s7 hres
  have hlast := hrel.last i m hm
  refine ⟨_, ⟨finish res.1, mp0 :: (o1.toList ++ o2.toList ++ o3.toList), some (i, res.1, n4)⟩,
    hashes_eq u1 g1 g3 g5, ?_, rfl, ?_⟩
  · unfold verdict
    dsimp only
    rw [← hcc, m1, ob_some, m6, ob_some, c1, ob_some, mapInputs]
    have hst : stretched t mp0.prob = some (mp0.prob, st0) := by unfold stretched; rw [s1, ob_some]
    rw [hst, ob_some, c2, ob_some, ob_some]
    unfold consult
    rw [List.mapIdx_cons, List.mapIdx_cons, setInputs, hlast, s0, ob_some, setInputs, s2, ob_some]
    have hc4 : setInputs n1 (List.mapIdx (fun i p => (i + 1 + 1, p.1, p.2)) ps) = some n4 := c3
    rw [hc4, ob_some, s6, ob_some, ob_some]
  · intro S hS1 hS2 bit f' hu
    unfold finalizerUpdate updateAdaptive at hu
    dsimp only at hu
    rw [hi, ob_some, u1, ob_some, g1, g3, g5] at hu
    obtain ⟨w0, v0, hu⟩ := ob_inv hu
    obtain ⟨w1, v1, hu⟩ := ob_inv hu
    obtain ⟨w2, v2, hu⟩ := ob_inv hu
    obtain ⟨w3, v3, hu⟩ := ob_inv hu
    have hlt : i < f.mixers.length := (List.getElem?_eq_some_iff.mp hm).1
    rw [List.getElem?_set, if_pos rfl, if_pos hlt, ob_some] at hu
    obtain ⟨m', v4, hu⟩ := ob_inv hu
    obtain rfl := Option.some.inj hu
    rw [← m3] at v0
    obtain ⟨b0, l1, l2⟩ := m5 bit false w0 v0
    obtain ⟨l3, l4⟩ := updateIf_rel (hrel.m1 (by decide)) i1 v1
    obtain ⟨l5, l6⟩ := updateIf_rel (hrel.m2 (by decide)) i2 v2
    obtain ⟨l7, l8⟩ := updateIf_rel (hrel.m3 (by decide)) i3 v3
    have hkeys : (mp0 :: (o1.toList ++ o2.toList ++ o3.toList)).map Mapped.k =
        0 :: ((if o1.isSome then [1] else []) ++ (if o2.isSome then [2] else []) ++ if o3.isSome then [3] else []) := by
      rw [List.map_cons, List.map_append, List.map_append, i1.keys, i2.keys, i3.keys, m2]
    obtain ⟨S', d1, d2, d3, d4, d5⟩ := learnMaps_rel (fixed := false) (bit := bit)
      (as := mp0 :: (o1.toList ++ o2.toList ++ o3.toList)) (R := S)
      (by rw [hkeys]; cases o1.isSome <;> cases o2.isSome <;> cases o3.isSome <;> decide)
      (by
        intro a ha
        rw [List.mem_cons, List.mem_append, List.mem_append] at ha
        rcases ha with rfl | (ha | ha) | ha
        · exact ⟨_, l1⟩
        · exact l3 a ha
        · exact l5 a ha
        · exact l7 a ha)
    rw [hkeys] at d5
    refine ⟨{ S' with last := put S'.last i m' }, ?_, ?_, d2⟩
    · unfold learnVerdict
      dsimp only
      rw [show decide (Mode.adaptive = Mode.light) = false from rfl, d1, ob_some, v4, ob_some]
    · rw [hS1] at d4 d5
      obtain ⟨_, z1, z2⟩ := d4 mp0 (by simp)
      rw [l1] at z1
      obtain rfl := Option.some.inj z1
      rw [m2] at z2
      refine ⟨fun _ => ?_, fun _ => ?_, fun _ => ?_, fun _ => ?_, ?_⟩
      · dsimp only; rw [z2]; exact l2
      · exact l4 S' (fun mp hmp => d4 mp (by simp [List.mem_append, hmp])) fun e => d5 1 (by
          rw [e]; cases o2.isSome <;> cases o3.isSome <;> decide)
      · exact l6 S' (fun mp hmp => d4 mp (by simp [List.mem_append, hmp])) fun e => d5 2 (by
          rw [e]; cases o1.isSome <;> cases o3.isSome <;> decide)
      · exact l8 S' (fun mp hmp => d4 mp (by simp [List.mem_append, hmp])) fun e => d5 3 (by
          rw [e]; cases o1.isSome <;> cases o2.isSome <;> decide)
      · intro j x hx
        dsimp only at hx ⊢
        rw [List.getElem?_set] at hx
        rw [d3, hS2]
        unfold put
        by_cases e : i = j
        · subst e
          rw [if_pos rfl, if_pos (by rw [List.length_set]; exact hlt)] at hx
          rw [if_pos rfl]
          exact Option.some.inj hx
        · rw [if_neg e, List.getElem?_set, if_neg e] at hx
          rw [if_neg (fun h => e h.symm)]
          exact hrel.last j x hx

theorem none_rel {t : Tables} {f f1 : Finalizer} {R : Ref} {r : Prob} {lb : LB} {p count : Nat} (hr : MixedOk t r)
    (hlb : LbOk lb) (hrel : FinRel .none f R)
    (h : (do let p ← toFixU 32 fractOnlyU32 finalProbability r.1
             some (p, f)) = some (p, f1)) :
    ∃ hs v, hashes lb = some hs ∧ verdict t .none R hs r count = some v ∧ v.prob = p ∧
      FinPend t .none count lb v f1 R := by
  obtain ⟨u, u1, -⟩ := hlb.u
  obtain ⟨h1, g1, -⟩ := hlb.h1
  obtain ⟨h2, g3, -⟩ := hlb.h2
  obtain ⟨h3, g5, -⟩ := hlb.h3
  obtain ⟨q, q1, h⟩ := ob_inv h
  obtain ⟨rfl, rfl⟩ := Prod.mk.inj (Option.some.inj h)
  obtain rfl := finish_eq q1 hr.prob.lt
  refine ⟨_, ⟨finish r.1, [], none⟩, hashes_eq u1 g1 g3 g5, rfl, rfl, ?_⟩
  intro S hS1 hS2 bit f' hu
  unfold finalizerUpdate at hu
  obtain rfl := Option.some.inj hu
  exact ⟨S, rfl, hrel.congr hS1 hS2, rfl⟩

/-- the final stage gives the verdict -/
theorem final_rel {t : Tables} (ht : TablesOk t) {mode : Mode} {f f1 : Finalizer} {R : Ref} {r : Prob} {lb : LB}
    {p count : Nat} (hr : MixedOk t r) (hlb : LbOk lb) (hf : FinOk t mode none f) (hrel : FinRel mode f R)
    (h : finalizerRefine t mode f r.1 r.2 count lb = some (p, f1)) :
    ∃ hs v, hashes lb = some hs ∧ verdict t mode R hs r count = some v ∧ v.prob = p ∧ FinPend t mode count lb v f1 R := by
  unfold finalizerRefine at h
  obtain ⟨_, -, h⟩ := ob_inv h
  cases mode with
  | none => exact none_rel hr hlb hrel h
  | light => exact light_rel ht hr hlb hf hrel h
  | adaptive => exact adaptive_rel ht hr hlb hf hrel h

theorem replicate_slice {vals : List Nat} (hv : vals.length = 25) : ∀ {n c : Nat}, c < n →
    Slice (List.replicate n vals).flatten c vals := by
  intro n
  induction n with
  | zero => intro c h; omega
  | succ n ih =>
    intro c hc
    refine ⟨hv, fun i hi => ?_⟩
    rw [List.replicate_succ, List.flatten_cons]
    cases c with
    | zero => rw [Nat.zero_mul, Nat.zero_add, List.getElem?_append_left (by omega)]
    | succ c =>
      rw [List.getElem?_append_right (by rw [hv]; omega), hv, show (c + 1) * 25 + i - 25 = c * 25 + i by omega]
      exact (ih (c := c) (by omega)).2 i hi

theorem new_slice {n c : Nat} (hc : c < n) : Slice (newAt n 0).mappings c (newAt 1 0).mappings := by
  have h1 : (newAt 1 0).mappings = (List.range 25).map (stopAt 0) := by
    unfold newAt
    dsimp only
    rw [List.replicate_one, List.flatten_singleton, show 24 * 2 ^ 0 + 1 = 25 by decide]
  rw [h1]
  exact replicate_slice (vals := (List.range 25).map (stopAt 0)) (by rw [List.length_map, List.length_range]) hc

theorem finalizerNew_rel {t : Tables} (ht : TablesOk t) {mode : Mode} {f : Finalizer} {R : Ref}
    (h : finalizerNew t mode = some f) (hR : refNew t = some R) : FinRel mode f R := by
  unfold finalizerNew at h
  obtain ⟨m2, a1, h⟩ := ob_inv h
  obtain ⟨m3, a2, h⟩ := ob_inv h
  obtain ⟨m4, a3, h⟩ := ob_inv h
  obtain ⟨m5, a4, h⟩ := ob_inv h
  have e0 : ∀ n, apmNew n 0 t.squash = some (newAt n 0) := fun n => by rw [ht.squash]; exact apmNew_eq (by omega) n
  rw [e0, ob_some, e0, ob_some] at h
  obtain rfl := Option.some.inj h
  unfold refNew at hR
  obtain ⟨_, -, hR⟩ := ob_inv hR
  obtain ⟨_, -, hR⟩ := ob_inv hR
  obtain ⟨_, -, hR⟩ := ob_inv hR
  rw [e0, ob_some] at hR
  obtain rfl := Option.some.inj hR
  refine ⟨?_, ?_, ?_, ?_, ?_⟩
  · intro hm c hc; dsimp only; rw [if_neg hm]; exact new_slice hc
  · intro hm c hc; dsimp only; rw [if_neg hm]; exact new_slice hc
  · intro hm c hc; dsimp only; rw [if_neg hm]; exact new_slice hc
  · intro hm c hc; dsimp only; rw [if_neg hm]; exact new_slice hc
  · intro i m hm
    dsimp only at hm ⊢
    match i, hm with
    | 0, hm => obtain rfl := Option.some.inj hm; rw [a1]; rfl
    | 1, hm => obtain rfl := Option.some.inj hm; rw [a2]; rfl
    | 2, hm => obtain rfl := Option.some.inj hm; rw [a3]; rfl
    | 3, hm => obtain rfl := Option.some.inj hm; rw [a4]; rfl
    | _ + 4, hm => cases hm

end Verif.Pred
