import Verif.Mix.Mixer
import Verif.Mix.Round
import Verif.Est.Lemmas

/-! # Closed forms of the mixer operations -/

namespace Verif.Mix

open Verif Verif.Fixed Verif.Lut

theorem mulI_eq (A B R : FixI) {a b : Int} {d : Nat} (ha : -2 ^ 31 ≤ a ∧ a < 2 ^ 31)
    (hb : -2 ^ 31 ≤ b ∧ b < 2 ^ 31) (hf : A.frac + B.frac < 256) (h1 : R.frac + d = A.frac + B.frac) (h0 : 1 ≤ d)
    (h2 : d < 62) (hr : -2 ^ 31 ≤ rnd (a * b) d ∧ rnd (a * b) d < 2 ^ 31) :
    mulI32 A B R a b = R.new (rnd (a * b) d) := by
  obtain ⟨r, hn, hm⟩ := C08_mul_signed A B R a b ha hb hf (by omega) (by omega)
  have e : A.frac + B.frac - R.frac = d := by omega
  rw [e] at hn
  have := rnd_eq h0 hn
  subst this
  rw [hm, if_pos hr]

theorem mul_abs_le {a b M N : Int} (ha : |a| ≤ M) (hb : |b| ≤ N) : |a * b| ≤ M * N := by
  rw [abs_mul]
  exact mul_le_mul ha hb (abs_nonneg _) ((abs_nonneg _).trans ha)

/-- weight in range -/
def WeightOk (w : Int) : Prop := |w| ≤ 8 * 2 ^ 21

/-- stretched probability in range -/
def StOk (st : Int) : Prop := |st| ≤ 12 * 2 ^ 21

theorem mulWide_eq {w st : Int} (hw : WeightOk w) (hst : StOk st) :
    mulWideI32 mixerWeight stretchedProbD stretchedProbQ w st = some (rnd (w * st) 2) ∧
      |rnd (w * st) 2| ≤ 96 * 2 ^ 40 := by
  have hm := mul_abs_le hw hst
  have hb : |rnd (w * st) 2| ≤ 96 * 2 ^ 40 := rnd_abs_le (by omega) (by norm_num at *; omega)
  refine ⟨?_, hb⟩
  generalize hz : w * st = z at *
  have hz2 := abs_le.mp hm
  obtain ⟨r, hr, hn, -⟩ := C07_signed 64 2 z (by omega) (by omega) (by norm_num at *; omega) (by norm_num at *; omega)
  have hn := hn (by norm_num at *; omega)
  have := rnd_eq (by omega) hn
  subst this
  unfold mulWideI32
  rw [hz, i64_eq (by norm_num at *; omega), ob_some, u8_eq (by decide), ob_some, if_pos (by decide)]
  rw [show mixerWeight.frac + stretchedProbD.frac - stretchedProbQ.frac = 2 from rfl, hr, ob_some]
  rfl

/-- the sum of the rounded products -/
def sumQ (l : List MInput) : Int := (l.map fun x => rnd (x.weight * x.st) 2).sum

theorem sumQ_cons (x : MInput) (l : List MInput) : sumQ (x :: l) = rnd (x.weight * x.st) 2 + sumQ l := rfl

theorem sumQ_abs : ∀ {l : List MInput}, (∀ x ∈ l, WeightOk x.weight ∧ StOk x.st) →
    |sumQ l| ≤ 96 * 2 ^ 40 * l.length := by
  intro l
  induction l with
  | nil => intro _; simp [sumQ]
  | cons x l ih =>
    intro h
    have h1 := (mulWide_eq (h x (by simp)).1 (h x (by simp)).2).2
    have h2 := ih fun y hy => h y (by simp [hy])
    rw [sumQ_cons, List.length_cons]
    rw [abs_le] at *
    push_cast
    constructor <;> linarith [h1.1, h1.2, h2.1, h2.2]

theorem mixSum_eq : ∀ {l : List MInput} {acc : Int}, (∀ x ∈ l, WeightOk x.weight ∧ StOk x.st) →
    |acc| + 96 * 2 ^ 40 * l.length < 2 ^ 62 → mixSum acc l = some (acc + sumQ l) := by
  intro l
  induction l with
  | nil => intro acc _ _; simp [mixSum, sumQ]
  | cons x l ih =>
    intro acc h hs
    obtain ⟨h1, h2⟩ := mulWide_eq (h x (by simp)).1 (h x (by simp)).2
    rw [List.length_cons] at hs
    push_cast at hs
    have h3 : |acc + rnd (x.weight * x.st) 2| ≤ |acc| + 96 * 2 ^ 40 := (abs_add_le _ _).trans (by omega)
    have hl : (0 : Int) ≤ 96 * 2 ^ 40 * (l.length : Int) := by positivity
    have h4 : |acc + rnd (x.weight * x.st) 2| < 2 ^ 62 := by linarith
    have h5 := abs_lt.mp h4
    rw [mixSum, h1, ob_some]
    unfold addI64
    rw [i64_eq (by norm_num at *; omega), ob_some]
    change (some (acc + rnd (x.weight * x.st) 2) >>= fun acc => mixSum acc l) = _
    rw [ob_some, ih (fun y hy => h y (by simp [hy])) (by linarith), sumQ_cons]
    congr 1
    ring

/-- the stretched result of mixing -/
def mixOut (l : List MInput) : Int := rnd (clampStretchedQ (sumQ l)) 19

theorem clampQ_abs (z : Int) : |clampStretchedQ z| ≤ 12 * 2 ^ 40 := by
  unfold clampStretchedQ
  rw [abs_le]
  constructor <;> omega

theorem mixOut_ok (l : List MInput) : StOk (mixOut l) :=
  rnd_abs_le (by omega) ((clampQ_abs _).trans (by norm_num))

theorem stD_new {z : Int} (h : StOk z) : stretchedProbD.new z = some z := by
  have h2 := abs_le.mp h
  change (do check _; some z) = some z
  rw [check_pos (by norm_num at *; omega)]
  rfl

theorem toD_eq (z : Int) :
    toFixI64I32 stretchedProbQ stretchedProbD (clampStretchedQ z) = some (rnd (clampStretchedQ z) 19) := by
  have h := clampQ_abs z
  have hb : StOk (rnd (clampStretchedQ z) 19) := rnd_abs_le (by omega) (h.trans (by norm_num))
  generalize clampStretchedQ z = q at *
  have h2 := abs_le.mp h
  obtain ⟨r, hn, hr⟩ := (C46_narrow stretchedProbQ stretchedProbD q (by norm_num at *; omega)
    (by norm_num at *; omega)).2 (by decide) (by decide)
    (by rw [show stretchedProbQ.frac - stretchedProbD.frac - 1 = 18 from rfl]; norm_num at *; omega)
  rw [show stretchedProbQ.frac - stretchedProbD.frac = 19 from rfl] at hn
  have := rnd_eq (by omega) hn
  subst this
  have hb2 := abs_le.mp hb
  rw [hr, if_pos (by norm_num at *; omega), stD_new hb]

/-- a mixer whose stored values respect the ranges of their types -/
structure MixerOk (m : Mixer) : Prop where
  size : m.inputs.length ≤ 30
  weight : ∀ x ∈ m.inputs, WeightOk x.weight
  st : ∀ x ∈ m.inputs, StOk x.st
  index : m.index ≤ 1000

theorem mixAll_eq (table : List Nat) {m : Mixer} (h : MixerOk m) :
    mixAll table m = if m.mask = 2 ^ m.inputs.length - 1 then
      (squash table (mixOut m.inputs)).map fun sq => (sq, mixOut m.inputs) else none := by
  unfold mixAll
  by_cases hm : m.mask = 2 ^ m.inputs.length - 1
  · have hl : (m.inputs.length : Int) ≤ 30 := by exact_mod_cast h.size
    rw [check_pos hm, if_pos hm, ob_some,
      mixSum_eq (fun x hx => ⟨h.weight x hx, h.st x hx⟩) (by rw [abs_zero]; linarith), ob_some, zero_add, toD_eq,
      ob_some]
    change (squash table (mixOut m.inputs) >>= _) = _
    cases squash table (mixOut m.inputs) <;> rfl
  · rw [check_neg hm, if_neg hm]; rfl

/-- the prediction error, in units of `2 ^ -31` -/
def errOf (bit : Bool) (sq : Nat) : Int := if bit then sq else 2 ^ 31 - sq

/-- the common factor of all weight updates -/
def stepOf (rate : Nat) (bit : Bool) (sq : Nat) : Int := rnd (errOf bit sq * rnd rate 1) 31

/-- the change of the weight of an input -/
def deltaOf (step st : Int) : Int := rnd (st * step) 31

/-- the new weight -/
def weightOf (bit : Bool) (step : Int) (x : MInput) : Int :=
  clampWeight (if bit then x.weight - deltaOf step x.st else x.weight + deltaOf step x.st)

theorem clampWeight_ok (z : Int) : WeightOk (clampWeight z) := by
  unfold WeightOk clampWeight
  rw [abs_le]
  constructor <;> omega

theorem fracI_new {z : Int} (h : 0 ≤ z) (h2 : z < 2 ^ 31) : fractOnlyI32.new z = some z := by
  change (do check _; some z) = some z
  rw [check_pos (by norm_num at *; omega)]
  rfl

theorem errOf_bounds {bit : Bool} {sq : Nat} (h0 : 0 < sq) (h1 : sq < 2 ^ 31) :
    0 < errOf bit sq ∧ errOf bit sq < 2 ^ 31 := by
  unfold errOf
  cases bit
  · rw [if_neg (by decide)]; norm_num at *; omega
  · rw [if_pos rfl]; norm_num at *; omega

theorem mixError_eq {bit : Bool} {sq : Nat} (h0 : 0 < sq) (h1 : sq < 2 ^ 31) :
    mixError bit sq = some (errOf bit sq) := by
  have hb := errOf_bounds (bit := bit) h0 h1
  unfold mixError
  cases bit
  · have e : errOf false sq = ((2 ^ 31 - sq : Nat) : Int) := by
      unfold errOf; rw [if_neg (by decide)]; norm_num at *; omega
    have hf : flipU32 sq = some (2 ^ 31 - sq) := by
      have := (C09_flip sq h1).1 (by omega)
      exact this.1
    rw [if_neg (by decide), hf, ob_some]
    dsimp only
    rw [← e, wrapI32_eq (by norm_num at *; omega)]
    exact fracI_new (by omega) (by omega)
  · have e : errOf true sq = (sq : Int) := by unfold errOf; rw [if_pos rfl]
    rw [if_pos rfl, ob_some]
    dsimp only
    rw [← e, wrapI32_eq (by norm_num at *; omega)]
    exact fracI_new (by omega) (by omega)

theorem stepOf_bounds {rate : Nat} {bit : Bool} {sq : Nat} (hr : rate ≤ 2 ^ 30) (h0 : 0 < sq) (h1 : sq < 2 ^ 31) :
    0 ≤ rnd (rate : Int) 1 ∧ rnd (rate : Int) 1 ≤ 2 ^ 29 ∧ 0 ≤ stepOf rate bit sq ∧ stepOf rate bit sq ≤ 2 ^ 29 := by
  obtain ⟨e1, e2⟩ := errOf_bounds (bit := bit) h0 h1
  have a1 : 0 ≤ rnd (rate : Int) 1 := le_rnd (by omega) (by omega)
  have a2 : rnd (rate : Int) 1 ≤ 2 ^ 29 := rnd_le (by omega) (by norm_num at *; omega)
  refine ⟨a1, a2, ?_, ?_⟩
  · exact le_rnd (by omega) (by rw [zero_mul]; exact mul_nonneg e1.le a1)
  · refine rnd_le (by omega) ?_
    calc errOf bit sq * rnd (rate : Int) 1 ≤ 2 ^ 31 * 2 ^ 29 := mul_le_mul e2.le a2 a1 (by norm_num)
      _ = 2 ^ 29 * 2 ^ 31 := by norm_num

theorem deltaOf_abs {step st : Int} (h0 : 0 ≤ step) (h1 : step ≤ 2 ^ 29) (hst : StOk st) :
    |deltaOf step st| ≤ 3 * 2 ^ 21 := by
  refine rnd_abs_le (by omega) ?_
  have := mul_abs_le hst (show |step| ≤ 2 ^ 29 by rw [abs_of_nonneg h0]; exact h1)
  refine this.trans (by norm_num)

theorem updateInput_eq {bit : Bool} {step : Int} {x : MInput} (h0 : 0 ≤ step) (h1 : step ≤ 2 ^ 29)
    (hw : WeightOk x.weight) (hst : StOk x.st) :
    updateInput bit step x = some { x with weight := weightOf bit step x } := by
  have hd := deltaOf_abs h0 h1 hst
  have hst2 := abs_le.mp hst
  have hw2 := abs_le.mp hw
  have hd2 := abs_le.mp hd
  have e : mulI32 stretchedProbD fractOnlyI32 mixerWeight x.st step = some (deltaOf step x.st) := by
    rw [mulI_eq (d := 31) _ _ _ (by norm_num at *; omega) (by norm_num at *; omega) (by decide) (by decide)
      (by omega) (by omega) (by unfold deltaOf at hd2; norm_num at *; omega)]
    rfl
  unfold updateInput weightOf
  rw [e, ob_some]
  cases bit
  · rw [if_neg (by decide), if_neg (by decide)]
    unfold addI32
    rw [i32_eq (by norm_num at *; omega), ob_some]
    rfl
  · rw [if_pos rfl, if_pos rfl]
    unfold subI32
    rw [i32_eq (by norm_num at *; omega), ob_some]
    rfl

theorem mapM_map {α β : Type} (f : α → Option β) (g : α → β) : ∀ {l : List α}, (∀ x ∈ l, f x = some (g x)) →
    l.mapM f = some (l.map g) := by
  intro l
  induction l with
  | nil => intro _; rfl
  | cons a l ih =>
    intro h
    rw [List.mapM_cons, h a (by simp), ob_some, ih (fun x hx => h x (by simp [hx])), ob_some]
    rfl

/-- the mixer after an update -/
def updated (m : Mixer) (rate : Nat) (bit : Bool) (sq maxIndex : Nat) : Mixer where
  inputs := m.inputs.map fun x => { x with weight := weightOf bit (stepOf rate bit sq) x }
  mask := 0
  index := min maxIndex (m.index + 1)

theorem update_eq {rates : List Nat} {m : Mixer} {rate : Nat} (bit : Bool) {sq maxIndex : Nat} (h : MixerOk m)
    (hrate : rates[m.index]? = some rate) (hr : rate ≤ 2 ^ 30) (h0 : 0 < sq) (h1 : sq < 2 ^ 31) :
    updateAndReset rates m bit sq maxIndex =
      if m.mask = 2 ^ m.inputs.length - 1 ∧ m.index ≤ maxIndex ∧ maxIndex ≤ 1000 then
        some (updated m rate bit sq maxIndex) else none := by
  unfold updateAndReset
  by_cases hm : m.mask = 2 ^ m.inputs.length - 1
  swap
  · rw [check_neg hm, if_neg (fun hc => hm hc.1)]; rfl
  obtain ⟨a1, a2, a3, a4⟩ := stepOf_bounds (bit := bit) hr h0 h1
  obtain ⟨e1, e2⟩ := errOf_bounds (bit := bit) h0 h1
  have d1 : rnd (2 ^ 30 * (rate : Int)) 31 = rnd (rate : Int) 1 := by
    refine (rnd_eq (by omega) ?_).symm
    have := rnd_nearest (rate : Int) (s := 1) (by omega)
    generalize rnd (rate : Int) 1 = f at *
    unfold Nearest at *
    have e : f * 2 ^ 31 - 2 ^ 30 * (rate : Int) = 2 ^ 30 * (f * 2 ^ 1 - rate) := by ring
    have e' : f * 2 ^ 31 = 2 ^ 30 * (f * 2 ^ 1) := by ring
    rw [e, e', abs_mul, abs_mul, abs_mul, abs_of_nonneg (show (0 : Int) ≤ 2 ^ 30 by norm_num)]
    generalize |f * 2 ^ 1 - (rate : Int)| = u at *
    generalize |f * 2 ^ 1| = v at *
    generalize |(rate : Int)| = t at *
    norm_num at *
    omega
  have g1 : mulI32 fractOnlyI32 fractOnlyI32 fractOnlyI32 (2 ^ 30) (rate : Int) = some (rnd (rate : Int) 1) := by
    rw [mulI_eq (d := 31) _ _ _ (by norm_num) (by norm_num at *; omega) (by decide) (by decide) (by omega) (by omega)
      (by rw [d1]; norm_num at *; omega), d1]
    exact fracI_new a1 (by norm_num at *; omega)
  have g2 : mulI32 fractOnlyI32 fractOnlyI32 fractOnlyI32 (errOf bit sq) (rnd (rate : Int) 1) =
      some (stepOf rate bit sq) := by
    rw [mulI_eq (d := 31) _ _ _ (by norm_num at *; omega) (by norm_num at *; omega) (by decide) (by decide)
      (by omega) (by omega) ⟨le_trans (by norm_num) a3, lt_of_le_of_lt a4 (by norm_num)⟩]
    exact fracI_new a3 (lt_of_le_of_lt a4 (by norm_num))
  rw [check_pos hm, ob_some, hrate, ob_some]
  rw [wrapI32_eq (by norm_num at *; omega), fracI_new (by omega) (by norm_num at *; omega), ob_some, g1, ob_some,
    mixError_eq h0 h1, ob_some, g2, ob_some,
    mapM_map _ _ (fun x hx => updateInput_eq a3 a4 (h.weight x hx) (h.st x hx)), ob_some]
  by_cases hi : m.index ≤ maxIndex
  swap
  · rw [check_neg hi, if_neg (fun hc => hi hc.2.1)]; rfl
  by_cases hj : maxIndex ≤ 1000
  swap
  · rw [check_pos hi, ob_some, check_neg (show ¬ maxIndex ≤ indexLimit from hj), if_neg (fun hc => hj hc.2.2)]; rfl
  have hin := h.index
  rw [check_pos hi, ob_some, check_pos (show maxIndex ≤ indexLimit from hj), ob_some, u16_eq (by omega), ob_some,
    if_pos ⟨hm, hi, hj⟩]
  rfl

theorem updated_ok {m : Mixer} (h : MixerOk m) (rate : Nat) (bit : Bool) (sq : Nat) {maxIndex : Nat}
    (hj : maxIndex ≤ 1000) : MixerOk (updated m rate bit sq maxIndex) where
  size := by rw [updated, List.length_map]; exact h.size
  weight := by
    intro x hx
    obtain ⟨y, -, rfl⟩ := List.mem_map.mp hx
    exact clampWeight_ok _
  st := by
    intro x hx
    obtain ⟨y, hy, rfl⟩ := List.mem_map.mp hx
    exact h.st y hy
  index := by
    change min maxIndex (m.index + 1) ≤ 1000
    omega

end Verif.Mix
