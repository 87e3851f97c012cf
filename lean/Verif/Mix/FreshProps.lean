import Verif.Mix.MixerProps
import Verif.Lut.ComposeProps

/-!
# What a new mixer predicts (C101)
-/

namespace Verif.Mix

open Verif Verif.Fixed Verif.Lut

/-- what setting several inputs does -/
theorem setInputs_spec {n idx : Nat} : ∀ {sets : List (Nat × Nat × Int)} {m m' : Mixer} {S : List Nat}, Inv n m S idx →
    (∀ s ∈ sets, s.2.1 < 2 ^ 31 ∧ |s.2.2| ≤ 12 * 2 ^ 21) → setInputs m sets = some m' →
    (∃ S', Inv n m' S' idx ∧ ∀ i, i ∈ S' ↔ i ∈ S ∨ i ∈ sets.map (·.1)) ∧
      m'.inputs.map (·.weight) = m.inputs.map (·.weight) ∧ (∀ i ∈ S, m'.inputs[i]? = m.inputs[i]?) ∧
      ∀ s ∈ sets, ∃ x, m'.inputs[s.1]? = some x ∧ x.sq = s.2.1 ∧ x.st = s.2.2 := by
  intro sets
  induction sets with
  | nil =>
    intro m m' S hS _ h
    cases Option.some.inj h
    exact ⟨⟨S, hS, fun i => by simp⟩, rfl, fun _ _ => rfl, by simp⟩
  | cons s sets ih =>
    intro m m' S hS ht h
    obtain ⟨i, sq, st⟩ := s
    obtain ⟨t1, t2⟩ := ht (i, sq, st) (by simp)
    rw [setInputs] at h
    obtain ⟨e1, e2⟩ := setInput_eq hS.mask (i := i) sq st
    by_cases hc : i < m.inputs.length ∧ i ∉ S
    swap
    · rw [e1 hc] at h; cases h
    rw [e2 hc.1 hc.2, ob_some] at h
    obtain ⟨⟨S', a1, a2⟩, c, d, e⟩ := ih (setTo_inv hS hc.1 t1 t2) (fun s hs => ht s (by simp [hs])) h
    have hget : (setTo m i sq st m.inputs[i]).inputs[i]? = some { m.inputs[i] with sq := sq, st := st } := by
      unfold setTo
      simp [hc.1]
    refine ⟨⟨S', a1, fun k => ?_⟩, ?_, ?_, ?_⟩
    · rw [a2]; simp only [List.mem_cons, List.map_cons]; tauto
    · rw [c]
      unfold setTo
      dsimp only
      rw [List.map_set]
      exact List.set_getElem_self (as := m.inputs.map (·.weight)) (by simpa using hc.1) ▸ by simp
    · intro k hk
      rw [d k (by simp [hk])]
      unfold setTo
      dsimp only
      rw [List.getElem?_set_ne]
      rintro rfl
      exact hc.2 hk
    · intro s hs
      rcases List.mem_cons.mp hs with rfl | hs
      · exact ⟨_, (d i (by simp)).trans hget, rfl, rfl⟩
      · exact e s hs

theorem sumQ_none : ∀ {l : List MInput}, (∀ x ∈ l, x.weight = 0) → sumQ l = 0 := by
  intro l
  induction l with
  | nil => intro _; rfl
  | cons x l ih =>
    intro h
    rw [sumQ_cons, h x (by simp), zero_mul, ih fun y hy => h y (by simp [hy])]
    rfl

theorem rnd_whole (z : Int) : rnd (2 ^ 21 * z) 2 = 2 ^ 19 * z ∧ rnd (2 ^ 19 * z) 19 = z := by
  unfold rnd
  norm_num
  constructor
  · split <;> omega
  · split <;> omega

/-- the weights of a new mixer -/
theorem new_weights {n idx : Nat} {mode : Init} {m : Mixer} (h : New n idx mode m) :
    match mode with
    | .allZero => m.inputs.map (·.weight) = List.replicate n 0
    | .dominantFirst => m.inputs.map (·.weight) = 2 ^ 21 :: List.replicate (n - 1) 0
    | .equalSummingToOne => ∃ w, m.inputs.map (·.weight) = List.replicate n w ∧ |n * w - 2 ^ 21| ≤ (n : Int) := by
  obtain ⟨hI, hn, hi⟩ := new_inv h
  by_cases h0 : n = 0
  · subst h0
    have hl := hI.len
    obtain ⟨-, -, -, -, ⟨z1, z2⟩, -⟩ := C38_new 1 idx (by omega) (by omega) hi
    rcases h with ⟨h1, -⟩ | h
    · omega
    · cases mode with
      | allZero => rw [List.length_eq_zero_iff.mp hl]; rfl
      | dominantFirst => rw [z1] at h; cases h
      | equalSummingToOne => rw [z2] at h; cases h
  · obtain ⟨⟨a, a1, a2⟩, ⟨b, b1, b2⟩, ⟨c, w, c1, c2, c3⟩, hf, -⟩ := C38_new n idx (by omega) hn hi
    rcases h with ⟨-, h5, h⟩ | h
    · obtain ⟨⟨a, a1, a2⟩, ⟨b, b1, b2⟩, ⟨c, w, c1, c2, c3, c4⟩⟩ := hf h5
      cases mode with
      | allZero => rw [a1] at h; cases h; exact a2
      | dominantFirst => rw [b1] at h; cases h; exact b2
      | equalSummingToOne =>
        rw [c1] at h; cases h
        refine ⟨w, c2, ?_⟩
        rw [add_mul, one_mul] at c4
        rw [mul_comm, abs_le]
        constructor <;> linarith
    · cases mode with
      | allZero => rw [a1] at h; cases h; exact a2
      | dominantFirst => rw [b1] at h; cases h; exact b2
      | equalSummingToOne =>
        rw [c1] at h; cases h
        refine ⟨w, c2, ?_⟩
        have h2 := c3.1
        have h3 := abs_nonneg (w * (n : Int) - 2 ^ 21)
        rw [mul_comm]
        linarith

/-- **C101.** What a new mixer predicts once its inputs are set. With zero weights: exactly one half. With a dominant first
input: the first stretched input itself; so if the first input is a probability from `2^-17` to `1 - 2^-17` with its
stretched form, it is predicted up to `10^-6`. With equal weights and equal stretched inputs: that input up to `12 n` units
of `2^-21`. -/
theorem C101_new_mixer (lut : List (List Int)) (table : List Nat) (hlut : stretchLutNew = some lut)
    (htab : squashLutNew lut = some table) (n idx : Nat) (mode : Init) (m m' : Mixer) (hm : New n idx mode m)
    (sets : List (Nat × Nat × Int)) (ht : ∀ s ∈ sets, s.2.1 < 2 ^ 31 ∧ |s.2.2| ≤ 12 * 2 ^ 21)
    (hs : setInputs m sets = some m') (sq : Nat) (st : Int) (h : mixAll table m' = some (sq, st)) :
    squash table st = some sq ∧
    (mode = .allZero → st = 0 ∧ sq = 2 ^ 30) ∧
    (mode = .dominantFirst → ∃ p x, (0, p, x) ∈ sets ∧ st = x ∧
      (2 ^ 14 ≤ p → p ≤ 2 ^ 31 - 2 ^ 14 → stretch lut p = some x → 10 ^ 6 * |(sq : Int) - p| ≤ 2 ^ 31)) ∧
    (mode = .equalSummingToOne → ∀ x, (∀ s ∈ sets, s.2.2 = x) → |st - x| ≤ 12 * (n : Int)) := by
  obtain ⟨hI, hn, -⟩ := new_inv hm
  obtain ⟨⟨S', hI', hS⟩, hw, -, hset⟩ := setInputs_spec hI ht hs
  rw [mixAll_eq table hI'.ok] at h
  by_cases hc : m'.mask = 2 ^ m'.inputs.length - 1
  swap
  · rw [if_neg hc] at h; cases h
  rw [if_pos hc] at h
  obtain ⟨q, h1, h2⟩ := Option.map_eq_some_iff.mp h
  cases h2
  have hall := (mask_full hI'.mask).mp hc
  have hnw := new_weights hm
  refine ⟨h1, ?_, ?_, ?_⟩
  · rintro rfl
    dsimp only at hnw
    have hz : ∀ x ∈ m'.inputs, x.weight = 0 := by
      intro x hx
      have : x.weight ∈ m'.inputs.map (·.weight) := List.mem_map_of_mem hx
      rw [hw, hnw] at this
      exact List.eq_of_mem_replicate this
    have e : mixOut m'.inputs = 0 := by unfold mixOut; rw [sumQ_none hz]; rfl
    refine ⟨e, ?_⟩
    obtain ⟨lut', table', g1, g2, g3, -⟩ := C36_squash
    obtain rfl := Option.some.inj (hlut.symm.trans g1)
    obtain rfl := Option.some.inj (htab.symm.trans g2)
    rw [e, g3] at h1
    exact (Option.some.inj h1).symm
  · rintro rfl
    dsimp only at hnw
    rw [hnw] at hw
    obtain ⟨y, l, hl⟩ : ∃ y l, m'.inputs = y :: l := by
      cases hl : m'.inputs with
      | nil => rw [hl] at hw; cases hw
      | cons y l => exact ⟨y, l, rfl⟩
    have h0 := (hS 0).mp (hall 0 (by rw [hl]; simp))
    obtain ⟨⟨i, p, x⟩, hmem, hi⟩ := List.mem_map.mp (h0.resolve_left (by simp))
    dsimp only at hi
    subst hi
    obtain ⟨y', k1, -, k3⟩ := hset _ hmem
    rw [hl] at k1
    obtain rfl : y = y' := by simpa using k1
    dsimp only at k3
    rw [hl, List.map_cons, List.cons.injEq] at hw
    have hz : ∀ x ∈ l, x.weight = 0 := by
      intro x hx
      have : x.weight ∈ l.map (·.weight) := List.mem_map_of_mem hx
      rw [hw.2] at this
      exact List.eq_of_mem_replicate this
    have hx := (ht _ hmem).2
    dsimp only at hx
    have e : mixOut m'.inputs = x := by
      unfold mixOut
      rw [hl, sumQ_cons, sumQ_none hz, hw.1, k3, (rnd_whole x).1, add_zero]
      have : clampStretchedQ (2 ^ 19 * x) = 2 ^ 19 * x := by
        unfold clampStretchedQ
        rw [abs_le] at hx
        norm_num at hx ⊢
        omega
      rw [this, (rnd_whole x).2]
    refine ⟨p, x, hmem, e, ?_⟩
    intro p1 p2 p3
    obtain ⟨x', r, c1, c2, c3, -⟩ := C100_squash_stretch lut table hlut htab p p1 p2
    rw [p3] at c1
    cases c1
    rw [e, c2] at h1
    cases h1
    exact c3
  · rintro rfl x hx
    dsimp only at hnw
    obtain ⟨w, w1, w2⟩ := hnw
    rw [w1] at hw
    have hst : ∀ y ∈ m'.inputs, y.weight * y.st = w * x := by
      intro y hy
      have : y.weight ∈ m'.inputs.map (·.weight) := List.mem_map_of_mem hy
      rw [hw] at this
      rw [List.eq_of_mem_replicate this]
      obtain ⟨i, hi, rfl⟩ := List.getElem_of_mem hy
      obtain ⟨s, hs1, hs2⟩ := List.mem_map.mp (((hS i).mp (hall i hi)).resolve_left (by simp))
      obtain ⟨y', k1, -, k3⟩ := hset s hs1
      rw [hs2, List.getElem?_eq_getElem hi] at k1
      cases k1
      rw [k3, hx s hs1]
    have e1 := sumQ_err m'.inputs
    have hsum : (m'.inputs.map fun y => y.weight * y.st) = List.replicate n (w * x) := by
      rw [List.map_congr_left hst, List.map_const', hI'.len]
    rw [hsum, List.sum_replicate, hI'.len, nsmul_eq_mul] at e1
    by_cases h0 : n = 0
    · subst h0
      norm_num at w2
    have hx12 : |x| ≤ 12 * 2 ^ 21 := by
      have h0m := hall 0 (by rw [hI'.len]; omega)
      obtain ⟨s, hs1, -⟩ := List.mem_map.mp (((hS 0).mp h0m).resolve_left (by simp))
      rw [← hx s hs1]
      exact (ht s hs1).2
    have e2 : |(n : Int) * (w * x) - 2 ^ 21 * x| ≤ (n : Int) * (12 * 2 ^ 21) := by
      rw [show (n : Int) * (w * x) - 2 ^ 21 * x = (n * w - 2 ^ 21) * x by ring, abs_mul]
      exact mul_le_mul w2 hx12 (abs_nonneg _) (by omega)
    have e3 := rnd_err (clampStretchedQ (sumQ m'.inputs)) (s := 19) (by omega)
    unfold mixOut
    generalize (n : Int) * (w * x) = z at *
    generalize rnd (clampStretchedQ (sumQ m'.inputs)) 19 = r at *
    generalize sumQ m'.inputs = q at *
    unfold clampStretchedQ at e3
    have e4 : |r * 2 ^ 19 - min (max q (-(12 * 2 ^ 40))) (12 * 2 ^ 40)| ≤ 2 ^ 18 := by
      norm_num at *
      omega
    rw [abs_le] at *
    norm_num at *
    constructor <;> omega

/-- a mixer of two inputs with a dominant first one; all hypotheses hold, and the first input is predicted -/
example : ∃ lut table m m' sq st, stretchLutNew = some lut ∧ squashLutNew lut = some table ∧
    New 2 5 .dominantFirst m ∧ setInputs m [(1, 2 ^ 29, -2303957), (0, 2 ^ 14, -24711779)] = some m' ∧
    mixAll table m' = some (sq, st) ∧ st = -24711779 ∧ stretch lut (2 ^ 14) = some st := by
  obtain ⟨lut, table, g1, g2, -, g3⟩ := C36_squash
  obtain ⟨r, r1, -⟩ := g3 (-24711779) (by norm_num)
  have e1 : mixSum 0 [⟨2 ^ 21, 2 ^ 14, -24711779⟩, ⟨0, 2 ^ 29, -2303957⟩] = some (-24711779 * 524288) := by
    decide +kernel
  have e2 : toFixI64I32 stretchedProbQ stretchedProbD (clampStretchedQ (-24711779 * 524288)) = some (-24711779) := by
    decide +kernel
  refine ⟨lut, table, ⟨[⟨2 ^ 21, 2 ^ 30, 0⟩, ⟨0, 2 ^ 30, 0⟩], 0, 5⟩,
    ⟨[⟨2 ^ 21, 2 ^ 14, -24711779⟩, ⟨0, 2 ^ 29, -2303957⟩], 3, 5⟩, r, -24711779, g1, g2, .inr (by decide +kernel),
    by decide +kernel, ?_, rfl, C35_floor lut g1 _ (by norm_num) (by norm_num)⟩
  unfold mixAll
  rw [check_pos (by decide), ob_some]
  dsimp only
  rw [e1, ob_some, e2, ob_some, r1, ob_some]

end Verif.Mix
