import Verif.Random.Lemmas
import Mathlib.Data.Fintype.EquivFin
import Mathlib.Tactic.IntervalCases

/-! # Random number generator property C43 -/

namespace Verif.Random

open Verif

/-! ## Vector seed -/

/-- the sequence of values of the initialisation from a key -/
def seedSeq (key : List Nat) (x : Nat → Nat) (t : Nat) : Nat :=
  let old := if t < 311 then x (t + 1) else seedSeq key x (t - 311)
  let prev := if h : t = 0 then x 0 else seedSeq key x (t - 1)
  let h := prev ^^^ (prev / 2 ^ 62)
  if t < max 312 key.length then
    ((old ^^^ (h * 3935559000370003845 % 2 ^ 64)) + key.getD (t % key.length) 0 + t % key.length) % 2 ^ 64
  else ((old ^^^ (h * 2862933555777941757 % 2 ^ 64)) + (2 ^ 64 - (1 + t % 311))) % 2 ^ 64
termination_by t

/-- word before it is written by value `t` -/
def oldOf (x u : Nat → Nat) (t : Nat) : Nat := if t < 311 then x (t + 1) else u (t - 311)

/-- word before the one written by value `t` -/
def prevOf (x u : Nat → Nat) (t : Nat) : Nat := if t = 0 then x 0 else u (t - 1)

theorem seedSeq_first {key : List Nat} {x : Nat → Nat} {t : Nat} (h : t < max 312 key.length) :
    seedSeq key x t = ((oldOf x (seedSeq key x) t ^^^
      ((prevOf x (seedSeq key x) t ^^^ (prevOf x (seedSeq key x) t / 2 ^ 62)) * 3935559000370003845 % 2 ^ 64)) +
        key.getD (t % key.length) 0 + t % key.length) % 2 ^ 64 := by
  rw [seedSeq]
  rw [if_pos h]
  unfold oldOf prevOf
  by_cases h0 : t = 0 <;> simp only [h0, dite_true, if_true, dite_false, if_false]

theorem seedSeq_second {key : List Nat} {x : Nat → Nat} {t : Nat} (h : ¬t < max 312 key.length) :
    seedSeq key x t = ((oldOf x (seedSeq key x) t ^^^
      ((prevOf x (seedSeq key x) t ^^^ (prevOf x (seedSeq key x) t / 2 ^ 62)) * 2862933555777941757 % 2 ^ 64)) +
        (2 ^ 64 - (1 + t % 311))) % 2 ^ 64 := by
  rw [seedSeq]
  rw [if_neg h]
  unfold oldOf prevOf
  by_cases h0 : t = 0 <;> simp only [h0, dite_true, if_true, dite_false, if_false]

theorem seedSeq_lt (key : List Nat) (x : Nat → Nat) (t : Nat) : seedSeq key x t < 2 ^ 64 := by
  by_cases h : t < max 312 key.length
  · rw [seedSeq_first h]; exact Nat.mod_lt _ (by norm_num)
  · rw [seedSeq_second h]; exact Nat.mod_lt _ (by norm_num)

theorem seedSeq_spec (key : List Nat) (x : Nat → Nat) : VectorSeed key x (seedSeq key x) := by
  intro t _
  dsimp only
  by_cases h : t < max 312 key.length
  · rw [if_pos h]; exact seedSeq_first h
  · rw [if_neg h]; exact seedSeq_second h

/-- the words of the state before value `t` is written -/
structure Before (x u : Nat → Nat) (t : Nat) (state : List Nat) : Prop where
  length : state.length = 312
  old : ∀ s, s < 311 → state[1 + (t + s) % 311]? = some (oldOf x u (t + s))
  first : t % 311 = 0 → state[0]? = some (prevOf x u t)

theorem Before.prev {x u : Nat → Nat} {t : Nat} {state : List Nat} (h : Before x u t state) :
    state[1 + t % 311 - 1]? = some (prevOf x u t) := by
  by_cases h0 : t % 311 = 0
  · rw [h0]; exact h.first h0
  · have := h.old 310 (by omega)
    rw [show 1 + (t + 310) % 311 = 1 + t % 311 - 1 by omega] at this
    rw [this]
    unfold oldOf prevOf
    rw [if_neg (by omega), if_neg (by omega), show t + 310 - 311 = t - 1 by omega]

/-- writing value `t` and advancing -/
theorem Before.next {x u : Nat → Nat} {t v : Nat} {state : List Nat} (h : Before x u t state) (hv : v = u t) :
    ∃ state', (setAt state (1 + t % 311) v >>= fun s => nextI s (1 + t % 311)) = some (state', 1 + (t + 1) % 311) ∧
      Before x u (t + 1) state' := by
  have hp : 1 + t % 311 < 312 := by omega
  have hset : setAt state (1 + t % 311) v = some (state.set (1 + t % 311) v) := by
    unfold setAt
    rw [if_pos (by rw [h.length]; exact hp)]
  have hold : ∀ s, s < 311 → (state.set (1 + t % 311) v)[1 + (t + 1 + s) % 311]? = some (oldOf x u (t + 1 + s)) := by
    intro s hs
    by_cases hs2 : s = 310
    · subst hs2
      rw [show 1 + (t + 1 + 310) % 311 = 1 + t % 311 by omega, List.getElem?_set_self (by rw [h.length]; exact hp)]
      unfold oldOf
      rw [if_neg (by omega), show t + 1 + 310 - 311 = t by omega, hv]
    · rw [List.getElem?_set_ne (by omega), show t + 1 + s = t + (s + 1) by omega]
      exact h.old (s + 1) (by omega)
  rw [hset, ob_some]
  unfold nextI NN
  by_cases hw : 1 + t % 311 + 1 ≥ 312
  · rw [if_pos hw]
    have hlast : (state.set (1 + t % 311) v)[312 - 1]? = some v := by
      rw [show 312 - 1 = 1 + t % 311 by omega, List.getElem?_set_self (by rw [h.length]; exact hp)]
    rw [hlast, ob_some]
    unfold setAt
    rw [if_pos (by rw [List.length_set, h.length]; norm_num), ob_some]
    refine ⟨_, by rw [show (t + 1) % 311 = 0 by omega], by simp [h.length], ?_, ?_⟩
    · intro s hs
      rw [List.getElem?_set_ne (by omega)]
      exact hold s hs
    · intro _
      rw [List.getElem?_set_self (by rw [List.length_set, h.length]; norm_num)]
      unfold prevOf
      rw [if_neg (by omega), Nat.add_sub_cancel, hv]
  · rw [if_neg hw]
    refine ⟨_, by rw [show 1 + t % 311 + 1 = 1 + (t + 1) % 311 by omega], by simp [h.length], hold, ?_⟩
    intro h0
    omega

theorem step1_eq {key : List Nat} {x : Nat → Nat} {t : Nat} {state : List Nat} (hk : key ≠ [])
    (ht : t < max 312 key.length) (h : Before x (seedSeq key x) t state) :
    ∃ state', vectorStep1 key (state, 1 + t % 311, t % key.length) =
      some (state', 1 + (t + 1) % 311, (t + 1) % key.length) ∧ Before x (seedSeq key x) (t + 1) state' := by
  have hl : 0 < key.length := List.length_pos_iff.mpr hk
  have hj : t % key.length < key.length := Nat.mod_lt _ hl
  have hc := h.old 0 (by norm_num)
  rw [Nat.add_zero] at hc
  have hg : key[t % key.length]? = some (key.getD (t % key.length) 0) := by
    rw [List.getElem?_eq_getElem hj, List.getD_eq_getElem _ _ hj]
  obtain ⟨state', h1, h2⟩ := h.next (v := wrapU64 (wrapU64 ((oldOf x (seedSeq key x) t ^^^
    wrapU64 ((prevOf x (seedSeq key x) t ^^^ (prevOf x (seedSeq key x) t >>> 62)) * 3935559000370003845)) +
      key.getD (t % key.length) 0) + t % key.length)) (by
    rw [seedSeq_first ht, Nat.shiftRight_eq_div_pow]
    unfold wrapU64
    rw [Nat.mod_add_mod]; rfl)
  refine ⟨state', ?_, h2⟩
  unfold vectorStep1
  dsimp only
  rw [hc, ob_some, h.prev, ob_some, hg, ob_some]
  rcases hs : setAt state (1 + t % 311) _ with _ | st
  · rw [hs] at h1
    cases h1
  · rw [hs, ob_some] at h1
    rw [ob_some, h1, ob_some]
    dsimp only
    have hm : (if t % key.length + 1 ≥ key.length then 0 else t % key.length + 1) = (t + 1) % key.length := by
      by_cases h1 : key.length = 1
      · rw [h1]; simp [Nat.mod_one]
      · rw [Nat.add_mod t 1, Nat.mod_eq_of_lt (show 1 < key.length by omega)]
        by_cases hw : t % key.length + 1 ≥ key.length
        · rw [if_pos hw, show t % key.length + 1 = key.length by omega, Nat.mod_self]
        · rw [if_neg hw, Nat.mod_eq_of_lt (a := t % key.length + 1) (by omega)]
    rw [hm]

theorem step2_eq {key : List Nat} {x : Nat → Nat} {t : Nat} {state : List Nat}
    (ht : ¬t < max 312 key.length) (h : Before x (seedSeq key x) t state) :
    ∃ state', vectorStep2 (state, 1 + t % 311) = some (state', 1 + (t + 1) % 311) ∧
      Before x (seedSeq key x) (t + 1) state' := by
  have hc := h.old 0 (by norm_num)
  rw [Nat.add_zero] at hc
  obtain ⟨state', h1, h2⟩ := h.next (v := wrapU64 ((oldOf x (seedSeq key x) t ^^^
    wrapU64 ((prevOf x (seedSeq key x) t ^^^ (prevOf x (seedSeq key x) t >>> 62)) * 2862933555777941757)) +
      (2 ^ 64 - (1 + t % 311)))) (by
    rw [seedSeq_second ht, Nat.shiftRight_eq_div_pow]
    rfl)
  refine ⟨state', ?_, h2⟩
  unfold vectorStep2
  dsimp only
  rw [hc, ob_some, h.prev, ob_some]
  exact h1

theorem repeat1_eq {key : List Nat} {x : Nat → Nat} (hk : key ≠ []) : ∀ (n t : Nat) (state : List Nat),
    t + n ≤ max 312 key.length → Before x (seedSeq key x) t state →
    ∃ state', repeatM (vectorStep1 key) n (state, 1 + t % 311, t % key.length) =
      some (state', 1 + (t + n) % 311, (t + n) % key.length) ∧ Before x (seedSeq key x) (t + n) state' := by
  intro n
  induction n with
  | zero => intro t state _ h; exact ⟨state, rfl, h⟩
  | succ n ih =>
    intro t state ht h
    obtain ⟨s1, h1, h2⟩ := step1_eq hk (by omega) h
    obtain ⟨s2, h3, h4⟩ := ih (t + 1) s1 (by omega) h2
    rw [show t + 1 + n = t + (n + 1) by omega] at h3 h4
    exact ⟨s2, by rw [repeatM, h1, ob_some, h3], h4⟩

theorem repeat2_eq {key : List Nat} {x : Nat → Nat} : ∀ (n t : Nat) (state : List Nat),
    max 312 key.length ≤ t → Before x (seedSeq key x) t state →
    ∃ state', repeatM vectorStep2 n (state, 1 + t % 311) = some (state', 1 + (t + n) % 311) ∧
      Before x (seedSeq key x) (t + n) state' := by
  intro n
  induction n with
  | zero => intro t state _ h; exact ⟨state, rfl, h⟩
  | succ n ih =>
    intro t state ht h
    obtain ⟨s1, h1, h2⟩ := step2_eq (key := key) (by omega) h
    obtain ⟨s2, h3, h4⟩ := ih (t + 1) s1 (by omega) h2
    rw [show t + 1 + n = t + (n + 1) by omega] at h3 h4
    exact ⟨s2, by rw [repeatM, h1, ob_some, h3], h4⟩

theorem vector_eq {key : List Nat} (hk : key ≠ []) : ∃ g : Nat → Nat,
    newByVectorSeed key = some { state := tab g, index := 312 } ∧ g 0 = 2 ^ 63 ∧
    (∀ k, k < 312 → g k < 2 ^ 64) ∧
    ∀ t, max 312 key.length ≤ t → t < max 312 key.length + 311 →
      g (1 + t % 311) = seedSeq key (lcg 19650218) t := by
  have h0 : Before (lcg 19650218) (seedSeq key (lcg 19650218)) 0 (tab (lcg 19650218)) := by
    refine ⟨tab_length _, ?_, ?_⟩
    · intro s hs
      rw [Nat.zero_add, Nat.mod_eq_of_lt hs, tab_get (by omega)]
      unfold oldOf
      rw [if_pos hs, Nat.add_comm]
    · intro _
      rw [tab_get (by norm_num)]
      rfl
  obtain ⟨s1, h1, h2⟩ := repeat1_eq hk (max 312 key.length) 0 _ (by omega) h0
  rw [Nat.zero_add] at h1 h2
  obtain ⟨s2, h3, h4⟩ := repeat2_eq (key := key) 311 (max 312 key.length) s1 (le_refl _) h2
  have hfin : ∀ t, max 312 key.length ≤ t → t < max 312 key.length + 311 →
      s2[1 + t % 311]? = some (seedSeq key (lcg 19650218) t) := by
    intro t ht1 ht2
    have := h4.old (t - max 312 key.length) (by omega)
    rw [show max 312 key.length + 311 + (t - max 312 key.length) = t + 311 by omega] at this
    rw [show (t + 311) % 311 = t % 311 by omega] at this
    rw [this]
    unfold oldOf
    rw [if_neg (by omega), Nat.add_sub_cancel]
  let g : Nat → Nat := fun k => if k = 0 then 2 ^ 63 else s2.getD k 0
  have hg0 : g 0 = 2 ^ 63 := rfl
  have hg : ∀ k, k < 312 → k ≠ 0 → s2[k]? = some (g k) := by
    intro k hk hk0
    show s2[k]? = some (if k = 0 then 2 ^ 63 else s2.getD k 0)
    rw [if_neg hk0, List.getElem?_eq_getElem (by rw [h4.length]; exact hk), List.getD_eq_getElem]
  have htab : s2.set 0 (2 ^ 63) = tab g := by
    apply List.ext_getElem?
    intro k
    by_cases hk : k < 312
    · rw [tab_get hk]
      by_cases hk0 : k = 0
      · subst hk0
        rw [List.getElem?_set_self (by rw [h4.length]; norm_num), hg0]
      · rw [List.getElem?_set_ne (Ne.symm hk0), hg k hk hk0]
    · rw [List.getElem?_eq_none (by rw [List.length_set, h4.length]; omega),
        List.getElem?_eq_none (by rw [tab_length]; omega)]
  have hval : ∀ t, max 312 key.length ≤ t → t < max 312 key.length + 311 →
      g (1 + t % 311) = seedSeq key (lcg 19650218) t := by
    intro t ht1 ht2
    have a := hfin t ht1 ht2
    rw [hg (1 + t % 311) (by omega) (by omega)] at a
    exact Option.some.inj a
  refine ⟨g, ?_, hg0, ?_, hval⟩
  · unfold newByVectorSeed NN
    rw [scalar_eq, ob_some]
    dsimp only
    have e1 : (tab (lcg 19650218), 1, 0) = (tab (lcg 19650218), 1 + 0 % 311, 0 % key.length) := by
      rw [Nat.zero_mod, Nat.zero_mod]
    rw [e1, h1, ob_some]
    dsimp only
    rw [show (312 : Nat) - 1 = 311 from rfl, h3, ob_some]
    dsimp only
    have hs : setAt s2 0 (2 ^ 63) = some (s2.set 0 (2 ^ 63)) := by
      unfold setAt
      rw [if_pos (by rw [h4.length]; norm_num)]
    rw [hs, ob_some, htab]
  · intro k hk
    by_cases hk0 : k = 0
    · subst hk0; rw [hg0]; norm_num
    · obtain ⟨t, ht1, ht2, ht3⟩ : ∃ t, max 312 key.length ≤ t ∧ t < max 312 key.length + 311 ∧ 1 + t % 311 = k := by
        generalize max 312 key.length = T
        refine ⟨T + (k - 1 + (311 - T % 311)) % 311, by omega, ?_, ?_⟩
        · have := Nat.mod_lt (k - 1 + (311 - T % 311)) (show 0 < 311 by norm_num)
          omega
        · omega
      rw [← ht3, hval t ht1 ht2]
      exact seedSeq_lt _ _ _

/-! ## Properties -/

/-- C43: a scalar seed gives the tempered words of the published recurrence, started by the published linear
congruential initialisation; every number fits in 64 bits. -/
theorem C43_scalar (seed : Nat) (hs : seed < 2 ^ 64) : ∃ t x, newByScalarSeed seed = some t ∧ ScalarSeed seed x ∧
    Recurrence x ∧ (∀ k, x k < 2 ^ 64) ∧
    ∀ n, stream n t = some ((List.range' 312 n).map fun k => tempered (x k)) := by
  refine ⟨_, wordsFrom (lcg seed), scalar_eq seed, ⟨?_, ?_⟩, wordsFrom_rec _,
    wordsFrom_lt fun k _ => lcg_lt hs k, ?_⟩
  · rw [wordsFrom_start (by norm_num)]; rfl
  · intro k hk
    rw [wordsFrom_start (by omega), wordsFrom_start (by omega)]; rfl
  · intro n
    rw [stream_eq (wordsFrom_lt fun k _ => lcg_lt hs k) (wordsFrom_step _) n 312 _ ⟨⟨0, ?_, rfl⟩, le_refl _⟩]
    · exact congrArg some (List.map_congr_left fun k _ => temper_eq _)
    · exact tab_congr fun k hk => by rw [Nat.zero_add, wordsFrom_start hk]

/-- C43: a nonempty vector seed gives the tempered words of the published recurrence, started by the published
initialisation from a key. -/
theorem C43_vector (key : List Nat) (hk : key ≠ []) : ∃ t x y u, newByVectorSeed key = some t ∧
    ScalarSeed 19650218 y ∧ VectorSeed key y u ∧ x 0 = 2 ^ 63 ∧
    (∀ s, max 312 key.length ≤ s → s < max 312 key.length + 311 → x (1 + s % 311) = u s) ∧
    Recurrence x ∧ (∀ k, x k < 2 ^ 64) ∧
    ∀ n, stream n t = some ((List.range' 312 n).map fun k => tempered (x k)) := by
  obtain ⟨g, h1, h2, h3, h4⟩ := vector_eq hk
  refine ⟨_, wordsFrom g, lcg 19650218, seedSeq key (lcg 19650218), h1, lcg_spec _, seedSeq_spec _ _, ?_, ?_,
    wordsFrom_rec _, wordsFrom_lt h3, ?_⟩
  · rw [wordsFrom_start (by norm_num), h2]
  · intro s hs1 hs2
    rw [wordsFrom_start (by omega), h4 s hs1 hs2]
  · intro n
    rw [stream_eq (wordsFrom_lt h3) (wordsFrom_step _) n 312 _ ⟨⟨0, ?_, rfl⟩, le_refl _⟩]
    · exact congrArg some (List.map_congr_left fun k _ => temper_eq _)
    · exact tab_congr fun k hk => by rw [Nat.zero_add, wordsFrom_start hk]

/-- C43: an empty vector seed panics. -/
theorem C43_empty_key : newByVectorSeed [] = none := by
  unfold newByVectorSeed
  rw [scalar_eq, ob_some]
  dsimp only
  have h : repeatM (vectorStep1 []) (max NN ([] : List Nat).length) (tab (lcg 19650218), 1, 0) = none := by
    rw [show max NN ([] : List Nat).length = 311 + 1 from rfl, repeatM]
    have : vectorStep1 [] (tab (lcg 19650218), 1, 0) = none := by
      unfold vectorStep1
      dsimp only
      rw [tab_get (by norm_num), ob_some, tab_get (by norm_num), ob_some]
      rfl
    rw [this]; rfl
  rw [h]; rfl

/-- C43: tempering is a bijection of 64 bit words. -/
theorem C43_tempering (y : Nat) (hy : y < 2 ^ 64) : ∃! x, x < 2 ^ 64 ∧ tempered x = y := by
  let f : Fin (2 ^ 64) → Fin (2 ^ 64) := fun x => ⟨temper x.1, temper_lt x.2⟩
  have hf : Function.Injective f := by
    intro a b h
    exact Fin.ext (temper_injective a.2 b.2 (congrArg Fin.val h))
  obtain ⟨x, hx⟩ := Finite.injective_iff_surjective.mp hf ⟨y, hy⟩
  have hx' : temper x.1 = y := congrArg Fin.val hx
  refine ⟨x.1, ⟨x.2, by rw [← temper_eq]; exact hx'⟩, ?_⟩
  rintro z ⟨hz1, hz2⟩
  rw [← temper_eq] at hz2
  exact temper_injective hz1 x.2 (by rw [hz2, hx'])

/-- C43: `next_int63` is the upper part of the next number, a nonnegative 64 bit integer. -/
theorem C43_int63 (t : Twister) (x : Nat) (t' : Twister) (h : nextInt64 t = some (x, t')) :
    nextInt63 t = some (((x / 2 : Nat) : Int), t') := by
  unfold nextInt63
  rw [h, ob_some]
  dsimp only
  rw [Nat.shiftRight_eq_div_pow, pow_one]

/-- the recurrence cannot run into zeros -/
theorem never_zero {x : Nat → Nat} (hlt : ∀ k, x k < 2 ^ 64)
    (hrec : ∀ k, x (k + 312) = nextWord (x k) (x (k + 1)) (x (k + 156))) :
    ∀ k, x k / 2 ^ 31 = 0 → (∀ i, 1 ≤ i → i < 312 → x (k + i) = 0) →
      x 0 / 2 ^ 31 = 0 ∧ ∀ i, 1 ≤ i → i < 312 → x i = 0 := by
  intro k
  induction k with
  | zero => intro h1 h2; exact ⟨h1, fun i a b => by simpa using h2 i a b⟩
  | succ k ih =>
    intro h1 h2
    have hr := hrec k
    rw [show k + 312 = k + 1 + 311 by omega, h2 311 (by omega) (by omega),
      show k + 156 = k + 1 + 155 by omega, h2 155 (by omega) (by omega)] at hr
    unfold nextWord at hr
    dsimp only at hr
    rw [Nat.zero_xor] at hr
    have hy : x k / 2 ^ 31 * 2 ^ 31 + x (k + 1) % 2 ^ 31 = 0 := by
      have hb : x k / 2 ^ 31 * 2 ^ 31 + x (k + 1) % 2 ^ 31 < 2 ^ 64 := by
        have := hlt k
        have := Nat.mod_lt (x (k + 1)) (show 0 < 2 ^ 31 by norm_num)
        omega
      generalize x k / 2 ^ 31 * 2 ^ 31 + x (k + 1) % 2 ^ 31 = y at *
      by_cases hodd : y % 2 = 1
      · rw [if_pos hodd] at hr
        have ht := congrArg (fun z => z.testBit 63) hr
        simp only [Nat.testBit_xor, Nat.zero_testBit] at ht
        rw [Nat.testBit_lt_two_pow (show y / 2 < 2 ^ 63 by omega),
          show Nat.testBit 0xB5026F5AA96619E9 63 = true by decide] at ht
        cases ht
      · rw [if_neg hodd, Nat.xor_zero] at hr
        omega
    have hk1 : x (k + 1) = 0 := by omega
    refine ih (by omega) fun i hi1 hi2 => ?_
    by_cases h : i = 1
    · subst h; exact hk1
    · have := h2 (i - 1) (by omega) (by omega)
      rwa [show k + 1 + (i - 1) = k + i by omega] at this

theorem tempered_zero {x : Nat} (hx : x < 2 ^ 64) (h : tempered x = 0) : x = 0 := by
  rw [← temper_eq] at h
  exact temper_injective hx (by norm_num) (by rw [h]; decide)

/-- C43: no seed gets the generator stuck: among any 312 consecutive numbers at least one differs from zero. -/
theorem C43_never_stuck (t : Twister)
    (h : (∃ seed, seed < 2 ^ 64 ∧ newByScalarSeed seed = some t) ∨ ∃ key, newByVectorSeed key = some t)
    (n : Nat) (xs : List Nat) (hxs : stream (n + 312) t = some xs) : ∃ v ∈ xs.drop n, v ≠ 0 := by
  have main : ∀ x : Nat → Nat, Recurrence x → (∀ k, x k < 2 ^ 64) →
      stream (n + 312) t = some ((List.range' 312 (n + 312)).map fun k => tempered (x k)) →
      ¬(x 0 / 2 ^ 31 = 0 ∧ ∀ i, 1 ≤ i → i < 312 → x i = 0) → ∃ v ∈ xs.drop n, v ≠ 0 := by
    intro x hrec hlt hst hne
    by_contra hcon
    push Not at hcon
    rw [hxs] at hst
    obtain rfl := Option.some.inj hst
    apply hne
    have hz : ∀ i, i < 312 → x (n + 312 + i) = 0 := by
      intro i hi
      apply tempered_zero (hlt _)
      apply hcon
      rw [← List.map_drop]
      apply List.mem_map.mpr
      refine ⟨n + 312 + i, ?_, rfl⟩
      rw [List.drop_range']
      rw [List.mem_range'_1]
      omega
    refine never_zero hlt hrec (n + 312) ?_ fun i _ hi => hz i hi
    have := hz 0 (by norm_num)
    rw [Nat.add_zero] at this
    rw [this]; rfl
  rcases h with ⟨seed, hs, h⟩ | ⟨key, h⟩
  · obtain ⟨t', x, h1, ⟨h2, h3⟩, h4, h5, h6⟩ := C43_scalar seed hs
    rw [h] at h1
    obtain rfl := Option.some.inj h1
    refine main x h4 h5 (h6 _) ?_
    rintro ⟨-, hz⟩
    have a := h3 1 (by norm_num)
    rw [hz 1 (by norm_num) (by norm_num), hz 2 (by norm_num) (by norm_num)] at a
    norm_num at a
  · have hk : key ≠ [] := by
      rintro rfl
      rw [C43_empty_key] at h
      cases h
    obtain ⟨t', x, y, u, h1, -, -, h2, -, h4, h5, h6⟩ := C43_vector key hk
    rw [h] at h1
    obtain rfl := Option.some.inj h1
    refine main x h4 h5 (h6 _) ?_
    rintro ⟨hz, -⟩
    rw [h2] at hz
    norm_num at hz

/-! ## Examples -/

/-- tempering really changes words -/
example : tempered 1 = 18014535948568577 := by decide

end Verif.Random
