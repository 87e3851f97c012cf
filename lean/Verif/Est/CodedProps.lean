import Verif.Est.RegretProps
import Verif.Coding.Size

/-!
# C71: the size of bits coded with an estimator

A client of the library that codes a sequence of bits with the range coder, at the probabilities of one estimator fed with
the bits coded so far.
-/

namespace Verif.Est

open Verif Verif.Fixed Verif.Coding

/-- codes bits; the first arguments are the rates and the estimator -/
def packEst (rates : List Nat) : Nat → Encoder → List Bool → Option Encoder
  | _, e, [] => some e
  | s, e, b :: bs => do
    let f ← toFixU 32 fractOnlyU32 finalProbability (decPrediction s)
    let e ← e.encodeBit f b
    let s ← decUpdate rates s b
    packEst rates s e bs

/-- decodes `n` bits -/
def unpackEst (rates : List Nat) : Nat → Decoder → Nat → Option (List Bool × Decoder)
  | _, d, 0 => some ([], d)
  | s, d, n + 1 => do
    let f ← toFixU 32 fractOnlyU32 finalProbability (decPrediction s)
    let (b, d) ← d.decodeBit f
    let s ← decUpdate rates s b
    let (bs, d) ← unpackEst rates s d n
    some (b :: bs, d)

/-- coding with new objects; the encoder is dropped at the end -/
def compressEst (bits : List Bool) : Option (List Nat) := do
  let rates ← ratesDefault
  let s ← decNew
  let e ← packEst rates s Encoder.new bits
  e.finish

/-- decoding with new objects; also returns the input left -/
def decompressEst (input : List Nat) (n : Nat) : Option (List Bool × List Nat) := do
  let rates ← ratesDefault
  let s ← decNew
  let d ← Decoder.new input
  let (bits, d) ← unpackEst rates s d n
  some (bits, d.input)

/-- the final probability after the bits `pre` -/
def finalAfter (pre : List Bool) : Nat := ((replay pre).map decPrediction).getD 0 / 2 ^ 8

/-- the events coded for the bits behind `pre` -/
def estTrace : List Bool → List Bool → List Event
  | _, [] => []
  | pre, b :: bs => .bit (finalAfter pre) b :: estTrace (pre ++ [b]) bs

theorem toFinal_eq {p : Nat} (h1 : 1 ≤ p) (h2 : p < 2 ^ 22) :
    toFixU 32 fractOnlyU32 finalProbability (p * 512) = some (2 * p) := by
  unfold toFixU
  rw [if_pos (by decide)]
  rw [show fractOnlyU32.frac - finalProbability.frac = 8 by decide,
    scaledDownU_nosat (by norm_num) (by norm_num) (by omega), ob_some]
  unfold finalProbability Coding.FinalProbability.newUnchecked
  dsimp only
  rw [check_pos (by omega), ob_some]
  exact congrArg some (by omega)

/-- the estimator after some bits -/
theorem after_ok {rates : List Nat} (hr : ratesDefault = some rates) (pre : List Bool) :
    ∃ s, replay pre = some s ∧ toFixU 32 fractOnlyU32 finalProbability (decPrediction s) = some (finalAfter pre) ∧
      1 ≤ finalAfter pre ∧ finalAfter pre < 2 ^ 23 ∧ chanceOfZero pre = (finalAfter pre : ℝ) / 2 ^ 23 ∧
      ∀ b, decUpdate rates s b = replay (pre ++ [b]) := by
  obtain ⟨p, h1, h2, -⟩ := decRun_ok (isDefault_of hr) pre ok_new
  rw [← replay_eq hr] at h1
  have hl := h2.lt
  have hd : decPrediction (pack p (min (0 + pre.length) 1000)) = p * 512 := decPrediction_pack hl.2 (by omega)
  have hf : finalAfter pre = 2 * p := by
    unfold finalAfter
    rw [h1, Option.map_some, Option.getD_some, hd]
    omega
  refine ⟨_, h1, ?_, by omega, by omega, ?_, ?_⟩
  · rw [hd, hf]
    exact toFinal_eq (by omega) hl.2
  · unfold chanceOfZero
    rw [h1, Option.map_some, Option.getD_some, hd, hf]
    push_cast
    ring
  · intro b
    rw [replay_eq hr] at h1 ⊢
    rw [decRun_append, h1, Option.bind_some, decRun]
    cases decUpdate rates (pack p (min (0 + pre.length) 1000)) b <;> rfl

theorem packEst_eq {rates : List Nat} (hr : ratesDefault = some rates) : ∀ (bits pre : List Bool) (s : Nat) (e e' : Encoder),
    replay pre = some s → e.events (estTrace pre bits) = some e' → packEst rates s e bits = some e' := by
  intro bits
  induction bits with
  | nil => intro pre s e e' _ h; exact h
  | cons b bits ih =>
    intro pre s e e' hs h
    obtain ⟨s', h1, h2, -, -, -, h3⟩ := after_ok hr pre
    rw [hs, Option.some.injEq] at h1
    subst h1
    obtain ⟨s2, h4, -⟩ := after_ok hr (pre ++ [b])
    have h : (e.event (.bit (finalAfter pre) b) >>= fun e => e.events (estTrace (pre ++ [b]) bits)) = some e' := h
    rw [Encoder.event] at h
    rw [packEst, h2, ob_some]
    cases hb : e.encodeBit (finalAfter pre) b with
    | none => rw [hb] at h; cases h
    | some e1 =>
      rw [hb, ob_some] at h
      rw [ob_some, h3, h4, ob_some]
      exact ih _ _ _ _ h4 h

theorem unpackEst_eq {rates : List Nat} (hr : ratesDefault = some rates) : ∀ (bits pre : List Bool) (s : Nat) (d d' : Decoder),
    replay pre = some s → d.queries ((estTrace pre bits).map Event.query) = some (bits, d') →
    unpackEst rates s d bits.length = some (bits, d') := by
  intro bits
  induction bits with
  | nil => intro pre s d d' _ h; exact h
  | cons b bits ih =>
    intro pre s d d' hs h
    obtain ⟨s', h1, h2, -, -, -, h3⟩ := after_ok hr pre
    rw [hs, Option.some.injEq] at h1
    subst h1
    obtain ⟨s2, h4, -⟩ := after_ok hr (pre ++ [b])
    have h : (d.query (.bit (finalAfter pre)) >>= fun r => r.2.queries ((estTrace (pre ++ [b]) bits).map Event.query) >>=
      fun r' => some (r.1 :: r'.1, r'.2)) = some (b :: bits, d') := h
    rw [Decoder.query] at h
    rw [List.length_cons, unpackEst, h2, ob_some]
    cases hb : d.decodeBit (finalAfter pre) with
    | none => rw [hb] at h; cases h
    | some r =>
      obtain ⟨b', d1⟩ := r
      rw [hb, ob_some] at h
      dsimp only at h
      cases hq : d1.queries ((estTrace (pre ++ [b]) bits).map Event.query) with
      | none => rw [hq] at h; cases h
      | some r =>
        obtain ⟨bs, d2⟩ := r
        rw [hq, ob_some] at h
        obtain ⟨e1, e2⟩ := Prod.mk.inj (Option.some.inj h)
        obtain ⟨rfl, rfl⟩ := List.cons.inj e1
        subst e2
        rw [ob_some]
        dsimp only
        rw [h3, h4, ob_some, ih _ _ _ _ h4 hq, ob_some]

theorem estTrace_facts (bits : List Bool) : ∀ pre, (∀ ev ∈ estTrace pre bits, ev.Valid) ∧
    (estTrace pre bits).length = bits.length ∧ (estTrace pre bits).map Event.value = bits := by
  obtain ⟨rates, hr, -⟩ := rates_exist
  induction bits with
  | nil => intro pre; simp [estTrace]
  | cons b bits ih =>
    intro pre
    obtain ⟨h1, h2, h3⟩ := ih (pre ++ [b])
    obtain ⟨-, -, -, h4, h5, -⟩ := after_ok hr pre
    refine ⟨?_, ?_, ?_⟩
    · intro ev hev
      rcases List.mem_cons.mp hev with rfl | h
      · exact ⟨h4, h5⟩
      · exact h1 ev h
    · rw [estTrace, List.length_cons, h2, List.length_cons]
    · rw [estTrace, List.map_cons, h3]
      rfl

/-- **C71 (round trip).** What the client codes with an estimator, up to 700 million bits, is restored exactly; data that
follows is left unread. -/
theorem C71_round_trip (bits : List Bool) (h : bits.length ≤ 700000000) (trail : List Nat) :
    ∃ bytes, compressEst bits = some bytes ∧ decompressEst (bytes ++ trail) bits.length = some (bits, trail) := by
  obtain ⟨rates, hr, -⟩ := rates_exist
  obtain ⟨f1, f2, f3⟩ := estTrace_facts bits []
  obtain ⟨bytes, h1, -, d, h2, h3⟩ := C01_round_trip (estTrace [] bits) f1
    (by have := emitted_le (estTrace [] bits); omega) trail
  have hnew : ∃ s, decNew = some s ∧ replay [] = some s := by
    refine ⟨_, decNew_eq, ?_⟩
    rw [replay_eq hr]
    rfl
  obtain ⟨s, hs, hs'⟩ := hnew
  simp only [encode, Option.bind_eq_bind, Option.bind_eq_some_iff] at h1
  obtain ⟨e, he, hf⟩ := h1
  simp only [decode, Option.bind_eq_bind, Option.bind_eq_some_iff] at h2
  obtain ⟨d0, hd0, hq⟩ := h2
  rw [f3] at hq
  refine ⟨bytes, ?_, ?_⟩
  · unfold compressEst
    rw [hr, ob_some, hs, ob_some, packEst_eq hr bits [] s _ _ hs' he, ob_some, hf]
  · unfold decompressEst
    rw [hr, ob_some, hs, ob_some, hd0, ob_some, unpackEst_eq hr bits [] s _ _ hs' hq, ob_some]
    dsimp only
    rw [h3]

/-- loss by rounding down the part of the interval that belongs to a zero -/
theorem share_loss {rates : List Nat} (hr : ratesDefault = some rates) (pre : List Bool) (b : Bool) (h : pre.length < 1001) :
    contentOf (share (.bit (finalAfter pre) b)) ≤
      -Real.logb 2 (if b then 1 - chanceOfZero pre else chanceOfZero pre) + 1 / 2000 := by
  obtain ⟨-, -, -, h1, h2, h3, -⟩ := after_ok hr pre
  cases b with
  | true =>
    unfold contentOf share
    dsimp only
    rw [if_pos rfl, h3, Nat.cast_sub h2.le]
    have e : (((2 ^ 23 : ℕ) : ℝ) - (finalAfter pre : ℝ)) / ((2 ^ 23 : ℕ) : ℝ) = 1 - (finalAfter pre : ℝ) / 2 ^ 23 := by
      push_cast; ring
    rw [e]
    linarith
  | false =>
    have near := chance_near pre 1001 (le_refl _) h
    rw [h3] at near
    have near := (abs_le.mp near).1
    have hz : (0 : ℝ) ≤ pre.count false := by positivity
    have hn : (pre.length : ℝ) + 1 ≤ 1001 := by exact_mod_cast h
    have hn0 : (0 : ℝ) ≤ pre.length := by positivity
    have hf0 : (0 : ℝ) < finalAfter pre := by exact_mod_cast h1
    have hbig : (3600 : ℝ) ≤ finalAfter pre := by
      by_contra hc
      have hc := not_le.mp hc
      have : ((pre.length : ℝ) + 1) * (finalAfter pre / 2 ^ 23) ≤ 1001 * (3600 / 2 ^ 23) := by
        refine mul_le_mul hn ?_ (by positivity) (by norm_num)
        exact div_le_div_of_nonneg_right hc.le (by norm_num)
      norm_num at this near
      linarith
    unfold contentOf share
    dsimp only
    rw [if_neg (by decide), h3]
    have e : ((finalAfter pre * finalAfter pre : ℕ) : ℝ) / (((finalAfter pre + 1) * 2 ^ 23 : ℕ) : ℝ) =
        (finalAfter pre : ℝ) / 2 ^ 23 * (1 + 1 / (finalAfter pre : ℝ))⁻¹ := by
      push_cast
      field_simp
      try ring
    rw [e, Real.logb_mul (by positivity) (by positivity), Real.logb_inv]
    have hl : Real.logb 2 (1 + 1 / (finalAfter pre : ℝ)) ≤ 1 / 2000 := by
      have g1 := Real.log_le_sub_one_of_pos (show (0 : ℝ) < 1 + 1 / (finalAfter pre : ℝ) by positivity)
      have g2 : 1 / (finalAfter pre : ℝ) ≤ 1 / 3600 := one_div_le_one_div_of_le (by norm_num) hbig
      have g3 := Real.log_two_gt_d9
      rw [Real.logb, div_le_iff₀ (by linarith)]
      linarith
    linarith

theorem trace_content {rates : List Nat} (hr : ratesDefault = some rates) (bits : List Bool) : ∀ pre,
    pre.length + bits.length ≤ 1001 →
    ((estTrace pre bits).map fun ev => contentOf (share ev)).sum ≤
      codeLength (pre ++ bits) - codeLength pre + bits.length / 2000 := by
  induction bits with
  | nil => intro pre _; simp [estTrace]
  | cons b bits ih =>
    intro pre h
    rw [List.length_cons] at h
    have i := ih (pre ++ [b]) (by rw [List.length_append, List.length_singleton]; omega)
    rw [codeLength_snoc, List.append_assoc, List.singleton_append] at i
    have s := share_loss hr pre b (by omega)
    rw [estTrace, List.map_cons, List.sum_cons, List.length_cons]
    push_cast
    linarith

/-- **C71 (size).** One to 1001 bits coded with an estimator take, beyond the four final bytes, at most
`log2(n) / 2 + 1` bits more than a coder that knows the frequencies needs, plus a rounding part of at most
`2 * (n / 1000) ^ 2 + n / 2000` bits. -/
theorem C71_size (bits : List Bool) (h0 : bits ≠ []) (h : bits.length ≤ 1001) :
    ∃ bytes, compressEst bits = some bytes ∧ 4 ≤ bytes.length ∧
      8 * ((bytes.length : ℝ) - 4) ≤ frequencyLength bits + Real.logb 2 bits.length / 2 + 1 +
        2 * ((bits.length : ℝ) / 1000) ^ 2 + bits.length / 2000 := by
  obtain ⟨rates, hr, -⟩ := rates_exist
  obtain ⟨f1, f2, f3⟩ := estTrace_facts bits []
  obtain ⟨bytes, h1, h4, -, h2⟩ := C03_bits (estTrace [] bits) f1 (by have := emitted_le (estTrace [] bits); omega)
  have hnew : ∃ s, decNew = some s ∧ replay [] = some s := by
    refine ⟨_, decNew_eq, ?_⟩
    rw [replay_eq hr]
    rfl
  obtain ⟨s, hs, hs'⟩ := hnew
  simp only [encode, Option.bind_eq_bind, Option.bind_eq_some_iff] at h1
  obtain ⟨e, he, hf⟩ := h1
  refine ⟨bytes, ?_, h4, ?_⟩
  · unfold compressEst
    rw [hr, ob_some, hs, ob_some, packEst_eq hr bits [] s _ _ hs' he, ob_some, hf]
  · have t := trace_content hr bits [] (by simpa using h)
    have c : codeLength [] = 0 := rfl
    rw [List.nil_append, c, sub_zero] at t
    have r := C71_regret bits h0 h
    linarith

/-- **C71 (runs).** A run of up to 1001 equal bits takes at most one byte beyond the four final ones. -/
theorem C71_run (b : Bool) (n : Nat) (hn : n ≤ 1001) :
    ∃ bytes, compressEst (List.replicate n b) = some bytes ∧ bytes.length ≤ 5 := by
  rcases Nat.eq_zero_or_pos n with rfl | h0
  · have : compressEst (List.replicate 0 b) = some [0, 0, 0, 0] := by
      obtain ⟨rates, hr, -⟩ := rates_exist
      unfold compressEst
      rw [hr, ob_some, decNew_eq, ob_some]
      exact C03_empty
    exact ⟨_, this, by simp⟩
  · obtain ⟨bytes, h1, -, h2⟩ := C71_size (List.replicate n b) (by simp; omega) (by simpa using hn)
    refine ⟨bytes, h1, ?_⟩
    have e : frequencyLength (List.replicate n b) = 0 := by
      have hne : (n : ℝ) ≠ 0 := by positivity
      cases b <;> simp [frequencyLength, List.count_replicate, hne]
    rw [e, List.length_replicate] at h2
    have hl : Real.logb 2 n ≤ 10 := by
      rw [Real.logb_le_iff_le_rpow (by norm_num) (by exact_mod_cast h0)]
      have : (n : ℝ) ≤ 1001 := by exact_mod_cast hn
      norm_num
      linarith
    have hn' : (n : ℝ) ≤ 1001 := by exact_mod_cast hn
    have hn0 : (0 : ℝ) ≤ n := by positivity
    have hlt : 8 * ((bytes.length : ℝ) - 4) < 16 := by nlinarith
    have : (bytes.length : ℝ) < 6 := by linarith
    have : bytes.length < 6 := by exact_mod_cast this
    omega

/-- 20 alternating bits take two bytes beyond the four final ones, and come back -/
example : compressEst (List.replicate 10 [false, true]).flatten = some [108, 50, 196, 215, 79, 230] ∧
    decompressEst [108, 50, 196, 215, 79, 230, 7] 20 = some ((List.replicate 10 [false, true]).flatten, [7]) := by
  decide +kernel

/-- the hypotheses of the size theorem hold for it -/
example : (List.replicate 10 [false, true]).flatten ≠ [] ∧ (List.replicate 10 [false, true]).flatten.length ≤ 1001 := by
  decide

end Verif.Est
