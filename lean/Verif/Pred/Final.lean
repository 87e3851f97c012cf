import Verif.Pred.Kits

/-! # The final stage -/

namespace Verif.Pred

open Verif Verif.Bits Verif.Fixed Verif.Lut Verif.Mix Verif.Util Verif.History Verif.Tree

attribute [local irreducible] squashTable stretchTable

/-- the cache answers all queries, in range -/
structure LbOk (lb : LB) : Prop where
  u : ∃ x, lbUnfinished lb = some x ∧ x < 256
  h1 : ∃ x, lbHash01 lb = some x ∧ x < 65536
  h2 : ∃ x, lbHash02 lb = some x ∧ x < 65536
  h3 : ∃ x, lbHash03 lb = some x ∧ x < 65536

theorem prevByte_lt {k : Nat} {bytes : List (List Bool)} (h8 : ∀ b ∈ bytes, b.length = 8) : prevByte k bytes < 256 := by
  unfold prevByte
  split
  · rename_i hk
    rw [List.getD_eq_getElem?_getD]
    cases hb : bytes[bytes.length - k]? with
    | none => simp
    | some b =>
      have := val_lt b
      rw [h8 b (List.mem_of_getElem? hb)] at this
      exact this
  · omega

theorem lb_ok {bytes : List (List Bool)} {ps : List Bool} (h8 : ∀ b ∈ bytes, b.length = 8) (hp : ps.length < 8) :
    LbOk (stateOf bytes.flatten ps) ∧ lbUnfinished (stateOf bytes.flatten ps) = some (enc ps) ∧
      lbPrev1 (stateOf bytes.flatten ps) = some (prevByte 1 bytes) := by
  have hrun : lbRun lbNew (partCalls bytes ps) = some (stateOf bytes.flatten ps) := by
    unfold partCalls
    have := lbFull_state bytes [] h8
    rw [lbRun_append, show lbNew = idleOf [] from rfl, this, Option.bind_some, List.nil_append, lbRun,
      lbStep, lbStart_state, ob_some, lbBits_state _ ps [] (by simp; omega), List.nil_append]
  obtain ⟨s, h1, h2, h3, -, -, h4, h5, h6⟩ := C22_history bytes ps h8 hp
  rw [hrun] at h1
  obtain rfl := Option.some.inj h1
  have hf : ∀ l, fnvSpec l < 65536 := by
    intro l
    unfold fnvSpec
    dsimp only
    exact Nat.mod_lt _ (by norm_num)
  refine ⟨⟨⟨_, h2, ?_⟩, ⟨_, h4, ?_⟩, ⟨_, h5, hf _⟩, ⟨_, h6, hf _⟩⟩, h2, h3⟩
  · have := enc_lt ps
    have hle : 2 ^ (ps.length + 1) ≤ 2 ^ 8 := Nat.pow_le_pow_right (by omega) (by omega)
    omega
  · have hv := val_lt ps
    have hb := prevByte_lt (k := 1) h8
    have hle : 2 ^ ps.length ≤ 2 ^ 7 := Nat.pow_le_pow_right (by omega) (by omega)
    rw [pow_add]
    have : prevByte 1 bytes * 2 ^ ps.length + 2 ^ ps.length ≤ 256 * 2 ^ ps.length := by
      rw [← Nat.succ_mul]
      exact Nat.mul_le_mul_right _ hb
    omega

/-! ## Helpers -/

theorem refine_ok {contexts c sq : Nat} {st : Int} {a : Apm} (ha : ApmInv 0 contexts false a)
    (hb : Belongs stretchTable squashTable 0 sq st) (hc : c < contexts) :
    ∃ p a', refine a c sq st (lutAt 0) = some (p, a') ∧ 2 ≤ p ∧ p < 2 ^ 31 ∧ ApmInv 0 contexts true a' := by
  obtain ⟨i, w, h1, h2, -, -, -, h3⟩ := refine_eq (fb := 0) (by omega) hb hc
  obtain ⟨L, R, -, -, hL, hR, h4⟩ := h3 a ha.ok (ha.idle rfl)
  have hbl := blend_bounds hL hR h2
  refine ⟨_, _, h4, by omega, by omega, ⟨ha.ok.bits, ha.ok.ctx, ha.ok.len, ha.ok.entries⟩, (fun e => by cases e),
    fun _ => ⟨i, h1, rfl, ?_, ?_⟩⟩
  · dsimp only; omega
  · dsimp only; omega

theorem quarter_ok {sum : Nat} (h0 : 2 ≤ sum) (h1 : sum + 2 < 2 ^ 33) :
    quarter sum = some ((sum + 2) / 4) ∧ 0 < (sum + 2) / 4 ∧ (sum + 2) / 4 < 2 ^ 31 := by
  have hlt : (sum + 2) / 4 < 2 ^ 31 := by omega
  refine ⟨?_, by omega, hlt⟩
  unfold quarter
  rw [u64_eq (by omega), ob_some, scaledDownU_nosat (by omega) (by omega) (by omega), ob_some,
    show 2 ^ (2 - 1) = 2 by norm_num, show 2 ^ 2 = 4 by norm_num, wrapU32_eq (by omega)]
  change (do check _; some _) = some _
  rw [check_pos (by omega)]
  rfl

theorem toFinal_ok {p : Nat} (hp : p < 2 ^ 31) :
    ∃ q, toFixU 32 fractOnlyU32 finalProbability p = some q ∧ 0 < q ∧ q < 2 ^ 23 := by
  unfold toFixU
  rw [if_pos (by decide)]
  rw [show fractOnlyU32.frac - finalProbability.frac = 8 by decide,
    scaledDownU_nosat (by norm_num) (by norm_num) (by omega), ob_some]
  unfold finalProbability Coding.FinalProbability.newUnchecked
  dsimp only
  rw [check_pos (by omega), ob_some]
  exact ⟨_, rfl, by omega, by omega⟩

theorem MixedOk.belongs {t : Tables} (ht : TablesOk t) {r : Prob} (h : MixedOk t r) :
    Belongs stretchTable squashTable 0 r.1 r.2 :=
  ⟨h.st, h.prob.lt, Or.inl (by rw [← ht.squash]; exact h.eq)⟩

theorem stretch_belongs {t : Tables} (ht : TablesOk t) {p : Nat} (h0 : 0 < p) (h1 : p < 2 ^ 31) :
    ∃ st, Lut.stretch t.stretch p = some st ∧ StOk st ∧ Belongs stretchTable squashTable 0 p st := by
  obtain ⟨st, s1, s2⟩ := stretch_ok ht h0 h1
  exact ⟨st, s1, s2, s2, h1, Or.inr ⟨by omega, by rw [← ht.stretch]; exact s1⟩⟩

/-! ## The invariant -/

/-- whether the map of the given order has a pending prediction -/
def apmOn (mode : Mode) (order : Nat) : Option Nat → Bool
  | none => false
  | some q => match mode with
    | .none => false
    | .light => true
    | .adaptive => decide (order ≤ q)

/-- the final stage; the bucket of the number of contexts while a prediction is pending -/
structure FinOk (t : Tables) (mode : Mode) (busy : Option Nat) (f : Finalizer) : Prop where
  order0 : mode ≠ .none → ApmInv 0 256 (apmOn mode 0 busy) f.order0
  order1 : mode ≠ .none → ApmInv 0 65536 (apmOn mode 1 busy) f.order1
  order2 : mode ≠ .none → ApmInv 0 65536 (apmOn mode 2 busy) f.order2
  order3 : mode ≠ .none → ApmInv 0 65536 (apmOn mode 3 busy) f.order3
  len : f.mixers.length = 4
  mixers : ∀ i m, f.mixers[i]? = some m →
    if mode = .adaptive ∧ busy = some i then MixBusy (i + 2) 1000 m else MixIdle (i + 2) 1000 m
  result : if mode = .adaptive ∧ busy.isSome = true then ∃ r, f.result = some r ∧ MixedOk t r else f.result = none

theorem equal_ok {n idx : Nat} (h1 : 1 ≤ n) (h2 : n ≤ 30) (hi : idx ≤ 1000) :
    ∃ m, mixerNNew n idx .equalSummingToOne = some m ∧ MixIdle n 1000 m := by
  obtain ⟨-, -, ⟨m, w, hm, -⟩, -⟩ := C38_new n idx h1 h2 hi
  exact ⟨m, hm, idx, hi, (new_inv (Or.inr hm)).1⟩

theorem finalizerNew_ok {t : Tables} (ht : TablesOk t) (mode : Mode) :
    ∃ f, finalizerNew t mode = some f ∧ FinOk t mode none f := by
  obtain ⟨m2, a1, a2⟩ := equal_ok (n := 2) (idx := 100) (by omega) (by omega) (by omega)
  obtain ⟨m3, b1, b2⟩ := equal_ok (n := 3) (idx := 100) (by omega) (by omega) (by omega)
  obtain ⟨m4, c1, c2⟩ := equal_ok (n := 4) (idx := 100) (by omega) (by omega) (by omega)
  obtain ⟨m5, d1, d2⟩ := equal_ok (n := 5) (idx := 100) (by omega) (by omega) (by omega)
  have e0 : ∀ n, apmNew n 0 t.squash = some (newAt n 0) := fun n => by rw [ht.squash]; exact apmNew_eq (by omega) n
  refine ⟨_, by
    unfold finalizerNew
    rw [a1, ob_some, b1, ob_some, c1, ob_some, d1, ob_some, e0, ob_some, e0, ob_some], ?_⟩
  refine ⟨?_, ?_, ?_, ?_, rfl, ?_, ?_⟩
  · intro h
    dsimp only
    rw [if_neg h]
    exact new_apm (by omega)
  · intro h
    dsimp only
    rw [if_neg h]
    exact new_apm (by omega)
  · intro h
    dsimp only
    rw [if_neg h]
    exact new_apm (by omega)
  · intro h
    dsimp only
    rw [if_neg h]
    exact new_apm (by omega)
  · intro i m hm
    rw [if_neg (by simp)]
    dsimp only at hm
    match i, hm with
    | 0, hm => obtain rfl := Option.some.inj hm; exact a2
    | 1, hm => obtain rfl := Option.some.inj hm; exact b2
    | 2, hm => obtain rfl := Option.some.inj hm; exact c2
    | 3, hm => obtain rfl := Option.some.inj hm; exact d2
    | _ + 4, hm => cases hm
  · rw [if_neg (by simp)]

theorem phase0_ok {t : Tables} (ht : TablesOk t) {f : Finalizer} {r : Prob} (hr : MixedOk t r) {lb : LB} (hlb : LbOk lb)
    (h : ApmInv 0 256 false f.order0) :
    ∃ p0 mix a0, phase0 t f r.1 r.2 lb = some (p0, mix, { f with order0 := a0 }) ∧ 2 ≤ p0 ∧ p0 < 2 ^ 31 ∧
      Belongs stretchTable squashTable 0 mix.1 mix.2 ∧ ApmInv 0 256 true a0 := by
  obtain ⟨u, u1, u2⟩ := hlb.u
  obtain ⟨p0, a0, p1, p2, p3, p4⟩ := refine_ok h (hr.belongs ht) u2
  have h1 := hr.low
  have h2 := hr.high
  obtain ⟨q1, q2, q3⟩ := quarter_ok (sum := r.1 * 3 + p0) (by omega) (by omega)
  obtain ⟨st, s1, -, s2⟩ := stretch_belongs ht q2 q3
  refine ⟨p0, ((r.1 * 3 + p0 + 2) / 4, st), a0, ?_, p2, p3, s2, p4⟩
  unfold phase0
  rw [u1, ob_some, apmLut_ok ht, ob_some, p1, ob_some]
  dsimp only
  rw [q1, ob_some, s1, ob_some]

theorem refineLight_ok {t : Tables} (ht : TablesOk t) {f : Finalizer} {r : Prob} (hr : MixedOk t r) {lb : LB}
    (hlb : LbOk lb) (h : FinOk t .light none f) (q : Nat) :
    ∃ p f', refineLight t f r.1 r.2 lb = some (p, f') ∧ 0 < p ∧ p < 2 ^ 23 ∧ FinOk t .light (some q) f' := by
  obtain ⟨p0, mix, a0, e0, -, -, hm, k0⟩ := phase0_ok ht hr hlb (h.order0 (by decide))
  obtain ⟨h1, g1, g2⟩ := hlb.h1
  obtain ⟨h2, g3, g4⟩ := hlb.h2
  obtain ⟨h3, g5, g6⟩ := hlb.h3
  obtain ⟨p1, a1, e1, b1, c1, k1⟩ := refine_ok (h.order1 (by decide)) hm g2
  obtain ⟨p2, a2, e2, b2, c2, k2⟩ := refine_ok (h.order2 (by decide)) hm g4
  obtain ⟨p3, a3, e3, b3, c3, k3⟩ := refine_ok (h.order3 (by decide)) hm g6
  obtain ⟨q1, q2, q3⟩ := quarter_ok (sum := p1 + p2 * 2 + p3) (by omega) (by omega)
  obtain ⟨p, f1, f2, f3⟩ := toFinal_ok q3
  refine ⟨p, { f with order0 := a0, order1 := a1, order2 := a2, order3 := a3 }, ?_, f2, f3, fun _ => k0, fun _ => k1,
    fun _ => k2, fun _ => k3, h.len, ?_, ?_⟩
  · unfold refineLight
    rw [e0, ob_some]
    dsimp only
    rw [apmLut_ok ht, ob_some, g1, ob_some, e1, ob_some]
    dsimp only
    rw [g3, ob_some, e2, ob_some]
    dsimp only
    rw [g5, ob_some, e3, ob_some]
    dsimp only
    rw [q1, ob_some, f1, ob_some]
  · intro i m hi
    have := h.mixers i m hi
    rw [if_neg (by simp)] at this
    rwa [if_neg (by simp)]
  · have := h.result
    rw [if_neg (by simp)] at this
    rwa [if_neg (by simp)]

theorem updateLight_ok {t : Tables} {f : Finalizer} {lb : LB} (hlb : LbOk lb) {q : Nat}
    (h : FinOk t .light (some q) f) (bit : Bool) :
    ∃ f', updateLight f bit lb = some f' ∧ FinOk t .light none f' := by
  obtain ⟨u, u1, u2⟩ := hlb.u
  obtain ⟨h1, g1, g2⟩ := hlb.h1
  obtain ⟨h2, g3, g4⟩ := hlb.h2
  obtain ⟨h3, g5, g6⟩ := hlb.h3
  obtain ⟨a0, e0, k0⟩ := update_inv (bit := bit) (rate := 5) (fixed := true) (h.order0 (by decide)) u2 (by omega) (by omega)
  obtain ⟨a1, e1, k1⟩ := update_inv (bit := bit) (rate := 5) (fixed := true) (h.order1 (by decide)) g2 (by omega) (by omega)
  obtain ⟨a2, e2, k2⟩ := update_inv (bit := bit) (rate := 5) (fixed := true) (h.order2 (by decide)) g4 (by omega) (by omega)
  obtain ⟨a3, e3, k3⟩ := update_inv (bit := bit) (rate := 5) (fixed := true) (h.order3 (by decide)) g6 (by omega) (by omega)
  refine ⟨{ f with order0 := a0, order1 := a1, order2 := a2, order3 := a3 }, ?_, fun _ => k0, fun _ => k1,
    fun _ => k2, fun _ => k3, h.len, ?_, ?_⟩
  · unfold updateLight
    rw [u1, ob_some, e0, ob_some, g1, ob_some, e1, ob_some, g3, ob_some, e2, ob_some, g5, ob_some, e3, ob_some]
  · intro i m hi
    have := h.mixers i m hi
    rw [if_neg (by simp)] at this
    rwa [if_neg (by simp)]
  · have := h.result
    rw [if_neg (by simp)] at this
    rwa [if_neg (by simp)]

/-- one optional input of the second phase -/
theorem refineInput_ok {t : Tables} (ht : TablesOk t) (on : Bool) {a : Apm} {hash : Option Nat} {mix : Prob} {m : Mixer}
    {n idx input : Nat} {S : List Nat} (ha : ApmInv 0 65536 false a) (hh : ∃ x, hash = some x ∧ x < 65536)
    (hm : Belongs stretchTable squashTable 0 mix.1 mix.2) (hi : Inv n m S idx) (h1 : on = true → input < n)
    (h2 : input ∉ S) :
    ∃ a' m' S', refineInput t on a hash mix m input = some (a', m') ∧ ApmInv 0 65536 on a' ∧ Inv n m' S' idx ∧
      ∀ i, i ∈ S' ↔ i ∈ S ∨ (on = true ∧ i = input) := by
  cases on with
  | false =>
    exact ⟨a, m, S, by unfold refineInput; rw [if_neg (by decide)], ha, hi, fun i => by simp⟩
  | true =>
    obtain ⟨x, rfl, hx⟩ := hh
    obtain ⟨p, a', p1, p2, p3, p4⟩ := refine_ok ha hm hx
    obtain ⟨st, s1, s2⟩ := stretch_ok ht (p := p) (by omega) p3
    have hlt : input < m.inputs.length := by rw [hi.len]; exact h1 rfl
    refine ⟨a', _, input :: S, ?_, p4, setTo_inv hi hlt p3 s2, fun i => by simp [or_comm]⟩
    unfold refineInput
    rw [if_pos rfl, ob_some, apmLut_ok ht, ob_some, p1, ob_some]
    dsimp only
    rw [s1, ob_some, (setInput_eq hi.mask p st).2 hlt h2, ob_some]

theorem quantizeContexts_lt (n : Nat) : quantizeContexts n < 4 := by
  unfold quantizeContexts
  repeat' split
  all_goals omega

theorem refineAdaptive_ok {t : Tables} (ht : TablesOk t) {f : Finalizer} {r : Prob} (hr : MixedOk t r) {lb : LB}
    (hlb : LbOk lb) (h : FinOk t .adaptive none f) (count : Nat) :
    ∃ p f', refineAdaptive t f r.1 r.2 count lb = some (p, f') ∧ 0 < p ∧ p < 2 ^ 23 ∧
      FinOk t .adaptive (some (quantizeContexts count)) f' := by
  have hq := quantizeContexts_lt count
  generalize hi : quantizeContexts count = i at *
  have hlt : i < f.mixers.length := by rw [h.len]; exact hq
  have hg := List.getElem?_eq_getElem hlt
  generalize f.mixers[i] = m at hg
  have hm := h.mixers i m hg
  rw [if_neg (by simp)] at hm
  obtain ⟨idx, hidx, hinv⟩ := hm
  obtain ⟨p0, mix, a0, e0, p1, p2, hmix, k0⟩ := phase0_ok ht hr hlb (h.order0 (by decide))
  have l0 : 0 < m.inputs.length := by rw [hinv.len]; omega
  have s0 := (setInput_eq hinv.mask r.1 r.2).2 l0 (by simp)
  have v0 := setTo_inv hinv l0 hr.prob.lt hr.st
  generalize setTo m 0 r.1 r.2 m.inputs[0] = n0 at s0 v0
  obtain ⟨st0, t1, t2⟩ := stretch_ok ht (p := p0) (by omega) p2
  have l1 : 1 < n0.inputs.length := by rw [v0.len]; omega
  have s1 := (setInput_eq v0.mask p0 st0).2 l1 (by simp)
  have v1 := setTo_inv v0 l1 p2 t2
  generalize setTo n0 1 p0 st0 n0.inputs[1] = n1 at s1 v1
  obtain ⟨a1, n2, S2, e2, k1, v2, w2⟩ := refineInput_ok ht (decide (i ≥ 1)) (input := 2) (h.order1 (by decide)) hlb.h1 hmix v1
    (by rw [decide_eq_true_iff]; omega) (by simp)
  obtain ⟨a2, n3, S3, e3, k2, v3, w3⟩ := refineInput_ok ht (decide (i ≥ 2)) (input := 3) (h.order2 (by decide)) hlb.h2 hmix v2
    (by rw [decide_eq_true_iff]; omega) (by rw [w2]; simp)
  obtain ⟨a3, n4, S4, e4, k3, v4, w4⟩ := refineInput_ok ht (decide (i ≥ 3)) (input := 4) (h.order3 (by decide)) hlb.h3 hmix v3
    (by rw [decide_eq_true_iff]; omega) (by rw [w3, w2]; simp)
  have hb : MixBusy (i + 2) 1000 n4 := by
    refine ⟨S4, idx, hidx, v4, fun j hj => ?_⟩
    rw [w4, w3, w2]
    simp only [List.mem_cons, List.not_mem_nil, or_false, decide_eq_true_iff]
    omega
  obtain ⟨res, r1, r2⟩ := mixAll_ok ht hb
  obtain ⟨p, f1, f2, f3⟩ := toFinal_ok r2.prob.lt
  refine ⟨p, ⟨a0, a1, a2, a3, f.mixers.set i n4, some res⟩, ?_, f2, f3, fun _ => by simpa [apmOn] using k0, fun _ => k1,
    fun _ => k2, fun _ => k3, ?_, ?_, ?_⟩
  · unfold refineAdaptive
    rw [hi]
    dsimp only
    rw [hg, ob_some, e0, ob_some]
    dsimp only
    rw [s0, ob_some, t1, ob_some, s1, ob_some, e2, ob_some]
    dsimp only
    rw [e3, ob_some]
    dsimp only
    rw [e4, ob_some]
    dsimp only
    rw [r1, ob_some, f1, ob_some]
  · dsimp only; rw [List.length_set]; exact h.len
  · intro j x hx
    dsimp only at hx
    rw [List.getElem?_set] at hx
    by_cases e : i = j
    · subst e
      rw [if_pos rfl, if_pos hlt] at hx
      obtain rfl := Option.some.inj hx
      rw [if_pos ⟨rfl, rfl⟩]
      exact hb
    · rw [if_neg e] at hx
      rw [if_neg (by simpa using e)]
      have := h.mixers j x hx
      rwa [if_neg (by simp)] at this
  · rw [if_pos (by simp)]
    exact ⟨res, rfl, r2⟩

theorem updateIf_ok {on : Bool} {a : Apm} {hash : Option Nat} (ha : ApmInv 0 65536 on a)
    (hh : ∃ x, hash = some x ∧ x < 65536) (bit : Bool) :
    ∃ a', updateIf on a hash bit = some a' ∧ ApmInv 0 65536 false a' := by
  cases on with
  | false => exact ⟨a, by unfold updateIf; rw [if_neg (by decide)], ha⟩
  | true =>
    obtain ⟨x, rfl, hx⟩ := hh
    obtain ⟨a', e, k⟩ := update_inv (bit := bit) (rate := 5) (fixed := false) ha hx (by omega) (by omega)
    exact ⟨a', by unfold updateIf; rw [if_pos rfl, ob_some, e], k⟩

theorem updateAdaptive_ok {t : Tables} (ht : TablesOk t) {f : Finalizer} {lb : LB} (hlb : LbOk lb) {count : Nat}
    (h : FinOk t .adaptive (some (quantizeContexts count)) f) (bit : Bool) :
    ∃ f', updateAdaptive t f bit count lb = some f' ∧ FinOk t .adaptive none f' := by
  have hq := quantizeContexts_lt count
  generalize hi : quantizeContexts count = i at *
  obtain ⟨u, u1, u2⟩ := hlb.u
  have h0 := h.order0 (by decide)
  rw [show apmOn .adaptive 0 (some i) = true by simp [apmOn]] at h0
  obtain ⟨a0, e0, k0⟩ := update_inv (bit := bit) (rate := 5) (fixed := false) h0 u2 (by omega) (by omega)
  obtain ⟨a1, e1, k1⟩ := updateIf_ok (h.order1 (by decide)) hlb.h1 bit
  obtain ⟨a2, e2, k2⟩ := updateIf_ok (h.order2 (by decide)) hlb.h2 bit
  obtain ⟨a3, e3, k3⟩ := updateIf_ok (h.order3 (by decide)) hlb.h3 bit
  have hr := h.result
  rw [if_pos (by simp)] at hr
  obtain ⟨r, r1, r2⟩ := hr
  have hlt : i < f.mixers.length := by rw [h.len]; exact hq
  have hg := List.getElem?_eq_getElem hlt
  have hm := h.mixers i _ hg
  rw [if_pos ⟨rfl, rfl⟩] at hm
  obtain ⟨m', g1, g2⟩ := update_ok ht (by omega) hm bit r2.prob.pos r2.prob.lt
  refine ⟨⟨a0, a1, a2, a3, f.mixers.set i m', none⟩, ?_, fun _ => k0, fun _ => k1, fun _ => k2, fun _ => k3, ?_, ?_, ?_⟩
  · unfold updateAdaptive
    rw [hi, r1, ob_some]
    dsimp only
    rw [u1, ob_some, e0, ob_some]
    change (updateIf (apmOn .adaptive 1 (some i)) f.order1 (lbHash01 lb) bit >>= _) = _
    rw [e1, ob_some]
    change (updateIf (apmOn .adaptive 2 (some i)) f.order2 (lbHash02 lb) bit >>= _) = _
    rw [e2, ob_some]
    change (updateIf (apmOn .adaptive 3 (some i)) f.order3 (lbHash03 lb) bit >>= _) = _
    rw [e3, ob_some, hg, ob_some, g1, ob_some]
  · dsimp only; rw [List.length_set]; exact h.len
  · intro j x hx
    rw [if_neg (by simp)]
    dsimp only at hx
    rw [List.getElem?_set] at hx
    by_cases e : i = j
    · subst e
      rw [if_pos rfl, if_pos hlt] at hx
      obtain rfl := Option.some.inj hx
      exact g2
    · rw [if_neg e] at hx
      have := h.mixers j x hx
      rwa [if_neg (by simpa using e)] at this
  · rw [if_neg (by simp)]

/-- one refinement -/
theorem finalizerRefine_ok {t : Tables} (ht : TablesOk t) {mode : Mode} {f : Finalizer} {r : Prob} (hr : MixedOk t r)
    {lb : LB} (hlb : LbOk lb) (h : FinOk t mode none f) (count : Nat) :
    ∃ p f', finalizerRefine t mode f r.1 r.2 count lb = some (p, f') ∧ 0 < p ∧ p < 2 ^ 23 ∧
      FinOk t mode (some (quantizeContexts count)) f' := by
  have hres := h.result
  rw [if_neg (by simp)] at hres
  unfold finalizerRefine
  rw [check_pos hres, ob_some]
  cases mode with
  | none =>
    dsimp only
    obtain ⟨p, f1, f2, f3⟩ := toFinal_ok hr.prob.lt
    refine ⟨p, f, by rw [f1, ob_some], f2, f3, fun e => (e rfl).elim, fun e => (e rfl).elim, fun e => (e rfl).elim,
      fun e => (e rfl).elim, h.len, ?_, ?_⟩
    · intro i m hi
      have := h.mixers i m hi
      rw [if_neg (by simp)] at this
      rwa [if_neg (by simp)]
    · rwa [if_neg (by simp)]
  | light => exact refineLight_ok ht hr hlb h _
  | adaptive => exact refineAdaptive_ok ht hr hlb h count

/-- one update -/
theorem finalizerUpdate_ok {t : Tables} (ht : TablesOk t) {mode : Mode} {f : Finalizer} {lb : LB} (hlb : LbOk lb)
    {count : Nat} (h : FinOk t mode (some (quantizeContexts count)) f) (bit : Bool) :
    ∃ f', finalizerUpdate t mode f bit count lb = some f' ∧ FinOk t mode none f' := by
  unfold finalizerUpdate
  cases mode with
  | none =>
    dsimp only
    refine ⟨f, rfl, fun e => (e rfl).elim, fun e => (e rfl).elim, fun e => (e rfl).elim,
      fun e => (e rfl).elim, h.len, ?_, ?_⟩
    · intro i m hi
      have := h.mixers i m hi
      rw [if_neg (by simp)] at this
      rwa [if_neg (by simp)]
    · have := h.result
      rw [if_neg (by simp)] at this
      rwa [if_neg (by simp)]
  | light => exact updateLight_ok hlb h bit
  | adaptive => exact updateAdaptive_ok ht hlb h bit

end Verif.Pred
