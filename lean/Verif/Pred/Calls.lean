import Verif.Pred.Run

/-! # Histories of calls -/

namespace Verif.Pred

open Verif Verif.Fixed Verif.Lut Verif.Mix Verif.Util Verif.History Verif.Tree Verif.Bits

theorem calls_append (t : Tables) (mode : Mode) : ∀ (cs ds : List Call) (p : Predictor),
    calls t mode p (cs ++ ds) = (calls t mode p cs).bind fun r =>
      (calls t mode r.2 ds).map fun r' => (r.1 ++ r'.1, r'.2) := by
  intro cs
  induction cs with
  | nil =>
    intro ds p
    rw [List.nil_append, calls, Option.bind_some]
    cases calls t mode p ds <;> rfl
  | cons c cs ih =>
    intro ds p
    rw [List.cons_append, calls, calls]
    cases call t mode p c with
    | none => rfl
    | some r =>
      rw [ob_some, ob_some]
      dsimp only
      rw [ih]
      cases calls t mode r.2 cs with
      | none => rfl
      | some r1 =>
        rw [Option.bind_some, ob_some, Option.bind_some]
        cases calls t mode r1.2 ds with
        | none => rfl
        | some r2 => simp [List.append_assoc]

theorem phaseRun_append : ∀ (cs ds : List Call) (ph : Phase),
    phaseRun ph (cs ++ ds) = (phaseRun ph cs).bind fun ph => phaseRun ph ds := by
  intro cs
  induction cs with
  | nil => intro ds ph; rfl
  | cons c cs ih =>
    intro ds ph
    rw [List.cons_append, phaseRun, phaseRun]
    cases phaseStep ph c with
    | none => rfl
    | some ph => rw [ob_some, ob_some, ih]

/-- a call outside of the protocol panics -/
theorem misuse {t : Tables} {mode : Mode} {W maxOrder : Nat} {x : Nat → Bool} {L S : Nat} {fs : List Nat} {ph : Phase}
    {p : Predictor} (h : PhaseAt t mode W maxOrder x L S fs ph p) {c : Call} (hc : phaseStep ph c = none) :
    call t mode p c = none := by
  have hup : ∀ b, p.final = none → call t mode p (.update b) = none := by
    intro b e
    rw [call, predUpdate, e]
    rfl
  cases ph with
  | idle =>
    cases c with
    | start => cases hc
    | predict =>
      have hlb : lbUnfinished p.lastBytes = none := by
        rw [h.lb]
        unfold lbUnfinished lbBitIndex idleOf
        rw [check_neg (by simp)]
        rfl
      rw [call, predPredict, check_pos h.quiet.final, ob_some, hlb]
      cases srcGather p.tree with
      | none => rfl
      | some states =>
        rw [ob_some]
        by_cases hl : states.length ≤ p.maxOrder + 1
        · rw [check_pos hl]; rfl
        · rw [check_neg hl]; rfl
    | update b => exact hup b h.quiet.final
  | ready j =>
    cases c with
    | start =>
      obtain ⟨n, -, -, hj, hlb, -⟩ := h.pos
      have hst : lbStart p.lastBytes = none := by
        rw [hlb]
        unfold lbStart stateOf
        rw [check_neg (by rw [seg_length]; simp only; omega)]
        rfl
      rw [call, predStart, check_pos h.quiet.final, ob_some, hst]
      rfl
    | predict => cases hc
    | update b => exact hup b h.quiet.final
  | pending j =>
    obtain ⟨f, hf, -⟩ := h.final
    cases c with
    | start => rw [call, predStart, check_neg (by rw [hf]; simp)]; rfl
    | predict => rw [call, predPredict, check_neg (by rw [hf]; simp)]; rfl
    | update b => cases hc

section

variable {t : Tables} (ht : TablesOk t) {mode : Mode} {W maxOrder : Nat} (hW : W ≤ 2 ^ 31) (hW0 : 0 < W)
  (hM : maxOrder ≤ 8191) {x : Nat → Bool}

include ht hW hW0 hM

/-- any history of calls -/
theorem calls_run : ∀ (cs : List Call) (ph : Phase) (L S : Nat) (fs : List Nat) (p : Predictor),
    PhaseAt t mode W maxOrder x L S fs ph p → L + S + cs.length ≤ 2 ^ 40 →
    (∀ r b, (fed cs)[r]? = some b → x (L + r) = b) →
    (phaseRun ph cs = none → calls t mode p cs = none) ∧
    (∀ ph', phaseRun ph cs = some ph' → ∃ fs' p', calls t mode p cs = some (fs', p') ∧ (∀ f ∈ fs', 0 < f ∧ f < 2 ^ 23) ∧
      PhaseAt t mode W maxOrder x (L + (fed cs).length) (S + started cs) (fs ++ fs') ph' p') := by
  intro cs
  induction cs with
  | nil =>
    intro ph L S fs p h _ _
    refine ⟨(fun e => by cases e), fun ph' e => ⟨[], p, rfl, (fun f hf => by cases hf), ?_⟩⟩
    obtain rfl := Option.some.inj e
    rw [List.append_nil]
    exact h
  | cons c cs ih =>
    intro ph L S fs p h hn hx
    rw [List.length_cons] at hn
    rw [phaseRun, calls]
    cases hc : phaseStep ph c with
    | none =>
      rw [misuse h hc]
      exact ⟨fun _ => rfl, fun ph' e => by cases e⟩
    | some ph1 =>
      rw [ob_some]
      cases ph with
      | idle =>
        cases c with
        | start =>
          obtain rfl := Option.some.inj hc
          obtain ⟨p1, e1, h1⟩ := start_step ht hW hW0 hM (by omega) h
          obtain ⟨i1, i2⟩ := ih (.ready 0) L (S + 1) fs p1 h1 (by omega) hx
          rw [call, e1, ob_some, ob_some]
          dsimp only
          refine ⟨fun e => by rw [i1 e]; rfl, fun ph' e => ?_⟩
          obtain ⟨fs', p', k1, k2, k3⟩ := i2 ph' e
          refine ⟨fs', p', by rw [k1, ob_some]; rfl, k2, ?_⟩
          have : started (.start :: cs) = started cs + 1 := by unfold started; rw [List.countP_cons, if_pos (by rfl)]
          rw [this, show S + (started cs + 1) = S + 1 + started cs by omega]
          exact k3
        | predict => cases hc
        | update b => cases hc
      | ready j =>
        cases c with
        | start => cases hc
        | predict =>
          obtain rfl := Option.some.inj hc
          obtain ⟨f, p1, e1, f0, f1, h1⟩ := predict_step ht hW hW0 hM h
          obtain ⟨i1, i2⟩ := ih (.pending j) L S (fs ++ [f]) p1 h1 (by omega) hx
          rw [call, e1, ob_some]
          dsimp only
          rw [ob_some]
          dsimp only
          refine ⟨fun e => by rw [i1 e]; rfl, fun ph' e => ?_⟩
          obtain ⟨fs', p', k1, k2, k3⟩ := i2 ph' e
          refine ⟨f :: fs', p', by rw [k1, ob_some]; rfl, ?_, ?_⟩
          · intro g hg
            rcases List.mem_cons.mp hg with rfl | hg
            · exact ⟨f0, f1⟩
            · exact k2 g hg
          · rw [List.append_assoc] at k3
            have : started (.predict :: cs) = started cs := by
              unfold started; rw [List.countP_cons, if_neg (by simp)]; rfl
            rw [this]
            exact k3
        | update b => cases hc
      | pending j =>
        cases c with
        | start => cases hc
        | predict => cases hc
        | update b =>
          obtain rfl := Option.some.inj hc
          have hb : x L = b := hx 0 b rfl
          obtain ⟨p1, e1, h1⟩ := update_step ht hW hW0 hM (by omega) h
          rw [hb] at e1
          obtain ⟨i1, i2⟩ := ih _ (L + 1) S fs p1 h1 (by omega) (fun r b' hr => by
            have := hx (r + 1) b' hr
            rw [← this]; congr 1; omega)
          rw [call, e1, ob_some, ob_some]
          dsimp only
          refine ⟨fun e => by rw [i1 e]; rfl, fun ph' e => ?_⟩
          obtain ⟨fs', p', k1, k2, k3⟩ := i2 ph' e
          refine ⟨fs', p', by rw [k1, ob_some]; rfl, k2, ?_⟩
          have hs : started (.update b :: cs) = started cs := by
            unfold started; rw [List.countP_cons, if_neg (by simp)]; rfl
          have hf : fed (.update b :: cs) = b :: fed cs := rfl
          rw [hs, hf, List.length_cons, show L + ((fed cs).length + 1) = L + 1 + (fed cs).length by omega]
          exact k3

theorem calls_new (mode : Mode) (cs : List Call) (hn : cs.length ≤ 2 ^ 40) : ∃ p0, predNew t mode W maxOrder = some p0 ∧
    (phaseRun .idle cs = none → calls t mode p0 cs = none) ∧
    (∀ ph, phaseRun .idle cs = some ph → ∃ fs p, calls t mode p0 cs = some (fs, p) ∧ (∀ f ∈ fs, 0 < f ∧ f < 2 ^ 23) ∧
      PhaseAt t mode W maxOrder (fun i => (fed cs).getD i false) (fed cs).length (started cs) fs ph p) := by
  obtain ⟨p0, e0, h0⟩ := predNew_at ht hW hW0 hM mode (fun i => (fed cs).getD i false)
  obtain ⟨h1, h2⟩ := calls_run ht hW hW0 hM cs .idle 0 0 [] p0 h0 (by omega) (fun r b hb => by
    rw [List.getD_eq_getElem?_getD, Nat.zero_add, hb]; rfl)
  simp only [Nat.zero_add, List.nil_append] at h2
  exact ⟨p0, e0, h1, h2⟩

end

theorem PhaseAt.always {t : Tables} {mode : Mode} {W maxOrder : Nat} {x : Nat → Bool} {L S : Nat} {fs : List Nat}
    {ph : Phase} {p : Predictor} (h : PhaseAt t mode W maxOrder x L S fs ph p) : Always t W maxOrder x L S fs p := by
  cases ph with
  | idle => exact IdleAt.always h
  | ready j => exact ReadyAt.always h
  | pending j => exact PendingAt.always h

/-- number of predictions -/
theorem PhaseAt.preds {t : Tables} {mode : Mode} {W maxOrder : Nat} {x : Nat → Bool} {L S : Nat} {fs : List Nat}
    {ph : Phase} {p : Predictor} (h : PhaseAt t mode W maxOrder x L S fs ph p) : L ≤ fs.length := by
  cases ph with
  | idle => exact Nat.le_of_eq (IdleAt.preds h).symm
  | ready j => exact Nat.le_of_eq (ReadyAt.preds h).symm
  | pending j => have := PendingAt.preds h; omega

end Verif.Pred
