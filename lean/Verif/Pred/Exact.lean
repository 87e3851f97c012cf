import Verif.Pred.RefProps
import Verif.Tree.MemoProps

/-!
# The predictions do not depend on how the history is kept (C56)
-/

namespace Verif.Pred

open Verif Verif.Fixed Verif.Lut Verif.Mix Verif.Util Verif.History Verif.Tree Verif.Bits

theorem opinions_length {t : Tables} {R : Ref} {u : Nat} : ∀ (ss : List CtxState) (o : Nat) (prev : Option CtxState)
    (lower : Prob) (ops : List Opinion), opinions t R u o prev ss lower = some ops → ops.length = ss.length := by
  intro ss
  induction ss with
  | nil => intro o prev lower ops h; obtain rfl := Option.some.inj h; rfl
  | cons s ss ih =>
    intro o prev lower ops h
    rw [opinions] at h
    obtain ⟨op, -, h⟩ := ob_inv h
    obtain ⟨ops', h1, h⟩ := ob_inv h
    obtain rfl := Option.some.inj h
    rw [List.length_cons, List.length_cons, ih _ _ _ _ h1]

theorem learnOrder_length {t : Tables} {R R' : Ref} {o : Nat} {op : Opinion} {bit : Bool} {s : CtxState} {cs : List Costs}
    (h : learnOrder t R o op bit s = some (R', cs)) : cs.length = if s.isNode then 1 else 0 := by
  cases s with
  | edge d n b =>
    rw [learnOrder] at h
    obtain ⟨_, -, h⟩ := ob_inv h
    obtain ⟨_, -, h⟩ := ob_inv h
    obtain ⟨-, rfl⟩ := Prod.mk.inj (Option.some.inj h)
    rfl
  | node d e r rs c =>
    rw [learnOrder] at h
    obtain ⟨_, -, h⟩ := ob_inv h
    obtain ⟨_, -, h⟩ := ob_inv h
    obtain ⟨_, -, h⟩ := ob_inv h
    obtain ⟨-, rfl⟩ := Prod.mk.inj (Option.some.inj h)
    rfl

theorem learnOrders_length {t : Tables} {bit : Bool} : ∀ (ss : List CtxState) (R R' : Ref) (o : Nat) (ops : List Opinion)
    (cs : List Costs), ops.length = ss.length → learnOrders t bit R o ss ops = some (R', cs) →
    cs.length = (ss.filter CtxState.isNode).length := by
  intro ss
  induction ss with
  | nil =>
    intro R R' o ops cs _ h
    rw [learnOrders] at h
    · obtain ⟨-, rfl⟩ := Prod.mk.inj (Option.some.inj h)
      rfl
    · intro s ss op ops h; cases h
  | cons s ss ih =>
    intro R R' o ops cs hl h
    cases ops with
    | nil => cases hl
    | cons op ops =>
      rw [learnOrders] at h
      obtain ⟨⟨R1, c⟩, h1, h⟩ := ob_inv h
      obtain ⟨⟨R2, cs'⟩, h2, h⟩ := ob_inv h
      obtain ⟨-, rfl⟩ := Prod.mk.inj (Option.some.inj h)
      have a := learnOrder_length h1
      have b := ih _ _ _ _ _ (by simpa using hl) h2
      rw [List.length_append, a, b, List.filter_cons]
      split <;> simp <;> omega

/-- one bit with sources that agree -/
theorem refBit_agree {t : Tables} {mode : Mode} {σ τ : Type} {src : Source σ} {other : Source τ} {B : Nat} {x : Nat → Bool}
    {Rel : Nat → σ → τ → Prop} (h : Agree src other x B Rel) {L : Nat} {s : σ} {u : τ} (hR : Rel L s u)
    (hB : L < B) (lb : LB) (R : Ref) :
    (refReady src L ⟨s, lb, R⟩ >>= fun y => refBit t mode src y (x L)) = none ∧
      (refReady other L ⟨u, lb, R⟩ >>= fun y => refBit t mode other y (x L)) = none ∨
    ∃ f s' u' lb' R', (refReady src L ⟨s, lb, R⟩ >>= fun y => refBit t mode src y (x L)) = some (f, ⟨s', lb', R'⟩) ∧
      (refReady other L ⟨u, lb, R⟩ >>= fun y => refBit t mode other y (x L)) = some (f, ⟨u', lb', R'⟩) ∧
      Rel (L + 1) s' u' := by
  obtain ⟨s1, u1, states, e1, e1', e2, e3, h4⟩ := h L s u hR hB
  generalize x L = b at h4 ⊢
  -- the start of a byte
  have hready : refReady src L ⟨s, lb, R⟩ = none ∧ refReady other L ⟨u, lb, R⟩ = none ∨
      ∃ lb1, refReady src L ⟨s, lb, R⟩ = some ⟨s1, lb1, R⟩ ∧ refReady other L ⟨u, lb, R⟩ = some ⟨u1, lb1, R⟩ := by
    unfold refReady
    unfold ready at e1 e1'
    by_cases h8 : L % 8 = 0
    · rw [if_pos h8] at e1 e1'
      rw [if_pos h8, if_pos h8]
      dsimp only
      rw [e1, ob_some, e1', ob_some]
      cases lbStart lb with
      | none => exact Or.inl ⟨rfl, rfl⟩
      | some lb1 => exact Or.inr ⟨lb1, rfl, rfl⟩
    · rw [if_neg h8] at e1 e1'
      rw [if_neg h8, if_neg h8]
      obtain rfl := Option.some.inj e1
      obtain rfl := Option.some.inj e1'
      exact Or.inr ⟨lb, rfl, rfl⟩
  rcases hready with ⟨r1, r2⟩ | ⟨lb1, r1, r2⟩
  · exact Or.inl ⟨by rw [r1, ob_none], by rw [r2, ob_none]⟩
  rw [r1, r2, ob_some, ob_some]
  unfold refBit
  dsimp only
  rw [e2, e3, ob_some, ob_some]
  cases hashes lb1 with
  | none => exact Or.inl ⟨rfl, rfl⟩
  | some hs =>
  rw [ob_some, ob_some]
  cases hs[0]? with
  | none => exact Or.inl ⟨rfl, rfl⟩
  | some u =>
  rw [ob_some, ob_some]
  cases ho : opinions t R u 0 none states (2 ^ 30, 0) with
  | none => exact Or.inl ⟨rfl, rfl⟩
  | some ops =>
  rw [ob_some, ob_some]
  cases verdict t mode R hs (conclusion ops) states.length with
  | none => exact Or.inl ⟨rfl, rfl⟩
  | some v =>
  rw [ob_some, ob_some]
  cases hl : learnOrders t b R 0 states ops with
  | none => exact Or.inl ⟨rfl, rfl⟩
  | some r =>
  obtain ⟨R1, costs⟩ := r
  rw [ob_some, ob_some]
  dsimp only
  cases learnVerdict t mode R1 v b with
  | none => exact Or.inl ⟨rfl, rfl⟩
  | some R2 =>
  rw [ob_some, ob_some]
  obtain ⟨s2, u2, e5, e6, hR2⟩ := h4 costs (learnOrders_length _ _ _ _ _ _ (opinions_length _ _ _ _ _ ho) hl)
  rw [e5, ob_some, e6, ob_some]
  cases lbNext lb1 b with
  | none => exact Or.inl ⟨rfl, rfl⟩
  | some lb2 => exact Or.inr ⟨v.prob, s2, u2, lb2, R2, rfl, rfl, hR2⟩

/-- a file with sources that agree -/
theorem refRun_agree {t : Tables} {mode : Mode} {σ τ : Type} {src : Source σ} {other : Source τ} {B : Nat} {x : Nat → Bool}
    {Rel : Nat → σ → τ → Prop} (h : Agree src other x B Rel) : ∀ (bits : List Bool) (L : Nat) (s : σ) (u : τ) (lb : LB)
    (R : Ref), Rel L s u → (∀ r b, bits[r]? = some b → x (L + r) = b) → L + bits.length ≤ B →
    (refRun t mode src L ⟨s, lb, R⟩ bits).map Prod.fst = (refRun t mode other L ⟨u, lb, R⟩ bits).map Prod.fst := by
  intro bits
  induction bits with
  | nil => intro L s u lb R _ _ _; rfl
  | cons b bits ih =>
    intro L s u lb R hR hx hB
    rw [List.length_cons] at hB
    have hb : x L = b := hx 0 b rfl
    have assoc : ∀ {α β γ : Type} (o : Option α) (f : α → Option β) (g : β → Option γ),
        (o >>= fun a => f a >>= g) = ((o >>= f) >>= g) := fun o _ _ => by cases o <;> rfl
    have hstep := refBit_agree (t := t) (mode := mode) h hR (by omega) lb R
    rw [hb] at hstep
    rw [refRun, refRun, assoc, assoc]
    rcases hstep with ⟨e1, e2⟩ | ⟨f, s', u', lb', R', e1, e2, hR'⟩
    · rw [e1, e2]; rfl
    · rw [e1, e2, ob_some, ob_some]
      dsimp only
      have := ih (L + 1) s' u' lb' R' hR' (by
        intro r b' hr
        rw [← hx (r + 1) b' hr]; congr 1; omega) (by omega)
      cases h1 : refRun t mode src (L + 1) ⟨s', lb', R'⟩ bits with
      | none =>
        cases h2 : refRun t mode other (L + 1) ⟨u', lb', R'⟩ bits with
        | none => rfl
        | some q => rw [h1, h2] at this; cases this
      | some p =>
        cases h2 : refRun t mode other (L + 1) ⟨u', lb', R'⟩ bits with
        | none => rw [h1, h2] at this; cases this
        | some q =>
          rw [h1, h2] at this
          have := Option.some.inj this
          rw [ob_some, ob_some, Option.map_some, Option.map_some, this]

theorem refPredictions_agree {t : Tables} {mode : Mode} {σ τ : Type} {src : Source σ} {other : Source τ} {B : Nat}
    {bits : List Bool} {Rel : Nat → σ → τ → Prop} (h : Agree src other (fun i => bits.getD i false) B Rel) {new : Option σ}
    {new' : Option τ} {s : σ} {u : τ} (h0 : new = some s) (h0' : new' = some u) (hR : Rel 0 s u) (hB : bits.length ≤ B) :
    refPredictions t mode src new bits = refPredictions t mode other new' bits := by
  unfold refPredictions
  rw [h0, h0', ob_some, ob_some]
  cases refNew t with
  | none => rfl
  | some R =>
  rw [ob_some, ob_some]
  have := refRun_agree (t := t) (mode := mode) h bits 0 s u lbNew R hR (by
    intro r b hr
    rw [Nat.zero_add, List.getD_eq_getElem?_getD, hr]; rfl) (by omega)
  have key : ∀ {τ : Type} (o : Option (List Nat × τ)), (o >>= fun r => match r with | (fs, _) => some fs) = o.map Prod.fst :=
    fun o => by cases o <;> rfl
  exact (key _).trans (this.trans (key _).symm)

/-- **C56 (predictions).** For every mode, window and highest order and every file that fits in the window, the predictions
of the predictor are those of the reference predictor on the ideal source, which remembers all bits and all cost trackers.
So are those of the reference predictor on the hash map, with every hash function. -/
theorem C56_predictions {t : Tables} (ht : tablesNew = some t) (mode : Mode) (hash : HashFn) {W maxOrder : Nat} (hW0 : 0 < W)
    (hW : W ≤ 2 ^ 31) (hM : maxOrder ≤ 8191) {p0 : Predictor} (h0 : predNew t mode W maxOrder = some p0)
    (bytes : List (List Bool)) (h8 : ∀ b ∈ bytes, b.length = 8) (hn : bytes.length ≤ W) :
    ∃ fs p, calls t mode p0 (bytes.flatMap byteCalls) = some (fs, p) ∧
      refPredictions t mode (fatSource hash t.luts) (fatNew W maxOrder) bytes.flatten = some fs ∧
      refPredictions t mode (idealSource t.costs maxOrder) (some Ideal.new) bytes.flatten = some fs := by
  have hT := (tablesOk_of ht).luts
  have hlen : bytes.flatten.length ≤ 8 * W := by
    have : bytes.flatten.length = 8 * bytes.length := by
      clear hn
      induction bytes with
      | nil => rfl
      | cons b bs ih =>
        rw [List.flatten_cons, List.length_append, h8 b (by simp), ih fun b hb => h8 b (by simp [hb]), List.length_cons]
        omega
    omega
  obtain ⟨fs, p, e, h1⟩ := C55_reference ht mode hW0 hW hM h0 bytes h8 (by omega)
  obtain ⟨s0, e0, r0⟩ := tree_follows_new (luts := t.luts) hW hW0 maxOrder fun i => bytes.flatten.getD i false
  obtain ⟨s1, e1, r1⟩ := fat_follows_new (luts := t.luts) hash (m := W) maxOrder (by omega) (by omega)
  have a := refPredictions_agree (t := t) (mode := mode)
    (tree_follows hT hW hM 0 fun i => bytes.flatten.getD i false).agree e0 rfl ⟨rfl, r0⟩ hlen
  have b := refPredictions_agree (t := t) (mode := mode)
    (fat_follows hT hash W maxOrder fun i => bytes.flatten.getD i false).agree e1 rfl ⟨rfl, r1⟩ hlen
  rw [h1] at a
  exact ⟨fs, p, e, b.trans a.symm, a.symm⟩

/-- **C63 (predictions).** For every mode, window and highest order and every file, however much longer than the window,
the predictions of the predictor are those of the reference predictor on the memory of contexts. -/
theorem C63_predictions {t : Tables} (ht : tablesNew = some t) (mode : Mode) {W maxOrder : Nat} (hW0 : 0 < W)
    (hW : W ≤ 2 ^ 31) (hM : maxOrder ≤ 8191) {p0 : Predictor} (h0 : predNew t mode W maxOrder = some p0)
    (bytes : List (List Bool)) (h8 : ∀ b ∈ bytes, b.length = 8) (hn : bytes.length ≤ 2 ^ 35) :
    ∃ fs p, calls t mode p0 (bytes.flatMap byteCalls) = some (fs, p) ∧
      refPredictions t mode (memoSource t.costs W maxOrder) (some Memo.new) bytes.flatten = some fs := by
  have hT := (tablesOk_of ht).luts
  obtain ⟨fs, p, e, h1⟩ := C55_reference ht mode hW0 hW hM h0 bytes h8 hn
  obtain ⟨s0, e0, r0⟩ := srcNew_ok (x := fun i => bytes.flatten.getD i false) (maxOrder := maxOrder) hW hW0
  have a := refPredictions_agree (t := t) (mode := mode)
    (memo_agree (luts := t.luts) hT hW hW0 hM 0 (fun i => bytes.flatten.getD i false) bytes.flatten.length)
    e0 rfl (Or.inl ⟨rfl, r0, rfl⟩) (le_refl _)
  rw [h1] at a
  exact ⟨fs, p, e, a.symm⟩

/-- two letters with a window of three bytes -/
example (hash : HashFn) : ∃ t p0 fs p, tablesNew = some t ∧ predNew t .light 3 4 = some p0 ∧
    calls t .light p0 ([[false, true, true, false, false, false, false, true],
      [false, true, true, false, false, false, true, false]].flatMap byteCalls) = some (fs, p) ∧
    refPredictions t .light (fatSource hash t.luts) (fatNew 3 4)
      [[false, true, true, false, false, false, false, true],
        [false, true, true, false, false, false, true, false]].flatten = some fs ∧
    refPredictions t .light (memoSource t.costs 3 4) (some Memo.new)
      [[false, true, true, false, false, false, false, true],
        [false, true, true, false, false, false, true, false]].flatten = some fs := by
  obtain ⟨t, ht⟩ := C52_tables
  obtain ⟨p0, h0⟩ := C44_new ht .light (W := 3) (maxOrder := 4) (by omega) (by omega) (by omega)
  obtain ⟨fs, p, h1, h2, -⟩ := C56_predictions ht .light hash (by omega) (by omega) (by omega) h0
    [[false, true, true, false, false, false, false, true], [false, true, true, false, false, false, true, false]]
    (by decide) (by decide)
  obtain ⟨fs', p', h3, h4⟩ := C63_predictions ht .light (by omega) (by omega) (by omega) h0
    [[false, true, true, false, false, false, false, true], [false, true, true, false, false, false, true, false]]
    (by decide) (by decide)
  rw [h1, Option.some.injEq, Prod.mk.injEq] at h3
  obtain ⟨rfl, rfl⟩ := h3
  exact ⟨t, p0, fs, p, ht, h0, h1, h2, h4⟩

end Verif.Pred
