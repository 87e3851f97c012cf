import Verif.Pred.Kits

/-! # The chain of contexts -/

namespace Verif.Pred

open Verif Verif.Fixed Verif.Lut Verif.Mix Verif.Util Verif.History Verif.Tree

attribute [local irreducible] squashTable stretchTable

/-- a context state the predictor can use -/
def Usable : CtxState → Prop
  | .edge _ count _ => count ≤ 1000
  | .node _ e _ _ c => 0 < Est.decPrediction e ∧ Est.decPrediction e < 2 ^ 31 ∧ c.1 < 2 ^ 16 ∧ c.2 < 2 ^ 16

/-- dimensions of the four kits of one order -/
abbrev edgeEstDims : List Nat := [20, 256]
abbrev nodeEstDims : List Nat := [20, 2]
abbrev edgeMixDims : List Nat := [2, 3, 4, 2]
abbrev nodeMixDims : List Nat := [2, 3, 6, 4, 32]

theorem dims_ok : DimsOk edgeEstDims ∧ DimsOk nodeEstDims ∧ DimsOk edgeMixDims ∧ DimsOk nodeMixDims :=
  ⟨⟨by decide, by decide⟩, ⟨by decide, by decide⟩, ⟨by decide, by decide⟩, ⟨by decide, by decide⟩⟩

/-- the predictors of one order; `none` between the bits, otherwise whether the pending prediction is for a node -/
structure OrderOk (t : Tables) (b : Option Bool) (o : Order) : Prop where
  fixed : ProbOk o.single.fixed
  se : EstKitOk edgeEstDims (decide (b = some false)) o.single.edge
  sn : EstKitOk nodeEstDims (decide (b = some true)) o.single.node
  ke : ∃ i : Option Nat, i.isSome = decide (b = some false) ∧ MixKitOk t 4 300 edgeMixDims i o.edge
  kn : ∃ i : Option Nat, i.isSome = decide (b = some true) ∧ MixKitOk t 3 100 nodeMixDims i o.node

theorem quantize_small {n : Nat} (h : n < 1024) : ∃ q, quantize n = some q ∧ q < 20 := by
  obtain ⟨q, h1, -, h2⟩ := C20_buckets n (by omega)
  refine ⟨q, h1, ?_⟩
  by_contra hc
  have := (h2 20).mp (by omega)
  rw [show bucketStart 20 = 1024 by decide] at this
  omega

theorem quantizeDistance_lt (d : Nat) : quantizeDistance d < 4 := by
  unfold quantizeDistance
  repeat' split
  all_goals omega

theorem quantizeCosts_lt (c : Costs) : quantizeCosts c < 6 := by
  unfold quantizeCosts
  dsimp only
  repeat' split
  all_goals omega

theorem fixed_dominant {n : Nat} (h1 : 1 ≤ n) (h5 : n ≤ 5) {idx limit : Nat} (hi : idx ≤ limit) (hl : idx ≤ 1000) :
    ∃ m, fixedNew n idx .dominantFirst = some m ∧ MixIdle n limit m := by
  obtain ⟨-, -, -, h, -⟩ := C38_new n idx h1 (by omega) hl
  obtain ⟨-, ⟨m, hm, -⟩, -⟩ := h h5
  exact ⟨m, hm, idx, hi, (new_inv (Or.inl ⟨h1, h5, hm⟩)).1⟩

theorem singleNew_ok {t : Tables} (ht : TablesOk t) : ∃ s, singleNew t = some s ∧ ProbOk s.fixed ∧
    EstKitOk edgeEstDims false s.edge ∧ EstKitOk nodeEstDims false s.node := by
  have hst : StOk (2 * 2 ^ 21) := by unfold StOk; decide
  obtain ⟨sq, s1, -, s2, s3⟩ := squashOk' ht _ hst
  obtain ⟨x, k, x1, x2, x3⟩ := estKit_new dims_ok.1 (n := 2) rfl
  obtain ⟨y, l, y1, y2, y3⟩ := estKit_new dims_ok.2.1 (n := 2) rfl
  refine ⟨⟨(sq, 2 * 2 ^ 21), k, l⟩, ?_, ⟨?_, ?_, hst⟩, x3, y3⟩
  · unfold singleNew
    rw [show quantize 1000 = some 19 by decide, ob_some, stD_new hst, ob_some, s1, ob_some, x1, ob_some, x2, ob_some, y1,
      ob_some, y2, ob_some]
  · dsimp only; omega
  · dsimp only; omega

theorem orderNew_ok {t : Tables} (ht : TablesOk t) : ∃ o, orderNew t = some o ∧ OrderOk t none o := by
  obtain ⟨s, s1, s2, s3, s4⟩ := singleNew_ok ht
  obtain ⟨m4, a1, a2⟩ := fixed_dominant (n := 4) (by omega) (by omega) (show 10 ≤ 300 by omega) (by omega)
  obtain ⟨m3, b1, b2⟩ := fixed_dominant (n := 3) (by omega) (by omega) (show 10 ≤ 100 by omega) (by omega)
  obtain ⟨x, k, x1, x2, x3⟩ := mixKit_new (t := t) dims_ok.2.2.1 (N := 4) rfl a2
  obtain ⟨y, l, y1, y2, y3⟩ := mixKit_new (t := t) dims_ok.2.2.2 (N := 5) rfl b2
  refine ⟨⟨s, k, l⟩, ?_, s2, s3, s4, ⟨none, rfl, x3⟩, ⟨none, rfl, y3⟩⟩
  unfold orderNew
  rw [s1, ob_some, x1, ob_some, a1, x2, ob_some, C20_onto.1, ob_some, y1, ob_some, b1, y2, ob_some]

theorem chainNew_ok {t : Tables} (ht : TablesOk t) (maxOrder : Nat) :
    ∃ os, chainNew t maxOrder = some os ∧ os.length = maxOrder + 1 ∧ ∀ o ∈ os, OrderOk t none o := by
  obtain ⟨o, h1, h2⟩ := orderNew_ok ht
  refine ⟨List.replicate (maxOrder + 1) o, by unfold chainNew; rw [h1, ob_some], List.length_replicate, ?_⟩
  intro x hx
  obtain rfl := List.eq_of_mem_replicate hx
  exact h2

theorem isSome_false {α : Type} {i : Option α} (h : i.isSome = false) : i = none := by
  cases i <;> simp_all

theorem isSome_true {α : Type} {i : Option α} (h : i.isSome = true) : ∃ a, i = some a := by
  cases i with
  | none => cases h
  | some a => exact ⟨a, rfl⟩

/-- prediction of one order -/
theorem orderPredict_ok {t : Tables} (ht : TablesOk t) {o : Order} (h : OrderOk t none o) {isMax cmp byte : Nat}
    (h1 : isMax < 2) (h2 : cmp < 3) (h3 : byte < 256) {s : CtxState} (hs : Usable s) {lower : Prob} (hl : ProbOk lower) :
    ∃ r o', orderPredict t o isMax cmp byte s lower = some (r, o') ∧ MixedOk t r ∧ OrderOk t (some s.isNode) o' := by
  obtain ⟨ie, e1, e2⟩ := h.ke
  obtain ⟨iN, n1, n2⟩ := h.kn
  obtain rfl := isSome_false e1
  obtain rfl := isSome_false n1
  cases s with
  | edge dist count bit =>
    have hc : count ≤ 1000 := hs
    have hb : bit.toNat < 2 := by cases bit <;> decide
    obtain ⟨q, q1, q2⟩ := quantize_small (n := count) (by omega)
    obtain ⟨p, k, p1, p2, p3⟩ := estKit_predict ht (subs := [q, byte]) dims_ok.1 h.se
      (.cons q2 (.cons h3 .nil))
    obtain ⟨sq, st, d1, d2, d3, d4, -⟩ := ht.direct count hc
    obtain ⟨st', d5, d6⟩ := stretch_ok ht d3 d4
    rw [d2] at d5
    obtain rfl := Option.some.inj d5
    obtain ⟨k1, r, k2, m1, m2, m3, m4⟩ := mixKit_predict ht (s1 := [isMax, cmp]) (s2 := [quantizeDistance dist, bit.toNat])
      (inputs := [(0, lower.1, lower.2), (1, sq, st), (2, o.single.fixed.1, o.single.fixed.2), (3, p.1, p.2)])
      dims_ok.2.2.1 e2 (.cons h1 (.cons h2 (.cons (quantizeDistance_lt _) (.cons hb .nil))))
      (by
        intro x hx
        simp only [List.mem_cons, List.not_mem_nil, or_false] at hx
        rcases hx with rfl | rfl | rfl | rfl
        · exact ⟨(by omega : 0 < 4), hl⟩
        · exact ⟨(by omega : 1 < 4), ⟨d3, d4, d6⟩⟩
        · exact ⟨(by omega : 2 < 4), h.fixed⟩
        · exact ⟨(by omega : 3 < 4), p2⟩)
      (show List.Nodup [0, 1, 2, 3] by decide) (show ∀ i < 4, i ∈ [0, 1, 2, 3] by decide)
    refine ⟨r, ⟨{ o.single with edge := k }, k2, o.node⟩, ?_, m3, h.fixed, p3, h.sn, ⟨_, rfl, m4⟩, ⟨none, rfl, n2⟩⟩
    unfold orderPredict edgePredict
    dsimp only
    rw [m1, ob_some, q1, ob_some, p1, ob_some]
    dsimp only
    rw [d1, ob_some, m2, ob_some, ob_some]
  | node dist e bits runs costs =>
    obtain ⟨u1, u2, -⟩ := hs
    have hb : (State.runsLastBit runs).toNat < 2 := by cases State.runsLastBit runs <;> decide
    obtain ⟨q, q1, q2⟩ := quantize_small (n := State.runsLast runs) (by unfold State.runsLast wrapU16; omega)
    obtain ⟨q', q3, q4, -⟩ := C20_buckets (State.runsOpposite runs) (by unfold State.runsOpposite wrapU16; omega)
    obtain ⟨p, k, p1, p2, p3⟩ := estKit_predict ht (subs := [q, (State.runsLastBit runs).toNat]) dims_ok.2.1 h.sn
      (.cons q2 (.cons hb .nil))
    obtain ⟨st, d5, d6⟩ := stretch_ok ht u1 u2
    obtain ⟨k1, r, k2, m1, m2, m3, m4⟩ := mixKit_predict ht (s1 := [isMax, cmp])
      (s2 := [quantizeCosts costs, quantizeDistance dist, q'])
      (inputs := [(0, lower.1, lower.2), (1, Est.decPrediction e, st), (2, p.1, p.2)])
      dims_ok.2.2.2 n2 (.cons h1 (.cons h2 (.cons (quantizeCosts_lt _) (.cons (quantizeDistance_lt _)
        (.cons (by omega) .nil)))))
      (by
        intro x hx
        simp only [List.mem_cons, List.not_mem_nil, or_false] at hx
        rcases hx with rfl | rfl | rfl
        · exact ⟨(by omega : 0 < 3), hl⟩
        · exact ⟨(by omega : 1 < 3), ⟨u1, u2, d6⟩⟩
        · exact ⟨(by omega : 2 < 3), p2⟩)
      (show List.Nodup [0, 1, 2] by decide) (show ∀ i < 3, i ∈ [0, 1, 2] by decide)
    refine ⟨r, ⟨{ o.single with node := k }, o.edge, k2⟩, ?_, m3, h.fixed, h.se, p3, ⟨none, rfl, e2⟩, ⟨_, rfl, m4⟩⟩
    unfold orderPredict nodePredict
    dsimp only
    rw [m1, ob_some, d5, ob_some, q1, ob_some, p1, ob_some]
    dsimp only
    rw [q3, ob_some, m2, ob_some, ob_some]

/-- cost trackers in range -/
def CostsOk (c : Costs) : Prop := c.1 < 2 ^ 16 ∧ c.2 < 2 ^ 16

/-- update of one order -/
theorem orderUpdate_ok {t : Tables} (ht : TablesOk t) {o : Order} {s : CtxState} (h : OrderOk t (some s.isNode) o)
    (hs : Usable s) (bit : Bool) :
    ∃ c o', orderUpdate t o s bit = some (c, o') ∧ OrderOk t none o' ∧ decide (c = none) ≠ s.isNode ∧
      ∀ x, c = some x → CostsOk x := by
  obtain ⟨ie, e1, e2⟩ := h.ke
  obtain ⟨iN, n1, n2⟩ := h.kn
  cases s with
  | edge dist count b =>
    obtain rfl := isSome_false n1
    obtain ⟨i, rfl⟩ := isSome_true e1
    obtain ⟨k, k1, k2⟩ := estKit_update ht h.se bit
    obtain ⟨l, l1, l2⟩ := mixKit_update ht (by omega) e2 bit
    refine ⟨none, ⟨{ o.single with edge := k }, l, o.node⟩, ?_, ⟨h.fixed, k2, h.sn, ⟨none, rfl, l2⟩, ⟨none, rfl, n2⟩⟩,
      by simp [CtxState.isNode], fun x hx => by cases hx⟩
    unfold orderUpdate edgeUpdate
    dsimp only
    rw [k1, ob_some, l1, ob_some, ob_some]
  | node dist e bits runs costs =>
    obtain rfl := isSome_false e1
    obtain ⟨i, rfl⟩ := isSome_true n1
    obtain ⟨k, k1, k2⟩ := estKit_update ht h.sn bit
    obtain ⟨m, c1, c2⟩ := mixKit_current n2
    obtain ⟨l, l1, l2⟩ := mixKit_update ht (by omega) n2 bit
    obtain ⟨p1, a1, a2⟩ := c2 1 (by omega)
    obtain ⟨p2, a3, a4⟩ := c2 2 (by omega)
    obtain ⟨-, -, u3, u4⟩ := hs
    obtain ⟨x, x1, x2⟩ := Log2.C12_updated_on_bit t.log2 ht.log2 costs.1 p1 bit u3 a2
    obtain ⟨y, y1, y2⟩ := Log2.C12_updated_on_bit t.log2 ht.log2 costs.2 p2 bit u4 a4
    refine ⟨some (x, y), ⟨{ o.single with node := k }, o.edge, l⟩, ?_, ⟨h.fixed, h.se, k2, ⟨none, rfl, e2⟩,
      ⟨none, rfl, l2⟩⟩, by simp [CtxState.isNode], ?_⟩
    · unfold orderUpdate nodeUpdate costsUpdated
      dsimp only
      rw [k1, ob_some, c1, ob_some, a1, ob_some, a3, ob_some, x1, ob_some, y1, ob_some, ob_some, l1, ob_some, ob_some]
    · rintro z hz
      obtain rfl := Option.some.inj hz
      exact ⟨x2, y2⟩

/-! ## All orders -/

/-- the orders with a pending prediction are the first ones, one for each state -/
def ChainBusy (t : Tables) : List CtxState → List Order → Prop
  | [], os => ∀ o ∈ os, OrderOk t none o
  | _ :: _, [] => False
  | s :: ss, o :: os => OrderOk t (some s.isNode) o ∧ ChainBusy t ss os

/-- nodes come before edges -/
def NodesFirst : List CtxState → Prop
  | a :: b :: ss => (b.isNode = true → a.isNode = true) ∧ NodesFirst (b :: ss)
  | _ => True

theorem nodesFirst_of {states : List CtxState} (h : ∀ (i : Nat) (s s' : CtxState), states[i]? = some s →
    states[i + 1]? = some s' → s'.isNode = true → s.isNode = true) : NodesFirst states := by
  induction states with
  | nil => trivial
  | cons a ss ih =>
    cases ss with
    | nil => trivial
    | cons b ss =>
      refine ⟨h 0 a b rfl rfl, ih fun i s s' e e' => h (i + 1) s s' ?_ ?_⟩
      · rw [List.getElem?_cons_succ]; exact e
      · rw [List.getElem?_cons_succ]; exact e'

theorem ctxEstimator_ok {t : Tables} (ht : TablesOk t) {s : CtxState} (hs : Usable s) : ∃ e, ctxEstimator t s = some e := by
  cases s with
  | edge dist count b =>
    have hc : count ≤ 1000 := hs
    obtain ⟨sq, st, d1, -, d3, d4, d5⟩ := ht.direct count hc
    unfold ctxEstimator
    dsimp only
    rw [d1, ob_some]
    unfold Est.decMake
    dsimp only
    rw [check_pos d5, ob_some, check_pos (by
      rw [if_neg (by omega)]
      split
      · norm_num
      · omega), ob_some, check_pos (by unfold Est.maxCount; omega), ob_some]
    exact ⟨_, rfl⟩
  | node => exact ⟨_, rfl⟩

theorem compare_ok {t : Tables} (ht : TablesOk t) {p : Option CtxState} {s : CtxState} (hs : Usable s)
    (hp : ∀ x, p = some x → Usable x ∧ (s.isNode = true → x.isNode = true)) :
    ∃ c, comparePrevious t p s = some c ∧ c < 3 := by
  cases p with
  | none => exact ⟨0, rfl, by omega⟩
  | some x =>
    obtain ⟨hx, hn⟩ := hp x rfl
    obtain ⟨a, ha⟩ := ctxEstimator_ok ht hx
    obtain ⟨b, hb⟩ := ctxEstimator_ok ht hs
    unfold comparePrevious compareStates
    dsimp only
    by_cases e : x.isNode = s.isNode
    · rw [if_pos e, ha, ob_some, hb, ob_some]
      refine ⟨_, rfl, ?_⟩
      cases decide (a = b) <;> decide
    · rw [if_neg e]
      cases h1 : x.isNode with
      | true => exact ⟨2, rfl, by omega⟩
      | false =>
        rw [h1] at e hn
        cases h2 : s.isNode with
        | true => exact absurd (hn h2) (by decide)
        | false => rw [h2] at e; exact absurd rfl e


theorem half_mixed {t : Tables} (ht : TablesOk t) : MixedOk t (2 ^ 30, 0) := by
  have h0 : StOk 0 := by unfold StOk; decide
  obtain ⟨r, h1, h2, h3, h4⟩ := squashOk' ht 0 h0
  rw [neg_zero, h1, Option.some.injEq] at h2
  have : r = 2 ^ 30 := by omega
  subst this
  exact ⟨h0, h1, h3, h4⟩

theorem chainLoop_ok {t : Tables} (ht : TablesOk t) {byte : Nat} (hb : byte < 256) : ∀ (states : List CtxState)
    (os : List Order) (p : Option CtxState) (last : Prob), (∀ o ∈ os, OrderOk t none o) → states.length ≤ os.length →
    (∀ s ∈ states, Usable s) → NodesFirst states → MixedOk t last →
    (∀ x s, p = some x → states.head? = some s → Usable x ∧ (s.isNode = true → x.isNode = true)) →
    ∃ r os', chainLoop t byte os p states last = some (r, os') ∧ MixedOk t r ∧ ChainBusy t states os' ∧
      os'.length = os.length := by
  intro states
  induction states with
  | nil =>
    intro os p last ho _ _ _ hl _
    exact ⟨last, os, by rw [chainLoop], hl, ho, rfl⟩
  | cons s ss ih =>
    intro os p last ho hlen hu hn hl hp
    cases os with
    | nil => simp at hlen
    | cons o os =>
      obtain ⟨c, c1, c2⟩ := compare_ok ht (hu s (by simp)) (fun x hx => hp x s hx rfl)
      have hm : (decide (ss = [])).toNat < 2 := by cases decide (ss = []) <;> decide
      obtain ⟨r, o', r1, r2, r3⟩ := orderPredict_ok ht (ho o (by simp)) hm c2 hb (hu s (by simp)) hl.prob
      obtain ⟨r', os', f1, f2, f3, f4⟩ := ih os (some s) r (fun x hx => ho x (by simp [hx]))
        (by simpa using hlen) (fun x hx => hu x (by simp [hx]))
        (by cases ss with
          | nil => trivial
          | cons b ss => exact hn.2) r2
        (by
          rintro x s' hx hs'
          obtain rfl := Option.some.inj hx
          refine ⟨hu _ (by simp), ?_⟩
          cases ss with
          | nil => cases hs'
          | cons b ss =>
            obtain rfl := Option.some.inj hs'
            exact hn.1)
      refine ⟨r', o' :: os', ?_, f2, ⟨r3, f3⟩, by rw [List.length_cons, List.length_cons, f4]⟩
      rw [chainLoop, c1, ob_some, r1, ob_some]
      dsimp only
      rw [f1, ob_some]

theorem chainPredict_ok {t : Tables} (ht : TablesOk t) {byte : Nat} (hb : byte < 256) {states : List CtxState}
    {os : List Order} (ho : ∀ o ∈ os, OrderOk t none o) (hlen : states.length ≤ os.length)
    (hu : ∀ s ∈ states, Usable s) (hn : NodesFirst states) :
    ∃ r os', chainPredict t os states byte = some (r, os') ∧ MixedOk t r ∧ ChainBusy t states os' ∧
      os'.length = os.length :=
  chainLoop_ok ht hb states os none _ ho hlen hu hn (half_mixed ht) (fun x s h => by cases h)

theorem chainUpdate_ok {t : Tables} (ht : TablesOk t) (bit : Bool) : ∀ (states : List CtxState) (os : List Order),
    (∀ s ∈ states, Usable s) → ChainBusy t states os →
    ∃ cs os', chainUpdate t bit os states = some (cs, os') ∧ (∀ o ∈ os', OrderOk t none o) ∧ os'.length = os.length ∧
      cs.length = (states.filter CtxState.isNode).length ∧ ∀ c ∈ cs, CostsOk c := by
  intro states
  induction states with
  | nil =>
    intro os _ h
    exact ⟨[], os, by rw [chainUpdate], h, rfl, rfl, fun c hc => by cases hc⟩
  | cons s ss ih =>
    intro os hu h
    cases os with
    | nil => exact h.elim
    | cons o os =>
      obtain ⟨c, o', a1, a2, a3, a4⟩ := orderUpdate_ok ht h.1 (hu s (by simp)) bit
      obtain ⟨cs, os', b1, b2, b3, b4, b5⟩ := ih os (fun x hx => hu x (by simp [hx])) h.2
      refine ⟨c.toList ++ cs, o' :: os', ?_, ?_, by rw [List.length_cons, List.length_cons, b3], ?_, ?_⟩
      · rw [chainUpdate, a1, ob_some]
        dsimp only
        rw [check_pos a3, ob_some, b1, ob_some]
      · intro x hx
        rcases List.mem_cons.mp hx with rfl | hx
        · exact a2
        · exact b2 x hx
      · rw [List.length_append, b4, List.filter_cons]
        cases c with
        | none =>
          have : s.isNode = false := by
            cases hs : s.isNode
            · rfl
            · rw [hs] at a3; exact absurd rfl a3
          rw [this, if_neg (by decide)]; simp
        | some c =>
          have : s.isNode = true := by
            cases hs : s.isNode
            · rw [hs] at a3; exact absurd rfl a3
            · rfl
          rw [this, if_pos rfl, Option.toList_some, List.length_singleton, List.length_cons, Nat.add_comm]
      · intro x hx
        rcases List.mem_append.mp hx with hx | hx
        · exact a4 x (by simpa using hx)
        · exact b5 x hx

end Verif.Pred
