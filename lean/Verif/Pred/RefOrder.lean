import Verif.Pred.RefKits

/-! # The orders work like the reference -/

namespace Verif.Pred

open Verif Verif.Fixed Verif.Lut Verif.Mix Verif.Util Verif.History Verif.Tree

attribute [local irreducible] squashTable stretchTable

/-! ## Classes -/

theorem distClass_eq (d : Nat) : quantizeDistance d = distClass d := by
  unfold quantizeDistance distClass
  simp only [List.countP_cons, List.countP_nil, decide_eq_true_iff]
  repeat' split
  all_goals omega

theorem costClass_eq (c : Costs) : quantizeCosts c = costClass c := by
  unfold quantizeCosts costClass
  simp only [List.count_cons, List.count_nil, beq_iff_eq, decide_eq_true_iff]
  repeat' split
  all_goals omega

theorem countClass_eq {n q : Nat} (h : quantize n = some q) : countClass n = q := by
  unfold countClass
  rw [h]
  rfl

theorem ctxEstimator_edge {t : Tables} (ht : TablesOk t) {dist count : Nat} {b : Bool} (hc : count ≤ 1000) :
    ∃ e, ctxEstimator t (.edge dist count b) = some e ∧ e % 1024 = count := by
  obtain ⟨sq, st, d1, -, d3, d4, d5⟩ := ht.direct count hc
  unfold ctxEstimator
  dsimp only
  rw [d1, ob_some]
  unfold Est.decMake
  dsimp only
  rw [check_pos d5, ob_some, check_pos (by
    rw [if_neg (by omega)]
    split
    · norm_num
    · omega), ob_some, check_pos (by unfold Est.maxCount; omega), ob_some]
  refine ⟨_, rfl, ?_⟩
  generalize (if sq / 512 = 0 then 1 else if sq / 512 = 2 ^ 22 then 2 ^ 22 - 1 else sq / 512) = p
  have hp : p * 2 ^ 10 % 2 ^ 32 = 2 ^ 10 * (p % 2 ^ 22) := by omega
  rw [hp, ← Nat.two_pow_add_eq_or_of_lt (by omega)]
  omega

theorem relation_eq {t : Tables} (ht : TablesOk t) {p : Option CtxState} {s : CtxState} {c : Nat} (hs : Usable s)
    (hp : ∀ x, p = some x → Usable x) (h : comparePrevious t p s = some c) : relation p s = c := by
  cases p with
  | none => exact Option.some.inj h
  | some x =>
    have hx := hp x rfl
    rw [comparePrevious] at h
    unfold compareStates at h
    cases x with
    | edge d n b =>
      cases s with
      | edge d' n' b' =>
        obtain ⟨e, e1, e2⟩ := ctxEstimator_edge ht (dist := d) (b := b) (show n ≤ 1000 from hx)
        obtain ⟨e', e3, e4⟩ := ctxEstimator_edge ht (dist := d') (b := b') (show n' ≤ 1000 from hs)
        rw [if_pos (show (CtxState.edge d n b).isNode = (CtxState.edge d' n' b').isNode from rfl), e1, ob_some, e3,
          ob_some] at h
        obtain rfl := Option.some.inj h
        unfold relation
        dsimp only
        by_cases hn : n = n'
        · subst hn
          rw [if_pos rfl]
          have : e = e' := by
            have : ctxEstimator t (.edge d n b) = ctxEstimator t (.edge d' n b') := rfl
            rw [e1, e3] at this
            exact Option.some.inj this
          rw [decide_eq_true this]; rfl
        · rw [if_neg hn, decide_eq_false (by rintro rfl; omega)]; rfl
      | node d' e' bits runs costs => cases h
    | node d e bits runs costs =>
      cases s with
      | edge d' n' b' => exact Option.some.inj h
      | node d' e' bits' runs' costs' =>
        rw [if_pos (show (CtxState.node d e bits runs costs).isNode = (CtxState.node d' e' bits' runs' costs').isNode
          from rfl)] at h
        obtain rfl := Option.some.inj h
        unfold relation
        dsimp only
        by_cases he : e = e'
        · rw [if_pos he, decide_eq_true he]; rfl
        · rw [if_neg he, decide_eq_false he]; rfl

/-! ## One order -/

/-- what one order has learned -/
structure Row where
  edgeEst : List Nat → Nat
  nodeEst : List Nat → Nat
  edgeMix : List Nat → Mixer
  nodeMix : List Nat → Mixer

/-- what order `n` has learned -/
def Ref.row (R : Ref) (n : Nat) : Row := ⟨R.edgeEst n, R.nodeEst n, R.edgeMix n, R.nodeMix n⟩

/-- the order holds the estimators and mixers of the row -/
structure OrderRel (t : Tables) (o : Order) (w : Row) : Prop where
  fixed : ∃ sq, squash t.squash (2 * 2 ^ 21) = some sq ∧ o.single.fixed = (sq, 2 * 2 ^ 21)
  edgeEst : EstRel edgeEstDims o.single.edge w.edgeEst
  nodeEst : EstRel nodeEstDims o.single.node w.nodeEst
  edgeMix : MixRel edgeMixDims o.edge w.edgeMix
  nodeMix : MixRel nodeMixDims o.node w.nodeMix

/-- updating the order is learning -/
def OrderPend (t : Tables) (n : Nat) (s : CtxState) (op : Opinion) (o : Order) (w : Row) : Prop :=
  ∀ R : Ref, R.row n = w → ∀ bit c o', orderUpdate t o s bit = some (c, o') →
    ∃ R', learnOrder t R n op bit s = some (R', c.toList) ∧ OrderRel t o' (R'.row n)

theorem put2_row {α γ : Type} [DecidableEq α] (f : Nat → α → γ) (n : Nat) (k : α) (v : γ) :
    put2 f n k v n = put (f n) k v := by
  funext y
  unfold put2 put
  by_cases h : y = k
  · rw [if_pos ⟨rfl, h⟩, if_pos h]
  · rw [if_neg (fun e => h e.2), if_neg h]

theorem put2_other {α γ : Type} [DecidableEq α] (f : Nat → α → γ) {n n' : Nat} (hn : n' ≠ n) (k : α) (v : γ) :
    put2 f n k v n' = f n' := by
  funext y
  unfold put2
  rw [if_neg (fun e => hn e.1)]

theorem learnOrder_other {t : Tables} {R R' : Ref} {n : Nat} {op : Opinion} {bit : Bool} {s : CtxState} {cs : List Costs}
    (h : learnOrder t R n op bit s = some (R', cs)) :
    (∀ n', n' ≠ n → R'.row n' = R.row n') ∧ R'.maps = R.maps ∧ R'.last = R.last := by
  unfold learnOrder at h
  cases s with
  | edge d c b =>
    dsimp only at h
    obtain ⟨e, -, h⟩ := ob_inv h
    obtain ⟨m, -, h⟩ := ob_inv h
    obtain ⟨rfl, -⟩ := Prod.mk.inj (Option.some.inj h)
    refine ⟨fun n' hn => ?_, rfl, rfl⟩
    unfold Ref.row
    dsimp only
    rw [put2_other _ hn, put2_other _ hn]
  | node d e bits runs costs =>
    dsimp only at h
    obtain ⟨c, -, h⟩ := ob_inv h
    obtain ⟨e, -, h⟩ := ob_inv h
    obtain ⟨m, -, h⟩ := ob_inv h
    obtain ⟨rfl, -⟩ := Prod.mk.inj (Option.some.inj h)
    refine ⟨fun n' hn => ?_, rfl, rfl⟩
    unfold Ref.row
    dsimp only
    rw [put2_other _ hn, put2_other _ hn]

/-- the prediction of an order is its opinion -/
theorem order_rel {t : Tables} (ht : TablesOk t) {o o1 : Order} {R : Ref} {n cmp byte : Nat} {top : Bool}
    (h : OrderOk t none o) (hr : OrderRel t o (R.row n)) (h2 : cmp < 3) (h3 : byte < 256) {s : CtxState} (hs : Usable s)
    {lower r : Prob} (he : orderPredict t o top.toNat cmp byte s lower = some (r, o1)) :
    ∃ op, opinion t R n top cmp byte lower s = some op ∧ op.prob = r ∧ OrderPend t n s op o1 (R.row n) := by
  have h1 : top.toNat < 2 := by cases top <;> decide
  obtain ⟨ie, e1, e2⟩ := h.ke
  obtain ⟨iN, n1, n2⟩ := h.kn
  obtain rfl := isSome_false e1
  obtain rfl := isSome_false n1
  obtain ⟨hi, hi1, hi2⟩ := hr.fixed
  cases s with
  | edge dist count bit =>
    have hc : count ≤ 1000 := hs
    have hb : bit.toNat < 2 := by cases bit <;> decide
    obtain ⟨q, q1, q2⟩ := quantize_small (n := count) (by omega)
    unfold orderPredict edgePredict at he
    dsimp only at he
    obtain ⟨k1, m1, he⟩ := ob_inv he
    obtain ⟨⟨r', sg, k2⟩, m2, he⟩ := ob_inv he
    obtain ⟨rfl, rfl⟩ := Prod.mk.inj (Option.some.inj he)
    rw [q1, ob_some] at m2
    obtain ⟨⟨own, ek⟩, p1, m2⟩ := ob_inv m2
    obtain ⟨d, d1, m2⟩ := ob_inv m2
    obtain ⟨⟨r'', k2'⟩, m3, m2⟩ := ob_inv m2
    dsimp only at m2 m3
    obtain ⟨rfl, hsg⟩ := Prod.mk.inj (Option.some.inj m2)
    obtain ⟨rfl, rfl⟩ := Prod.mk.inj hsg
    obtain ⟨a1, a2⟩ := estKit_rel dims_ok.1 h.se hr.edgeEst (key := [q, byte]) (.cons q2 (.cons h3 .nil)) p1
    obtain ⟨m, b1, b2, -, b3⟩ := mixKit_rel dims_ok.2.2.1 e2 hr.edgeMix (s1 := [top.toNat, cmp])
      (s2 := [quantizeDistance dist, bit.toNat])
      (.cons h1 (.cons h2 (.cons (quantizeDistance_lt _) (.cons hb .nil)))) m1 m3
    refine ⟨⟨r'', [q, byte], [top.toNat, cmp, quantizeDistance dist, bit.toNat], m⟩, ?_, rfl, ?_⟩
    · unfold opinion
      dsimp only
      rw [countClass_eq q1, ← distClass_eq, d1, ob_some, hi1, ob_some]
      change (estOpinion t ((R.row n).edgeEst [q, byte]) >>= _) = _
      rw [a1, ob_some]
      unfold consult
      rw [hi2] at b1
      change ((setInputs ((R.row n).edgeMix ([top.toNat, cmp] ++ [quantizeDistance dist, bit.toNat]))
        [(0, lower.1, lower.2), (1, d.1, d.2), (2, hi, 2 * 2 ^ 21), (3, own.1, own.2)] >>= _) >>= _) = _
      rw [b1, ob_some, b2, ob_some, ob_some]
    · intro S hS b c o' hu
      unfold orderUpdate edgeUpdate at hu
      dsimp only at hu
      obtain ⟨⟨sg, k⟩, u1, hu⟩ := ob_inv hu
      obtain ⟨rfl, rfl⟩ := Prod.mk.inj (Option.some.inj hu)
      obtain ⟨ek', u2, u1⟩ := ob_inv u1
      obtain ⟨mk', u3, u1⟩ := ob_inv u1
      obtain ⟨rfl, rfl⟩ := Prod.mk.inj (Option.some.inj u1)
      obtain ⟨e, f1, f2⟩ := a2 b ek' u2
      obtain ⟨m', f3, f4⟩ := b3 b 300 mk' u3
      rw [← hS] at f1 f2 f4
      refine ⟨{ S with
        edgeEst := put2 S.edgeEst n [q, byte] e
        edgeMix := put2 S.edgeMix n [top.toNat, cmp, quantizeDistance dist, bit.toNat] m' }, ?_, ?_⟩
      · unfold learnOrder
        dsimp only
        change (Est.decUpdate t.rates ((S.row n).edgeEst [q, byte]) b >>= _) = _
        rw [f1, ob_some, f3, ob_some]
        rfl
      · rw [← hS] at hr
        refine ⟨⟨hi, hi1, hi2⟩, ?_, hr.nodeEst, ?_, hr.nodeMix⟩
        · unfold Ref.row
          dsimp only
          rw [put2_row]
          exact f2
        · unfold Ref.row
          dsimp only
          rw [put2_row]
          exact f4
  | node dist e bits runs costs =>
    have hb : (State.runsLastBit runs).toNat < 2 := by cases State.runsLastBit runs <;> decide
    obtain ⟨q, q1, q2⟩ := quantize_small (n := State.runsLast runs) (by unfold State.runsLast wrapU16; omega)
    obtain ⟨q', q3, q4, -⟩ := C20_buckets (State.runsOpposite runs) (by unfold State.runsOpposite wrapU16; omega)
    unfold orderPredict nodePredict at he
    dsimp only at he
    obtain ⟨k1, m1, he⟩ := ob_inv he
    obtain ⟨⟨r', sg, k2⟩, m2, he⟩ := ob_inv he
    obtain ⟨rfl, rfl⟩ := Prod.mk.inj (Option.some.inj he)
    obtain ⟨st, d1, m2⟩ := ob_inv m2
    rw [q1, ob_some] at m2
    obtain ⟨⟨own, nk⟩, p1, m2⟩ := ob_inv m2
    dsimp only at m2
    rw [q3, ob_some] at m2
    obtain ⟨⟨r'', k2'⟩, m3, m2⟩ := ob_inv m2
    dsimp only at m2 m3
    obtain ⟨rfl, hsg⟩ := Prod.mk.inj (Option.some.inj m2)
    obtain ⟨rfl, rfl⟩ := Prod.mk.inj hsg
    obtain ⟨a1, a2⟩ := estKit_rel dims_ok.2.1 h.sn hr.nodeEst (key := [q, (State.runsLastBit runs).toNat])
      (.cons q2 (.cons hb .nil)) p1
    obtain ⟨m, b1, b2, b4, b3⟩ := mixKit_rel dims_ok.2.2.2 n2 hr.nodeMix (s1 := [top.toNat, cmp])
      (s2 := [quantizeCosts costs, quantizeDistance dist, q'])
      (.cons h1 (.cons h2 (.cons (quantizeCosts_lt _) (.cons (quantizeDistance_lt _) (.cons (by omega) .nil))))) m1 m3
    refine ⟨⟨r'', [q, (State.runsLastBit runs).toNat],
      [top.toNat, cmp, quantizeCosts costs, quantizeDistance dist, q'], m⟩, ?_, rfl, ?_⟩
    · unfold opinion
      dsimp only
      rw [countClass_eq q1, countClass_eq q3, ← distClass_eq, ← costClass_eq]
      change (estOpinion t e >>= _) = _
      have hest : estOpinion t e = some (Est.decPrediction e, st) := by unfold estOpinion stretched; rw [d1, ob_some]
      rw [hest, ob_some]
      change (estOpinion t ((R.row n).nodeEst [q, (State.runsLastBit runs).toNat]) >>= _) = _
      rw [a1, ob_some]
      unfold consult
      change ((setInputs ((R.row n).nodeMix ([top.toNat, cmp] ++ [quantizeCosts costs, quantizeDistance dist, q']))
        [(0, lower.1, lower.2), (1, Est.decPrediction e, st), (2, own.1, own.2)] >>= _) >>= _) = _
      rw [b1, ob_some, b2, ob_some, ob_some]
    · obtain ⟨g1, -⟩ := setInputs_read b1 (show List.Nodup [0, 1, 2] by decide)
      have hown : own.1 = Est.decPrediction ((R.row n).nodeEst [q, (State.runsLastBit runs).toNat]) := by
        unfold estOpinion stretched at a1
        obtain ⟨st', -, a1⟩ := ob_inv a1
        rw [← Option.some.inj a1]
      intro S hS b c o' hu
      unfold orderUpdate nodeUpdate at hu
      dsimp only at hu
      obtain ⟨⟨c', sg, k⟩, u1, hu⟩ := ob_inv hu
      obtain ⟨rfl, rfl⟩ := Prod.mk.inj (Option.some.inj hu)
      obtain ⟨nk', u2, u1⟩ := ob_inv u1
      rw [b4, ob_some] at u1
      obtain ⟨p1, u4, u1⟩ := ob_inv u1
      obtain ⟨p2, u5, u1⟩ := ob_inv u1
      obtain ⟨c'', u6, u1⟩ := ob_inv u1
      obtain ⟨mk', u3, u1⟩ := ob_inv u1
      obtain ⟨rfl, hsg⟩ := Prod.mk.inj (Option.some.inj u1)
      obtain ⟨rfl, rfl⟩ := Prod.mk.inj hsg
      obtain rfl := predictionSq_read u4 (g1 (1, Est.decPrediction e, st) (by simp))
      obtain rfl := predictionSq_read u5 (g1 (2, own.1, own.2) (by simp))
      obtain ⟨e', f1, f2⟩ := a2 b nk' u2
      obtain ⟨m', f3, f4⟩ := b3 b 100 mk' u3
      rw [← hS] at f1 f2 f4 hown
      rw [hown] at u6
      refine ⟨{ S with
        nodeEst := put2 S.nodeEst n [q, (State.runsLastBit runs).toNat] e'
        nodeMix := put2 S.nodeMix n [top.toNat, cmp, quantizeCosts costs, quantizeDistance dist, q'] m' }, ?_, ?_⟩
      · unfold learnOrder
        dsimp only
        change (costsUpdated t costs (Est.decPrediction e)
          (Est.decPrediction ((S.row n).nodeEst [q, (State.runsLastBit runs).toNat])) b >>= _) = _
        rw [u6, ob_some]
        change (Est.decUpdate t.rates ((S.row n).nodeEst [q, (State.runsLastBit runs).toNat]) b >>= _) = _
        rw [f1, ob_some, f3, ob_some]
        rfl
      · rw [← hS] at hr
        refine ⟨⟨hi, hi1, hi2⟩, hr.edgeEst, ?_, hr.edgeMix, ?_⟩
        · unfold Ref.row
          dsimp only
          rw [put2_row]
          exact f2
        · unfold Ref.row
          dsimp only
          rw [put2_row]
          exact f4

end Verif.Pred
