import Verif.Pred.RefOrder

/-! # The chain works like the reference -/

namespace Verif.Pred

open Verif Verif.Fixed Verif.Lut Verif.Mix Verif.Util Verif.History Verif.Tree

/-- the orders hold the rows from `n` on -/
def ChainRel (t : Tables) (rows : Nat → Row) (n : Nat) (os : List Order) : Prop :=
  ∀ i o, os[i]? = some o → OrderRel t o (rows (n + i))

/-- updating the orders is learning -/
def ChainPend (t : Tables) (rows : Nat → Row) : Nat → List CtxState → List Opinion → List Order → Prop
  | n, [], [], os => ChainRel t rows n os
  | n, s :: ss, op :: ops, o :: os => OrderPend t n s op o (rows n) ∧ ChainPend t rows (n + 1) ss ops os
  | _, _, _, _ => False

theorem ChainRel.tail {t : Tables} {rows : Nat → Row} {n : Nat} {o : Order} {os : List Order}
    (h : ChainRel t rows n (o :: os)) : ChainRel t rows (n + 1) os := by
  intro i x hx
  have := h (i + 1) x (by rw [List.getElem?_cons_succ]; exact hx)
  rwa [show n + 1 + i = n + (i + 1) by omega]

theorem ChainRel.congr {t : Tables} {rows rows' : Nat → Row} {n : Nat} {os : List Order} (h : ChainRel t rows n os)
    (hr : ∀ k, n ≤ k → rows' k = rows k) : ChainRel t rows' n os := by
  intro i x hx
  rw [hr _ (by omega)]
  exact h i x hx

theorem ChainPend.congr {t : Tables} {rows rows' : Nat → Row} : ∀ {ss : List CtxState} {n : Nat} {ops : List Opinion}
    {os : List Order}, ChainPend t rows n ss ops os → (∀ k, n ≤ k → rows' k = rows k) →
    ChainPend t rows' n ss ops os := by
  intro ss
  induction ss with
  | nil =>
    intro n ops os h hr
    cases ops with
    | nil => exact ChainRel.congr h hr
    | cons => exact h.elim
  | cons s ss ih =>
    intro n ops os h hr
    cases ops with
    | nil => exact h.elim
    | cons op ops =>
      cases os with
      | nil => exact h.elim
      | cons o os =>
        refine ⟨?_, ih h.2 fun k hk => hr k (by omega)⟩
        rw [hr n (by omega)]
        exact h.1

theorem getLast_cons {α : Type} (a d : α) (l : List α) : ((a :: l).getLast?).getD d = (l.getLast?).getD a := by
  cases l with
  | nil => rfl
  | cons b l => rw [List.getLast?_cons_cons, List.getLast?_cons, Option.getD_some, Option.getD_some]

theorem chain_rel {t : Tables} (ht : TablesOk t) {R : Ref} {byte : Nat} (hb : byte < 256) : ∀ (states : List CtxState)
    (n : Nat) (os : List Order) (p : Option CtxState) (last r : Prob) (os' : List Order),
    (∀ o ∈ os, OrderOk t none o) → (∀ s ∈ states, Usable s) → NodesFirst states → MixedOk t last →
    (∀ x s, p = some x → states.head? = some s → Usable x ∧ (s.isNode = true → x.isNode = true)) →
    ChainRel t R.row n os → chainLoop t byte os p states last = some (r, os') →
    ∃ ops, opinions t R byte n p states last = some ops ∧ ((ops.map Opinion.prob).getLast?).getD last = r ∧
      ChainPend t R.row n states ops os' := by
  intro states
  induction states with
  | nil =>
    intro n os p last r os' _ _ _ _ _ hr h
    rw [chainLoop] at h
    obtain ⟨rfl, rfl⟩ := Prod.mk.inj (Option.some.inj h)
    exact ⟨[], rfl, rfl, hr⟩
  | cons s ss ih =>
    intro n os p last r os' ho hu hn hl hp hr h
    cases os with
    | nil => cases h
    | cons o os =>
      rw [chainLoop] at h
      obtain ⟨c, c1, h⟩ := ob_inv h
      obtain ⟨⟨r1, o1⟩, p1, h⟩ := ob_inv h
      obtain ⟨⟨r2, os2⟩, p2, h⟩ := ob_inv h
      obtain ⟨rfl, rfl⟩ := Prod.mk.inj (Option.some.inj h)
      have hs := hu s (by simp)
      have hc3 : c < 3 := by
        obtain ⟨c', e1, e2⟩ := compare_ok ht hs (fun x hx => hp x s hx rfl)
        rw [c1] at e1
        obtain rfl := Option.some.inj e1
        exact e2
      have hm : (decide (ss = [])).toNat < 2 := by cases decide (ss = []) <;> decide
      obtain ⟨r1', o1', q1, q2, -⟩ := orderPredict_ok ht (ho o (by simp)) hm hc3 hb hs hl.prob
      rw [p1] at q1
      obtain ⟨rfl, rfl⟩ := Prod.mk.inj (Option.some.inj q1)
      have htop : decide (ss = []) = ss.isEmpty := by cases ss <;> simp
      rw [htop] at p1
      obtain ⟨op, a1, rfl, a3⟩ := order_rel ht (ho o (by simp)) (hr 0 o rfl) hc3 hb hs p1
      obtain ⟨ops, b1, b2, b3⟩ := ih (n + 1) os (some s) op.prob r2 os2 (fun x hx => ho x (by simp [hx]))
        (fun x hx => hu x (by simp [hx]))
        (by cases ss with
          | nil => trivial
          | cons b ss => exact hn.2) q2
        (by
          rintro x s' hx hs'
          obtain rfl := Option.some.inj hx
          refine ⟨hs, ?_⟩
          cases ss with
          | nil => cases hs'
          | cons b ss =>
            obtain rfl := Option.some.inj hs'
            exact hn.1) hr.tail p2
      refine ⟨op :: ops, ?_, ?_, a3, b3⟩
      · rw [opinions, relation_eq ht hs (fun x hx => (hp x s hx rfl).1) c1]
        rw [Nat.add_zero] at a1
        rw [a1, ob_some, b1, ob_some]
      · rw [List.map_cons, getLast_cons]
        exact b2

theorem chain_learn {t : Tables} (bit : Bool) : ∀ (states : List CtxState) (n : Nat) (ops : List Opinion)
    (os os' : List Order) (cs : List Costs) (R : Ref), ChainPend t R.row n states ops os →
    chainUpdate t bit os states = some (cs, os') →
    ∃ R', learnOrders t bit R n states ops = some (R', cs) ∧ ChainRel t R'.row n os' ∧
      (∀ k < n, R'.row k = R.row k) ∧ R'.maps = R.maps ∧ R'.last = R.last := by
  intro states
  induction states with
  | nil =>
    intro n ops os os' cs R hp h
    cases ops with
    | cons => exact hp.elim
    | nil =>
      rw [chainUpdate] at h
      obtain ⟨rfl, rfl⟩ := Prod.mk.inj (Option.some.inj h)
      exact ⟨R, rfl, hp, fun _ _ => rfl, rfl, rfl⟩
  | cons s ss ih =>
    intro n ops os os' cs R hp h
    cases ops with
    | nil => exact hp.elim
    | cons op ops =>
      cases os with
      | nil => exact hp.elim
      | cons o os =>
        rw [chainUpdate] at h
        obtain ⟨⟨c, o1⟩, h1, h⟩ := ob_inv h
        obtain ⟨_, -, h⟩ := ob_inv h
        obtain ⟨⟨cs1, os1⟩, h2, h⟩ := ob_inv h
        obtain ⟨rfl, rfl⟩ := Prod.mk.inj (Option.some.inj h)
        obtain ⟨R1, a1, a2⟩ := hp.1 R rfl bit c o1 h1
        obtain ⟨b1, b2, b3⟩ := learnOrder_other a1
        obtain ⟨R2, d1, d2, d3, d4, d5⟩ := ih (n + 1) ops os os1 cs1 R1
          (hp.2.congr fun k hk => b1 k (by omega)) h2
        refine ⟨R2, ?_, ?_, ?_, d4.trans b2, d5.trans b3⟩
        · rw [learnOrders, a1, ob_some]
          dsimp only
          rw [d1, ob_some]
        · intro i x hx
          cases i with
          | zero =>
            obtain rfl := Option.some.inj hx
            rw [Nat.add_zero, d3 n (by omega)]
            exact a2
          | succ i =>
            rw [List.getElem?_cons_succ] at hx
            have := d2 i x hx
            rwa [show n + (i + 1) = n + 1 + i by omega]
        · intro k hk
          rw [d3 k (by omega), b1 k (by omega)]

/-- the reference starts -/
theorem refNew_ok {t : Tables} (ht : TablesOk t) : ∃ R, refNew t = some R := by
  obtain ⟨o, o1, -⟩ := orderNew_ok ht
  unfold orderNew at o1
  obtain ⟨sg, s1, h1⟩ := ob_inv o1
  obtain ⟨i4, j4, h1⟩ := ob_inv h1
  obtain ⟨ke, k1, h1⟩ := ob_inv h1
  obtain ⟨q, -, h1⟩ := ob_inv h1
  obtain ⟨i5, j5, h1⟩ := ob_inv h1
  obtain ⟨kn, k2, h1⟩ := ob_inv h1
  have kit : ∀ {m : Option Mixer} {x : Idx} {k : MixKit}, mixKitNew m x = some k → ∃ v, m = some v := by
    intro m x k h
    unfold mixKitNew at h
    obtain ⟨_, -, h⟩ := ob_inv h
    obtain ⟨v, h, -⟩ := ob_inv h
    exact ⟨v, h⟩
  obtain ⟨m4, h4⟩ := kit k1
  obtain ⟨m3, h3⟩ := kit k2
  unfold singleNew at s1
  obtain ⟨_, -, s1⟩ := ob_inv s1
  obtain ⟨_, -, s1⟩ := ob_inv s1
  obtain ⟨_, -, s1⟩ := ob_inv s1
  obtain ⟨_, -, s1⟩ := ob_inv s1
  obtain ⟨_, t4, s1⟩ := ob_inv s1
  unfold estKitNew at t4
  obtain ⟨e, he, -⟩ := ob_inv t4
  unfold refNew
  rw [he, ob_some, h4, ob_some, h3, ob_some, ht.squash, apmNew_eq (by omega), ob_some]
  exact ⟨_, rfl⟩

theorem chainNew_rel {t : Tables} {maxOrder : Nat} {os : List Order} {R : Ref} (h : chainNew t maxOrder = some os)
    (hR : refNew t = some R) : ChainRel t R.row 0 os := by
  unfold refNew at hR
  obtain ⟨e, r1, hR⟩ := ob_inv hR
  obtain ⟨m4, r2, hR⟩ := ob_inv hR
  obtain ⟨m3, r3, hR⟩ := ob_inv hR
  obtain ⟨a, r4, hR⟩ := ob_inv hR
  obtain rfl := Option.some.inj hR
  unfold chainNew at h
  obtain ⟨o, h1, h⟩ := ob_inv h
  obtain rfl := Option.some.inj h
  intro i x hx
  obtain rfl := List.eq_of_mem_replicate (List.mem_of_getElem? hx)
  unfold orderNew at h1
  obtain ⟨sg, s1, h1⟩ := ob_inv h1
  obtain ⟨i4, j4, h1⟩ := ob_inv h1
  rw [r2] at h1
  obtain ⟨ke, k1, h1⟩ := ob_inv h1
  rw [C20_onto.1, ob_some] at h1
  obtain ⟨i5, j5, h1⟩ := ob_inv h1
  rw [r3] at h1
  obtain ⟨kn, k2, h1⟩ := ob_inv h1
  obtain rfl := Option.some.inj h1
  unfold singleNew at s1
  rw [show quantize 1000 = some 19 by decide, ob_some] at s1
  obtain ⟨st, t1, s1⟩ := ob_inv s1
  obtain ⟨sq, t2, s1⟩ := ob_inv s1
  obtain ⟨i1, t3, s1⟩ := ob_inv s1
  obtain ⟨ee, t4, s1⟩ := ob_inv s1
  obtain ⟨i2, t5, s1⟩ := ob_inv s1
  obtain ⟨en, t6, s1⟩ := ob_inv s1
  obtain rfl := Option.some.inj s1
  have hst : st = 2 * 2 ^ 21 := by
    rw [stD_new (by unfold StOk; decide)] at t1
    exact (Option.some.inj t1).symm
  subst hst
  have est : ∀ {dims : List Nat} {x : Idx} {k : EstKit} (_ : DimsOk dims) (_ : dims.length = 2)
      (_ : idxNew 2 dims = some x) (_ : estKitNew x = some k), EstRel dims k fun _ => e := by
    intro dims x k hd hl hx hk key hv
    obtain ⟨x', y1, y2⟩ := (C21_new 2 dims).1 hl
    rw [hx] at y1
    obtain rfl := Option.some.inj y1
    unfold estKitNew at hk
    rw [r1, ob_some, ready_size hd y2, ob_some] at hk
    obtain rfl := Option.some.inj hk
    exact List.getElem?_replicate_of_lt (rank_lt hv)
  have mix : ∀ {N : Nat} {dims : List Nat} {x : Idx} {m : Mixer} {k : MixKit} (_ : DimsOk dims) (_ : dims.length = N)
      (_ : idxNew N dims = some x) (_ : mixKitNew (some m) x = some k), MixRel dims k fun _ => m := by
    intro N dims x m k hd hl hx hk key hv
    obtain ⟨x', y1, y2⟩ := (C21_new N dims).1 hl
    rw [hx] at y1
    obtain rfl := Option.some.inj y1
    unfold mixKitNew at hk
    rw [ready_size hd y2, ob_some, ob_some] at hk
    obtain rfl := Option.some.inj hk
    exact List.getElem?_replicate_of_lt (rank_lt hv)
  exact ⟨⟨sq, t2, rfl⟩, est dims_ok.1 rfl t3 t4, est dims_ok.2.1 rfl t5 t6, mix dims_ok.2.2.1 rfl j4 k1,
    mix dims_ok.2.2.2 rfl j5 k2⟩

end Verif.Pred
