import Verif.Pred.RefFinal
import Verif.Pred.Calls

/-! # The predictor works like the reference -/

namespace Verif.Pred

open Verif Verif.Fixed Verif.Lut Verif.Mix Verif.Util Verif.History Verif.Tree Verif.Bits

/-- the predictor, without a pending prediction, is in the state of the reference -/
structure Sim (t : Tables) (mode : Mode) (p : Predictor) (x : RefState Src) : Prop where
  src : x.src = p.tree
  lb : x.lb = p.lastBytes
  chain : ChainRel t x.ref.row 0 p.chain
  fin : FinRel mode p.finalizer x.ref

section

variable {t : Tables} (ht : TablesOk t) {mode : Mode} {W maxOrder : Nat} (hW : W ≤ 2 ^ 31) (hW0 : 0 < W)
  (hM : maxOrder ≤ 8191) {x : Nat → Bool}

include ht hW hW0 hM

theorem start_rel {p p' : Predictor} {s : RefState Src} (h : Sim t mode p s) (he : predStart p = some p') {n : Nat}
    (hn : n % 8 = 0) : ∃ s', refReady (treeSource t.luts) n s = some s' ∧ Sim t mode p' s' := by
  unfold predStart at he
  obtain ⟨_, -, he⟩ := ob_inv he
  obtain ⟨lb, e1, he⟩ := ob_inv he
  obtain ⟨tree, e2, he⟩ := ob_inv he
  obtain ⟨stats, -, he⟩ := ob_inv he
  obtain rfl := Option.some.inj he
  refine ⟨{ s with src := tree, lb := lb }, ?_, rfl, rfl, h.chain, h.fin⟩
  unfold refReady
  rw [if_pos hn, h.src, h.lb, e1]
  change ((srcStart p.tree >>= _) : Option _) = _
  rw [e2, ob_some, ob_some]

theorem bit_rel {L S j f : Nat} {fs : List Nat} {p p1 p2 : Predictor} {s : RefState Src} {b : Bool}
    (hr : ReadyAt t mode W maxOrder x L S j fs p) (h : Sim t mode p s) (e1 : predPredict t mode p = some (f, p1))
    (e2 : predUpdate t mode p1 b = some p2) :
    ∃ s', refBit t mode (treeSource t.luts) s b = some (f, s') ∧ Sim t mode p2 s' := by
  obtain ⟨f', p1', k1, -, -, hp⟩ := predict_step ht hW hW0 hM hr
  rw [e1] at k1
  obtain ⟨rfl, rfl⟩ := Prod.mk.inj (Option.some.inj k1)
  obtain ⟨hal, hq, ⟨n, -, -, hj, hlb, -⟩, -⟩ := hr
  obtain ⟨l1, l2, -⟩ := lb_seg x n hj
  rw [← hlb] at l1 l2
  have henc : enc (seg x n j) < 256 := by
    have := enc_lt (seg x n j)
    have h2 : 2 ^ ((seg x n j).length + 1) ≤ 2 ^ 8 := Nat.pow_le_pow_right (by omega) (by simpa using hj)
    omega
  have hg := hp.gather
  unfold predPredict at e1
  obtain ⟨_, -, e1⟩ := ob_inv e1
  obtain ⟨states, a1, e1⟩ := ob_inv e1
  obtain ⟨_, hlen, e1⟩ := ob_inv e1
  rw [l2, ob_some] at e1
  obtain ⟨⟨mixed, chain⟩, a2, e1⟩ := ob_inv e1
  dsimp only at e1
  obtain ⟨⟨final, fin⟩, a3, e1⟩ := ob_inv e1
  obtain ⟨rfl, rfl⟩ := Prod.mk.inj (Option.some.inj e1)
  dsimp only at hg
  have hu : ∀ s ∈ states, Usable s := by
    intro s hs
    obtain ⟨i, hi, rfl⟩ := List.getElem_of_mem hs
    exact (usable_of ht (hg.get (List.getElem?_eq_getElem hi)).2.2).1
  have hnf : NodesFirst states := nodesFirst_of fun i s s' h1 h2 h3 => hg.antitone h1 h2 h3
  have hmix : MixedOk t mixed := by
    have hl : states.length ≤ p.chain.length := by
      have h1 := hal.len
      have h2 := hal.mo
      have hlen : states.length ≤ p.maxOrder + 1 := check_eq_some.mp hlen
      omega
    obtain ⟨r, os', c1, c2, -⟩ := chainPredict_ok ht henc hq.chain hl hu hnf
    rw [a2] at c1
    obtain ⟨rfl, -⟩ := Prod.mk.inj (Option.some.inj c1)
    exact c2
  unfold chainPredict at a2
  obtain ⟨ops, b1, b2, b3⟩ := chain_rel ht (R := s.ref) henc states 0 p.chain none (2 ^ 30, 0) mixed chain hq.chain hu hnf
    (half_mixed ht) (fun x s hx => by cases hx) h.chain a2
  obtain ⟨hs, v, b4, b5, b6, b7⟩ := final_rel ht hmix l1 hq.fin h.fin a3
  unfold predUpdate at e2
  dsimp only at e2
  rw [ob_some] at e2
  obtain ⟨⟨costs, chain'⟩, d1, e2⟩ := ob_inv e2
  dsimp only at e2
  obtain ⟨tree', d2, e2⟩ := ob_inv e2
  obtain ⟨fin', d3, e2⟩ := ob_inv e2
  obtain ⟨stats', -, e2⟩ := ob_inv e2
  obtain ⟨lb', d4, e2⟩ := ob_inv e2
  obtain rfl := Option.some.inj e2
  obtain ⟨R1, f1, f2, -, f3, f4⟩ := chain_learn b states 0 ops chain chain' costs s.ref b3 d1
  obtain ⟨R2, f5, f6, f7⟩ := b7 R1 f3 f4 b fin' d3
  have hh : ∃ h1 h2 h3, hs = [enc (seg x n j), h1, h2, h3] := by
    unfold hashes at b4
    rw [l2, ob_some] at b4
    obtain ⟨h1, -, b4⟩ := ob_inv b4
    obtain ⟨h2, -, b4⟩ := ob_inv b4
    obtain ⟨h3, -, b4⟩ := ob_inv b4
    exact ⟨h1, h2, h3, (Option.some.inj b4).symm⟩
  obtain ⟨h1, h2, h3, rfl⟩ := hh
  refine ⟨⟨tree', lb', R2⟩, ?_, rfl, rfl, ?_, f6⟩
  · unfold refBit
    rw [h.src, h.lb]
    change (srcGather p.tree >>= _) = _
    rw [a1, ob_some, b4, ob_some]
    change (opinions t s.ref (enc (seg x n j)) 0 none states (2 ^ 30, 0) >>= _) = _
    rw [b1, ob_some]
    change (verdict t mode s.ref _ (((ops.map Opinion.prob).getLast?).getD (2 ^ 30, 0)) states.length >>= _) = _
    rw [b2, b5, ob_some, f1, ob_some]
    dsimp only
    rw [f5, ob_some]
    change (srcProcess t.luts p.tree b costs >>= _) = _
    rw [d2, ob_some, d4, ob_some, b6]
  · dsimp only
    rw [f7]
    exact f2

/-- the rest of a byte -/
theorem bits_rel : ∀ (bits : List Bool) (L n j : Nat) (fs fs' : List Nat) (p p' : Predictor) (s : RefState Src),
    ReadyAt t mode W maxOrder x L (n + 1) j fs p → Sim t mode p s → 0 < bits.length → j + bits.length = 8 →
    (∀ r b, bits[r]? = some b → x (L + r) = b) → L = 8 * n + j → 9 * n + 20 < 2 ^ 40 →
    calls t mode p ((bits.map fun b => [Call.predict, Call.update b]).flatten) = some (fs', p') →
    IdleAt t mode W maxOrder x (8 * (n + 1)) (n + 1) (fs ++ fs') p' ∧ ∃ s', Sim t mode p' s' ∧ ∀ rest,
      (match bits ++ rest with
        | [] => none
        | b :: bs => do
          let (f, y) ← refBit t mode (treeSource t.luts) s b
          let (gs, y) ← refRun t mode (treeSource t.luts) (L + 1) y bs
          some (f :: gs, y)) = (do
        let (gs, y) ← refRun t mode (treeSource t.luts) (8 * (n + 1)) s' rest
        some (fs' ++ gs, y)) := by
  intro bits
  induction bits with
  | nil => intro L n j fs fs' p p' s _ _ h; simp at h
  | cons b bits ih =>
    intro L n j fs fs' p p' s hr hs _ hj hx hL hn hc
    rw [List.length_cons] at hj
    rw [List.map_cons, List.flatten_cons, calls_append] at hc
    obtain ⟨⟨g, q⟩, c1, hc⟩ := ob_inv hc
    obtain ⟨⟨gs, q2⟩, c2, hc⟩ := Option.map_eq_some_iff.mp hc
    obtain ⟨rfl, rfl⟩ := Prod.mk.inj hc
    dsimp only at c2
    obtain ⟨f, p1, e1, -, -, hp⟩ := predict_step ht hW hW0 hM hr
    obtain ⟨p2, e2, hu⟩ := update_step ht hW hW0 hM (by omega) hp
    have hb : x L = b := hx 0 b rfl
    rw [hb] at e2
    obtain ⟨s1, r1, hs1⟩ := bit_rel ht hW hW0 hM hr hs e1 e2
    rw [calls, call, e1, ob_some, ob_some] at c1
    dsimp only at c1
    rw [calls, call, e2, ob_some, ob_some] at c1
    dsimp only at c1
    rw [calls, ob_some, ob_some] at c1
    obtain ⟨rfl, rfl⟩ := Prod.mk.inj (Option.some.inj c1)
    change calls t mode p2 _ = _ at c2
    cases bits with
    | nil =>
      rw [List.length_nil] at hj
      rw [if_pos (by omega)] at hu
      rw [List.map_nil, List.flatten_nil, calls] at c2
      obtain ⟨rfl, rfl⟩ := Prod.mk.inj (Option.some.inj c2)
      have h8 : 8 * (n + 1) = L + 1 := by omega
      rw [h8]
      refine ⟨hu, s1, hs1, fun rest => ?_⟩
      change (refBit t mode (treeSource t.luts) s b >>= _) = _
      rw [r1, ob_some]
      rfl
    | cons c bits =>
      rw [List.length_cons] at hj
      rw [if_neg (by omega)] at hu
      obtain ⟨i1, s2, i2, i3⟩ := ih (L + 1) n (j + 1) (fs ++ [f]) gs p2 q2 s1 hu hs1 (by simp)
        (by rw [List.length_cons]; omega)
        (fun r b' hr => by
          have := hx (r + 1) b' hr
          rw [← this]; congr 1; omega) (by omega) (by omega) c2
      refine ⟨by rw [List.append_assoc] at i1; exact i1, s2, i2, fun rest => ?_⟩
      have h := i3 rest
      change (refBit t mode (treeSource t.luts) s b >>= _) = _
      rw [r1, ob_some]
      dsimp only
      rw [show (c :: bits).append rest = c :: (bits ++ rest) from rfl, refRun]
      have hrd : refReady (treeSource t.luts) (L + 1) s1 = some s1 := by
        unfold refReady
        rw [if_neg (by omega)]
      rw [hrd, ob_some]
      rw [List.cons_append] at h
      dsimp only at h
      rw [h]
      cases refRun t mode (treeSource t.luts) (8 * (n + 1)) s2 rest with
      | none => rfl
      | some r => rw [ob_some, ob_some, ob_some]; rfl

/-- bytes -/
theorem bytes_rel : ∀ (bytes : List (List Bool)) (n : Nat) (fs fs' : List Nat) (p p' : Predictor) (s : RefState Src),
    IdleAt t mode W maxOrder x (8 * n) n fs p → Sim t mode p s → (∀ b ∈ bytes, b.length = 8) →
    (∀ r b, bytes.flatten[r]? = some b → x (8 * n + r) = b) → 10 * (n + bytes.length) + 20 < 2 ^ 40 →
    calls t mode p (bytes.flatMap byteCalls) = some (fs', p') →
    ∃ s', refRun t mode (treeSource t.luts) (8 * n) s bytes.flatten = some (fs', s') := by
  intro bytes
  induction bytes with
  | nil =>
    intro n fs fs' p p' s _ _ _ _ _ hc
    rw [List.flatMap_nil, calls] at hc
    obtain ⟨rfl, rfl⟩ := Prod.mk.inj (Option.some.inj hc)
    exact ⟨s, rfl⟩
  | cons byte bytes ih =>
    intro n fs fs' p p' s hi hs h8 hx hn hc
    rw [List.length_cons] at hn
    have hb := h8 byte (by simp)
    rw [List.flatMap_cons, calls_append] at hc
    obtain ⟨⟨g, q⟩, c1, hc⟩ := ob_inv hc
    obtain ⟨⟨gs, q2⟩, c2, hc⟩ := Option.map_eq_some_iff.mp hc
    obtain ⟨rfl, rfl⟩ := Prod.mk.inj hc
    dsimp only at c2
    obtain ⟨p1, e1, hr⟩ := start_step ht hW hW0 hM (by omega) hi
    obtain ⟨s1, r1, hs1⟩ := start_rel ht hW hW0 hM hs e1 (n := 8 * n) (by omega)
    rw [byteCalls, calls, call, e1, ob_some, ob_some] at c1
    dsimp only at c1
    obtain ⟨⟨g', q'⟩, c3, c1⟩ := ob_inv c1
    obtain ⟨rfl, rfl⟩ := Prod.mk.inj (Option.some.inj c1)
    rw [Option.toList_none, List.nil_append] at *
    obtain ⟨i1, s2, i2, i3⟩ := bits_rel ht hW hW0 hM byte (8 * n) n 0 fs g' p1 q' s1 hr hs1 (by omega) (by omega)
      (fun r b hr => hx r b (by
        rw [List.flatten_cons, List.getElem?_append_left (List.getElem?_eq_some_iff.mp hr).1]
        exact hr)) (by omega) (by omega) c3
    obtain ⟨s3, j1⟩ := ih (n + 1) (fs ++ g') gs q' q2 s2 i1 i2 (fun b hb => h8 b (by simp [hb]))
      (fun r b hr => by
        have := hx (8 + r) b (by
          rw [List.flatten_cons, List.getElem?_append_right (by omega), hb, Nat.add_sub_cancel_left]
          exact hr)
        rw [← this]; congr 1; omega) (by omega) c2
    have h := i3 bytes.flatten
    rw [j1, ob_some] at h
    dsimp only at h
    rw [List.flatten_cons]
    obtain ⟨b, bs, rfl⟩ := List.exists_cons_of_ne_nil (List.ne_nil_of_length_pos (show 0 < byte.length by omega))
    rw [List.cons_append] at h ⊢
    refine ⟨s3, ?_⟩
    rw [refRun, r1, ob_some]
    exact h

theorem new_rel {p0 : Predictor} (h0 : predNew t mode W maxOrder = some p0) : ∃ s R, srcNew W maxOrder 0 = some s ∧
    refNew t = some R ∧ Sim t mode p0 ⟨s, lbNew, R⟩ := by
  unfold predNew at h0
  obtain ⟨s, e1, h0⟩ := ob_inv h0
  obtain ⟨os, e2, h0⟩ := ob_inv h0
  obtain ⟨f, e3, h0⟩ := ob_inv h0
  obtain rfl := Option.some.inj h0
  obtain ⟨R, r1⟩ := refNew_ok ht
  exact ⟨s, R, e1, r1, rfl, rfl, chainNew_rel e2 r1, finalizerNew_rel ht e3 r1⟩

end

end Verif.Pred
