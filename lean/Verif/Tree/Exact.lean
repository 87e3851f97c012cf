import Verif.Tree.Props
import Verif.History.FatExact

/-!
# The tree reports the cost trackers supplied last
-/

namespace Verif.Tree

open Verif Verif.History Verif.Window

variable {P : Str → Nat → Prop} {D : Nat} {ex : Prop} {Pc Pc' : Str → List Bool → Costs → Prop} {table : List Nat}
  {N : Live} {str : Nat → Str} {luts : Luts} {x : Nat → Bool} {sh W maxOrder : Nat}

theorem StatOk.mono {s : Str} {nd : Node} (h : StatOk P ex Pc table s nd) (hP : ∀ s q c, Pc s q c → Pc' s q c) :
    StatOk P ex Pc' table s nd := by
  obtain ⟨q, q0, c, h1, h2, h3, h4, h5, h6, h7⟩ := h
  exact ⟨q, q0, c, h1, h2, h3, h4, h5, hP _ _ _ h6, h7⟩

theorem TInv.mono {ps : Nat → Nat} (h : TInv P D ex Pc table ps N str) (hP : ∀ s q c, Pc s q c → Pc' s q c) :
    TInv P D ex Pc' table ps N str :=
  ⟨h.root, fun v nd hv => let k := h.node v nd hv; ⟨k.br, k.depth, k.text, k.stat.mono hP, k.child⟩, h.full, h.inj,
    h.rootle⟩

theorem SrcIs.mono {Ic : Nat → Nat → Prop} {n j : Nat} {s : Src} (h : SrcIs luts x Pc Ic sh W maxOrder n j s)
    (hP : ∀ s q c, Pc s q c → Pc' s q c) : SrcIs luts x Pc' Ic sh W maxOrder n j s := by
  refine ⟨h.order, h.bit, h.state.win, h.state.le, ?_⟩
  rcases h.state.cases with ⟨N, str, cnt, hT, hC⟩ | h
  · exact Or.inl ⟨N, str, cnt, ⟨hT.proper, hT.rep, hT.inv.mono hP⟩, hC⟩
  · exact Or.inr h

theorem SrcIsAt.mono {Ic : Nat → Nat → Prop} {L : Nat} {s : Src} (h : SrcIsAt luts x Pc Ic sh W maxOrder L s)
    (hP : ∀ s q c, Pc s q c → Pc' s q c) : SrcIsAt luts x Pc' Ic sh W maxOrder L s := by
  rcases h with h | ⟨n, j, h1, h2, h3, h⟩
  · exact Or.inl h
  · exact Or.inr ⟨n, j, h1, h2, h3, h.mono hP⟩

/-- the tree works like the ideal source as long as nothing has been forgotten -/
theorem tree_follows (hL : LutsOk luts) (hW : W ≤ 2 ^ 31) (hM : maxOrder ≤ 8191) (sh : Nat) (x : Nat → Bool) :
    Follows (treeSource luts) luts.costs maxOrder x (8 * W) fun I s =>
      I.paid.length = I.hist.length ∧ seg x 0 I.hist.length = I.hist ∧
        SrcAt luts x (Paid I) sh W maxOrder I.hist.length s := by
  rintro I s ⟨hI, hx, h⟩ hB
  have hw : windowed W (seg x 0 I.hist.length) = I.hist := by rw [hx]; exact windowed_all hB
  obtain ⟨s1, states, e1, -, e2, h2, -, -⟩ := src_step hL (paid_fresh I) hW (by omega) hM h
  rw [hw] at h2
  refine ⟨s1, states, e1, e2, ideal_of_gatherOk (h2.exact hB (paid_fresh I)), fun costs hc => ?_⟩
  have hl : ∀ k, k < costs.length ↔ k ≤ maxOrder ∧ Branching I.hist k := fun k => by
    rw [hc]; exact h2.costs_line_up k
  obtain ⟨s1', states', e1', -, e2', -, -, h3⟩ := src_step hL (paid_fresh (I.push (x I.hist.length) costs)) hW (by omega)
    hM (h.mono fun _ _ _ => paid_push)
  rw [e1] at e1'
  obtain rfl := Option.some.inj e1'
  rw [e2] at e2'
  obtain rfl := Option.some.inj e2'
  obtain ⟨s2, e3, h4⟩ := h3 costs hc (by
    rw [hw]
    intro m c hm q hq
    rw [hq hB]
    exact paid_supplied hI (fun k hk => ((hl k).mp hk).2) m c hm)
  refine ⟨s2, e3, ?_, ?_, ?_⟩
  · unfold Ideal.push
    rw [List.length_append, List.length_append, hI]
    rfl
  · change seg x 0 (I.hist ++ [x I.hist.length]).length = I.hist ++ [x I.hist.length]
    rw [List.length_append, List.length_singleton, seg, List.range_succ, List.map_append]
    rw [seg] at hx
    rw [hx]
    simp
  · unfold Ideal.push
    rw [List.length_append]
    exact h4

theorem tree_follows_new (hW : W ≤ 2 ^ 31) (hsh : sh < W) (maxOrder : Nat) (x : Nat → Bool) :
    ∃ s, srcNew W maxOrder sh = some s ∧ Ideal.new.paid.length = Ideal.new.hist.length ∧
      seg x 0 Ideal.new.hist.length = Ideal.new.hist ∧
        SrcAt luts x (Paid Ideal.new) sh W maxOrder Ideal.new.hist.length s := by
  obtain ⟨s, e, h⟩ := srcNew_ok (x := x) (maxOrder := maxOrder) hW hsh
  exact ⟨s, e, rfl, rfl, Or.inl ⟨rfl, h⟩⟩

/-- **C56 (reported states).** As long as the file fits in the window, at every bit the tree and, with every hash function,
the hash map report the same states, including the cost trackers, whatever cost trackers are supplied: those of the source
that remembers all bits and all cost trackers, and that reports for a context the cost trackers supplied at its last
occurrence. -/
theorem C56_states (luts : Luts) (hL : LutsOk luts) (hash : HashFn) {W maxOrder sh : Nat} (hW : W ≤ 2 ^ 31) (hsh : sh < W)
    (hM : maxOrder ≤ 8191) (hist : List Bool) (hlen : hist.length < 8 * W) (upd : List CtxState → Bool → List Costs)
    (hu : ∀ l b, (upd l b).length = (l.filter CtxState.isNode).length) :
    ∃ states, observe (treeSource luts) upd (srcNew W maxOrder sh) hist = some states ∧
      observe (fatSource hash luts) upd (fatNew W maxOrder) hist = some states ∧
      observe (idealSource luts.costs maxOrder) upd (some Ideal.new) hist = some states := by
  obtain ⟨s0, e0, h0⟩ := tree_follows_new (luts := luts) hW hsh maxOrder fun i => hist.getD i false
  obtain ⟨s1, e1, h1⟩ := fat_follows_new (luts := luts) hash (m := W) maxOrder (by omega) (by omega)
  obtain ⟨states, a1, a2⟩ := (tree_follows hL hW hM sh fun i => hist.getD i false).observe hu e0 h0 hlen
  obtain ⟨states', b1, b2⟩ := (fat_follows hL hash W maxOrder fun i => hist.getD i false).observe hu e1 h1 hlen
  rw [a2] at b2
  obtain rfl := Option.some.inj b2
  exact ⟨states, a1, b1, a2⟩

/-- the cost trackers of a state -/
def costsOf : CtxState → Option Costs
  | .edge _ _ _ => none
  | .node _ _ _ _ c => some c

/-- an update that tells apart the states it is given, and what the ideal source reports: the cost trackers of the last
occurrence of each context -/
example : let upd := fun (l : List CtxState) (b : Bool) => (l.filter CtxState.isNode).map fun s => (s.dist, b.toNat)
    (∀ l b, (upd l b).length = (l.filter CtxState.isNode).length) ∧
    (observe (idealSource (List.replicate 2000 5) 1) upd (some Ideal.new)
      (([1, 0, 1, 1, 0, 1].map fun x => Nat.testBit x 0 :: List.replicate 7 false).flatten)).map (List.map costsOf) =
      some [some (1, 1), some (1, 0)] := by
  refine ⟨fun l b => by simp, ?_⟩
  decide +kernel

/-- the hypotheses are met -/
example : ∃ luts, LutsOk luts ∧ ∃ states, observe (treeSource luts)
    (fun l b => (l.filter CtxState.isNode).map fun s => (s.dist, b.toNat)) (srcNew 5 2 3)
    (([1, 0, 1, 0].map fun x => Nat.testBit x 0 :: List.replicate 7 false).flatten) = some states := by
  obtain ⟨luts, h⟩ := luts_exist
  obtain ⟨states, h1, -⟩ := C56_states luts h (fun _ => 0) (W := 5) (maxOrder := 2) (sh := 3) (by norm_num) (by norm_num)
    (by norm_num) (([1, 0, 1, 0].map fun x => Nat.testBit x 0 :: List.replicate 7 false).flatten) (by decide)
    (fun l b => (l.filter CtxState.isNode).map fun s => (s.dist, b.toNat)) (fun l b => by simp)
  exact ⟨luts, h, states, h1⟩

end Verif.Tree
