import Verif.Bin.Histories
import Verif.Tree.Props

/-!
# C68: the printed bit histories
-/

namespace Verif.Bin

open Verif Verif.History

/-! ## Specification -/

/-- the bits of a file, most significant bit of each byte first -/
def fileBits (input : List Nat) : List Bool := input.flatMap fun x => [7, 6, 5, 4, 3, 2, 1, 0].map x.testBit

/-- the numbers to print after the bits `hist`: for each order whose context has occurred before, the last (up to seven)
bits that followed it, as a binary number with a leading one -/
def wantedLine (hist : List Bool) : List Nat :=
  ((List.range 64).filter fun k => occs hist k ≠ []).map fun k => Bits.enc (Bits.lastN 7 (following hist k))

/-- what to print for a file: the first 1234 bytes, and for each of their bits the line for the bits before it -/
def wanted (input : List Nat) : List (Nat × List (List Nat)) :=
  (List.range (min 1234 input.length)).map fun i =>
    (input.getD i 0, (List.range 8).map fun j => wantedLine ((fileBits input).take (8 * i + j)))

/-! ## Proof -/

theorem ob_inv {α β : Type _} {x : Option α} {f : α → Option β} {b : β} (h : (x >>= f) = some b) :
    ∃ a, x = some a ∧ f a = some b := by
  cases x with
  | none => simp at h
  | some a => exact ⟨a, rfl, h⟩

theorem printed_spec {table : List Nat} {d : Nat} {bits : List Bool} {c : Costs} {s : CtxState}
    (h : specState table d bits c = some s) : printedState s = some (Bits.enc (Bits.lastN 7 bits)) := by
  unfold specState at h
  by_cases h1 : bits = []
  · rw [if_pos h1] at h; simp at h
  · rw [if_neg h1] at h
    by_cases h2 : leadRun bits = bits.length
    · rw [if_pos h2, Option.some.injEq] at h
      rw [← h]
      unfold printedState CtxState.recentBits
      dsimp only
      have hb : bits = List.replicate bits.length (bits.headD false) := by
        cases bits with
        | nil => exact absurd rfl h1
        | cons b l =>
          unfold leadRun State.headRun at h2
          rw [List.length_cons, Nat.add_right_cancel_iff] at h2
          have h3 : l.takeWhile (· == b) = l := (List.takeWhile_prefix _).eq_of_length h2
          rw [List.headD_cons, List.length_cons, List.replicate_succ]
          congr 1
          refine List.eq_replicate_iff.mpr ⟨rfl, fun a ha => ?_⟩
          rw [← h3] at ha
          have := List.mem_takeWhile_imp ha
          simpa using this
      rw [(State.C18_constructors _ _).1, ob_some, (State.C18_queries _ (by rw [Bits.lastN_length]; omega)).2,
        Bits.lastN_lastN (by omega)]
      refine congrArg some (congrArg Bits.enc ?_)
      conv_rhs => rw [hb]
      unfold Bits.lastN
      rw [List.drop_replicate, List.drop_replicate, List.length_replicate, List.length_replicate]
      congr 1
      omega
    · rw [if_neg h2] at h
      obtain ⟨e, -, h⟩ := ob_inv h
      obtain ⟨f, -, h⟩ := ob_inv h
      rw [Option.some.injEq] at h
      rw [← h]
      unfold printedState CtxState.recentBits
      dsimp only
      rw [ob_some, (State.C18_queries _ (by rw [Bits.lastN_length]; omega)).2, Bits.lastN_lastN (by omega)]

theorem mapM_printed {α : Type} {f : α → Option CtxState} {g : α → Nat} (hf : ∀ k s, f k = some s → printedState s = some (g k)) :
    ∀ (l : List α) (states : List CtxState), l.mapM f = some states → states.mapM printedState = some (l.map g) ∧
      states.length = l.length := by
  intro l
  induction l with
  | nil =>
    intro states h
    rw [List.mapM_nil] at h
    cases h
    exact ⟨rfl, rfl⟩
  | cons a l ih =>
    intro states h
    rw [List.mapM_cons] at h
    obtain ⟨s, h1, h⟩ := ob_inv h
    obtain ⟨ss, h2, h⟩ := ob_inv h
    cases h
    obtain ⟨h3, h4⟩ := ih ss h2
    rw [List.mapM_cons, hf a s h1, ob_some, h3, ob_some]
    exact ⟨rfl, by rw [List.length_cons, List.length_cons, h4]⟩

theorem line_spec {table : List Nat} {hist : List Bool} {states : List CtxState} (h : specGather table 63 hist = some states) :
    states.mapM printedState = some (wantedLine hist) ∧ states.length ≤ 64 := by
  unfold specGather at h
  obtain ⟨h1, h2⟩ := mapM_printed (g := fun k => Bits.enc (Bits.lastN 7 (following hist k)))
    (fun k s hs => printed_spec hs) _ _ h
  refine ⟨h1, ?_⟩
  rw [h2]
  exact (List.length_filter_le _ _).trans (by rw [List.length_range])

/-- the update of the program: default cost trackers -/
def defaults (l : List CtxState) (_ : Bool) : List Costs := (l.filter CtxState.isNode).map fun _ => costsDefault

theorem feed_append {σ : Type} (src : Source σ) (upd : List CtxState → Bool → List Costs) (a : List Bool) :
    ∀ (n : Nat) (s : σ) (b : List Bool), feed src upd n s (a ++ b) =
      (feed src upd n s a >>= fun s => feed src upd (n + a.length) s b) := by
  induction a with
  | nil => intro n s b; rfl
  | cons x a ih =>
    intro n s b
    rw [List.cons_append, feed, feed]
    cases h1 : ready src n s with
    | none => simp only [ob_none]
    | some s1 =>
      simp only [ob_some]
      cases h2 : src.gather s1 with
      | none => simp only [ob_none]
      | some l =>
        simp only [ob_some]
        cases h3 : src.process s1 x (upd l x) with
        | none => simp only [ob_none]
        | some s2 =>
          simp only [ob_some]
          rw [ih, List.length_cons, show n + 1 + a.length = n + (a.length + 1) by omega]

/-- a source that reports what the specification says -/
structure Good {σ : Type} (src : Source σ) (s0 : σ) (table : List Nat) (W : Nat) : Prop where
  states : ∀ hist, hist.length < 8 * W → ∀ s1 s, feed src defaults 0 s0 hist = some s1 → ready src hist.length s1 = some s →
    ∃ states, src.gather s = some states ∧ specGather table 63 hist = some states
  feed : ∀ hist, hist.length ≤ 8 * W → ∃ s, feed src defaults 0 s0 hist = some s

theorem Good.of {σ : Type} {src : Source σ} {new : Option σ} {s0 : σ} {table : List Nat} {W : Nat} (h0 : new = some s0)
    (h1 : ∀ hist, hist.length < 8 * W → ∃ states, observe src defaults new hist = some states ∧
      specGather table 63 hist = some states)
    (h2 : ∀ hist, hist.length ≤ 8 * W → ∃ s, History.feed src defaults 0 s0 hist = some s) : Good src s0 table W := by
  refine ⟨?_, h2⟩
  intro hist hl s1 s e1 e2
  obtain ⟨states, o1, o2⟩ := h1 hist hl
  unfold observe at o1
  rw [h0, ob_some, e1, ob_some, e2, ob_some] at o1
  exact ⟨states, o1, o2⟩

variable {σ : Type} {src : Source σ} {s0 : σ} {table : List Nat} {W : Nat}

/-- one bit -/
theorem Good.step (h : Good src s0 table W) {hist : List Bool} {s1 s : σ} (e1 : History.feed src defaults 0 s0 hist = some s1)
    (e2 : ready src hist.length s1 = some s) (hl : hist.length < 8 * W) (b : Bool) :
    ∃ states s2, src.gather s = some states ∧ states.length ≤ 64 ∧ states.mapM printedState = some (wantedLine hist) ∧
      src.process s b (defaults states b) = some s2 ∧ History.feed src defaults 0 s0 (hist ++ [b]) = some s2 := by
  obtain ⟨states, g1, g2⟩ := h.states hist hl s1 s e1 e2
  obtain ⟨h3, h4⟩ := line_spec g2
  obtain ⟨s2, f⟩ := h.feed (hist ++ [b]) (by simp; omega)
  refine ⟨states, s2, g1, h4, h3, ?_, f⟩
  rw [feed_append, e1, ob_some, Nat.zero_add, History.feed, e2, ob_some, g1, ob_some] at f
  obtain ⟨s3, f1, f2⟩ := ob_inv f
  rw [History.feed, Option.some.injEq] at f2
  rw [f1, f2]

theorem getBit_eq (x j : Nat) : Window.getBit x j = x.testBit j := by
  unfold Window.getBit
  rw [Nat.testBit_eq_decide_div_mod_eq]

theorem Good.bits (h : Good src s0 table W) (x : Nat) : ∀ (js : List Nat) (hist : List Bool) (s1 s : σ),
    History.feed src defaults 0 s0 hist = some s1 → (js ≠ [] → ready src hist.length s1 = some s) → (js = [] → s = s1) →
    (js ≠ [] → hist.length % 8 + js.length = 8) → hist.length + js.length ≤ 8 * W →
    ∃ s', printBits src x js s = some ((List.range js.length).map (fun r => wantedLine (hist ++ (js.map x.testBit).take r)), s') ∧
      History.feed src defaults 0 s0 (hist ++ js.map x.testBit) = some s' := by
  intro js
  induction js with
  | nil =>
    intro hist s1 s e1 _ e2 _ _
    rw [e2 rfl, List.map_nil, List.append_nil]
    exact ⟨s1, rfl, e1⟩
  | cons j js ih =>
    intro hist s1 s e1 e2 _ hm hl
    rw [List.length_cons] at hl
    have hm := hm (by simp)
    rw [List.length_cons] at hm
    obtain ⟨states, s2, g1, g2, g3, g4, g5⟩ := h.step e1 (e2 (by simp)) (by omega) (x.testBit j)
    obtain ⟨s', p1, p2⟩ := ih (hist ++ [x.testBit j]) s2 s2 g5 (fun hj => by
        unfold ready
        have : 0 < js.length := List.length_pos_of_ne_nil hj
        rw [if_neg (by simp; omega)]) (fun _ => rfl) (fun hj => by
        have : 0 < js.length := List.length_pos_of_ne_nil hj
        simp
        omega) (by simp; omega)
    refine ⟨s', ?_, ?_⟩
    · rw [printBits, g1, ob_some, check_pos (p := states.length ≤ libMaxOrder + 1) g2, ob_some, g3, ob_some, getBit_eq]
      change (src.process s (x.testBit j) (defaults states (x.testBit j)) >>= _) = _
      rw [g4, ob_some, p1, ob_some]
      refine congrArg some (Prod.ext ?_ rfl)
      dsimp only
      rw [List.length_cons, List.range_succ_eq_map, List.map_cons, List.map_map, List.take_zero, List.append_nil]
      congr 1
      refine List.map_congr_left fun r _ => ?_
      rw [Function.comp_apply, Nat.succ_eq_add_one, List.map_cons, List.take_succ_cons, List.append_assoc, List.singleton_append]
    · rw [List.append_assoc, List.singleton_append] at p2
      rw [List.map_cons]
      exact p2

theorem fileBits_length (input : List Nat) : (fileBits input).length = 8 * input.length := by
  induction input with
  | nil => rfl
  | cons x l ih =>
    unfold fileBits at ih ⊢
    rw [List.flatMap_cons, List.length_append, ih, List.length_cons, List.length_map]
    simp only [List.length_cons, List.length_nil]
    omega

theorem fileBits_append (a b : List Nat) : fileBits (a ++ b) = fileBits a ++ fileBits b := by
  unfold fileBits
  rw [List.flatMap_append]

theorem Good.bytes (h : Good src s0 table W) : ∀ (xs pre : List Nat) (s : σ),
    History.feed src defaults 0 s0 (fileBits pre) = some s → pre.length + xs.length ≤ W →
    printBytes src xs s = some ((List.range xs.length).map fun i =>
      (xs.getD i 0, (List.range 8).map fun j => wantedLine ((fileBits (pre ++ xs)).take (8 * (pre.length + i) + j)))) := by
  intro xs
  induction xs with
  | nil => intro pre s _ _; rfl
  | cons x xs ih =>
    intro pre s e1 hl
    rw [List.length_cons] at hl
    have hb := fileBits_length pre
    obtain ⟨sn, f⟩ := h.feed (fileBits pre ++ [x.testBit 7]) (by simp; omega)
    rw [feed_append, e1, ob_some, Nat.zero_add, History.feed] at f
    obtain ⟨s1, e2, -⟩ := ob_inv f
    obtain ⟨s', p1, p2⟩ := h.bits x [7, 6, 5, 4, 3, 2, 1, 0] (fileBits pre) s s1 e1 (fun _ => e2) (fun hn => by simp at hn)
      (fun _ => by simp only [List.length_cons, List.length_nil]; omega)
      (by simp only [List.length_cons, List.length_nil]; omega)
    have hstart : src.start s = some s1 := by
      unfold ready at e2
      rwa [if_pos (by omega)] at e2
    have hx : fileBits (pre ++ [x]) = fileBits pre ++ [7, 6, 5, 4, 3, 2, 1, 0].map x.testBit := by
      rw [fileBits_append]
      rfl
    have hrest := ih (pre ++ [x]) s' (by rw [hx]; exact p2) (by simp; omega)
    rw [printBytes, hstart, ob_some, p1, ob_some]
    dsimp only
    rw [hrest, ob_some]
    refine congrArg some ?_
    rw [show (x :: xs).length = xs.length + 1 from rfl, List.range_succ_eq_map (n := xs.length), List.map_cons (a := 0), List.map_map]
    congr 1
    · rw [List.getD_cons_zero]
      refine Prod.ext rfl ?_
      dsimp only
      refine List.map_congr_left fun r hr => ?_
      rw [show [7, 6, 5, 4, 3, 2, 1, 0].length = 8 from rfl, List.mem_range] at hr
      rw [show pre ++ x :: xs = pre ++ [x] ++ xs by simp, fileBits_append, hx]
      rw [List.take_append_of_le_length (by simp; omega), List.take_append, hb,
        List.take_of_length_le (l := fileBits pre) (by omega), show 8 * (pre.length + 0) + r - 8 * pre.length = r by omega]
    · refine List.map_congr_left fun i _ => ?_
      rw [Function.comp_apply, Nat.succ_eq_add_one, List.getD_cons_succ, List.append_assoc, List.singleton_append,
        List.length_append, List.length_singleton, show pre.length + 1 + i = pre.length + (i + 1) by omega]

theorem Good.print (input : List Nat) {new : Nat → Nat → Option σ} (hn : new input.length 63 = some s0)
    (h : Good src s0 table input.length) : printHistories src new input = some (wanted input) := by
  unfold printHistories
  change (new input.length 63 >>= _) = _
  rw [hn, ob_some, h.bytes (input.take 1234) [] s0 rfl (by simp)]
  refine congrArg some ?_
  unfold wanted
  rw [List.length_take]
  refine List.map_congr_left fun i hi => ?_
  rw [List.mem_range] at hi
  refine Prod.ext ?_ ?_
  · dsimp only
    rw [List.getD_eq_getElem?_getD, List.getElem?_take_of_lt (by omega), List.getD_eq_getElem?_getD]
  · dsimp only
    refine List.map_congr_left fun j hj => ?_
    rw [List.mem_range] at hj
    rw [List.nil_append, List.length_nil, Nat.zero_add]
    have hs : fileBits input = fileBits (input.take 1234) ++ fileBits (input.drop 1234) := by
      rw [← fileBits_append, List.take_append_drop]
    rw [hs, List.take_append_of_le_length (by rw [fileBits_length, List.length_take]; omega)]

theorem defaults_ok (l : List CtxState) (b : Bool) : (defaults l b).length = (l.filter CtxState.isNode).length ∧
    ∀ c ∈ defaults l b, c = costsDefault := by
  unfold defaults
  refine ⟨List.length_map _, fun c hc => ?_⟩
  obtain ⟨_, -, h⟩ := List.mem_map.mp hc
  exact h.symm

/-- **C68.** For every non-empty file of up to 2^31 bytes and every hash function, all three kinds of history source make
the program print the same text, that of the specification. -/
theorem C68_same_text (luts : Luts) (hL : LutsOk luts) (hash : HashFn) (input : List Nat) (h0 : input ≠ [])
    (hn : input.length ≤ 2 ^ 31) (kind : Kind) : printKind hash luts input kind = some (wanted input) := by
  have hpos : 0 < input.length := List.length_pos_of_ne_nil h0
  have hspec : ∀ hist : List Bool, hist.length < 8 * input.length → ∃ states,
      observe (naiveSource luts) defaults (naiveNew input.length 63) hist = some states ∧
      specGather luts.costs 63 hist = some states := fun hist hl =>
    C27_naive luts hL input.length 63 (by omega) hist hl defaults (fun l b => (defaults_ok l b).2)
  cases kind with
  | bruteForce =>
    obtain ⟨s0, e0, i0⟩ := naive_new (m := input.length) 63 hpos (by omega)
    refine Good.print input e0 (Good.of e0 hspec fun hist hl => ?_)
    obtain ⟨s, e, -⟩ := naive_feed hL (fun l b => (defaults_ok l b).2) hist s0 [] i0 (by simp; omega)
    exact ⟨s, e⟩
  | fatMap =>
    obtain ⟨s0, e0, i0⟩ := fat_new hash (fun _ _ _ => True) luts.costs (m := input.length) 63 hpos (by omega)
    refine Good.print input e0 (Good.of (table := luts.costs) e0 (fun hist hl => ?_) fun hist hl => ?_)
    · obtain ⟨states, n1, n2⟩ := hspec hist hl
      obtain ⟨states', f1, f2⟩ := C28_fat_map_exact luts hL hash input.length 63 (by omega) hist hl defaults defaults_ok
      rw [n1, Option.some.injEq] at f2
      exact ⟨states, by rw [f1, f2], n2⟩
    · obtain ⟨s, e, -⟩ := fat_feed hL rfl (fun _ _ _ => ⟨costsDefault, trivial⟩) (fun l b => (defaults_ok l b).1)
        (fun _ _ _ _ _ _ => trivial) hist s0 [] i0 (by simp; omega)
      exact ⟨s, e⟩
  | tree =>
    obtain ⟨s0, e0, i0⟩ := Tree.srcNew_ok (x := fun _ => false) (maxOrder := 63) hn hpos
    refine Good.print (new := fun w o => Tree.srcNew w o 0) input e0 (Good.of (table := luts.costs) e0 (fun hist hl => ?_) fun hist hl => ?_)
    · obtain ⟨states, n1, n2⟩ := hspec hist hl
      obtain ⟨states', f1, f2⟩ := Tree.C29_tree_exact luts hL input.length 0 63 hn hpos (by omega) hist hl defaults defaults_ok
      rw [n1, Option.some.injEq] at f2
      exact ⟨states, by rw [f1, f2], n2⟩
    · obtain ⟨s0', s, e0', e, -⟩ := Tree.src_run (Pc := fun _ _ _ => True) hL (fun _ _ _ => ⟨costsDefault, trivial⟩) hn hpos
        (maxOrder := 63) (by omega) (upd := defaults) (fun l b => (defaults_ok l b).1)
        (fun _ _ _ _ _ => Tree.allowed_const (fun _ _ => trivial)) hist
      rw [e0, Option.some.injEq] at e0'
      exact ⟨s, by rw [e0']; exact e⟩

/-- **C68 (empty file).** For an empty file the program panics, whatever the kind of source. -/
theorem C68_empty (luts : Luts) (hash : HashFn) (kind : Kind) : printKind hash luts [] kind = none := by
  cases kind <;> rfl

/-- two bytes `A`: after the first, order 0 has seen one bit at each place -/
example : wanted [65, 65] = [(65, [[], [], [], [], [], [], [], []]), (65, [[2], [3], [2], [2], [2], [2], [2], [3]])] := by
  decide +kernel

/-- the hypotheses are met -/
example : ∃ luts, LutsOk luts ∧ ∀ kind, printKind (fun _ _ _ => 0) luts [65, 65] kind = some (wanted [65, 65]) := by
  obtain ⟨luts, h⟩ := luts_exist
  exact ⟨luts, h, C68_same_text luts h _ _ (by simp) (by simp)⟩

end Verif.Bin
