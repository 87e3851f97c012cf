import Verif.Pred.MemoryProps
import Verif.Pred.Program
import Verif.Tree.WorkProps

/-!
# C97: the work of the predictor

The rounds of the loops are counted, as in C81 for the history tree. Everything outside of loops takes a fixed number of
steps; the loops over the inputs of a mixer have at most five rounds and are counted as fixed.
-/

namespace Verif.Pred

open Verif Verif.Tree Verif.History

/-- rounds of one call of the predictor: `start_new_byte` (`src/predictor/mod.rs:61-66`) those of the tree, `predict`
(lines `68-85`) those of gathering the states and of the loop over them (`chain.rs:77-102`), `update` (lines `87-106`)
two loops over the states (`chain.rs:111-123`, `stats.rs:83-85`) and those of the tree -/
def callRounds (p : Predictor) : Call → Option Nat
  | .start => startRounds p.tree
  | .predict => do
    let states ← srcGather p.tree
    some (gatherRounds p.tree + states.length)
  | .update _ => some (2 * p.states.length + processRounds p.tree)

/-- rounds of a history of calls (`src/predictor/mod.rs:61-105`) -/
def callsRounds (t : Tables) (mode : Mode) : Predictor → List Call → Option Nat
  | _, [] => some 0
  | p, c :: cs => do
    let r ← callRounds p c
    let (_, p) ← call t mode p c
    let r' ← callsRounds t mode p cs
    some (r + r')

/-- the most rounds a call may take, for one order -/
def mostRounds : Call → Nat
  | .start => 12
  | .predict => 2
  | .update _ => 3

theorem callsRounds_append {t : Tables} {mode : Mode} : ∀ (cs ds : List Call) (p q : Predictor) (fs : List Nat) (r s : Nat),
    callsRounds t mode p cs = some r → calls t mode p cs = some (fs, q) → callsRounds t mode q ds = some s →
    callsRounds t mode p (cs ++ ds) = some (r + s) := by
  intro cs
  induction cs with
  | nil =>
    intro ds p q fs r s h1 h2 h3
    obtain ⟨-, rfl⟩ := Prod.mk.inj (Option.some.inj h2)
    obtain rfl := Option.some.inj h1
    rw [List.nil_append, h3, Nat.zero_add]
  | cons c cs ih =>
    intro ds p q fs r s h1 h2 h3
    obtain ⟨r1, a1, h1⟩ := Option.bind_eq_some_iff.mp h1
    obtain ⟨⟨f, p1⟩, a2, h1⟩ := Option.bind_eq_some_iff.mp h1
    obtain ⟨r2, a3, h1⟩ := Option.bind_eq_some_iff.mp h1
    obtain rfl := Option.some.inj h1
    obtain ⟨⟨f', p1'⟩, b1, h2⟩ := Option.bind_eq_some_iff.mp h2
    rw [a2] at b1
    obtain ⟨rfl, rfl⟩ := Prod.mk.inj (Option.some.inj b1)
    obtain ⟨⟨fs', q'⟩, b2, h2⟩ := Option.bind_eq_some_iff.mp h2
    obtain ⟨-, rfl⟩ := Prod.mk.inj (Option.some.inj h2)
    have := ih ds p1 q' fs' r2 s a3 b2 h3
    rw [List.cons_append, callsRounds, a1, ob_some, a2, ob_some]
    dsimp only
    rw [this, ob_some, Nat.add_assoc]

/-- one call in the right phase -/
theorem call_rounds {t : Tables} {mode : Mode} {W maxOrder : Nat} (hW : W ≤ 2 ^ 31) (hM : maxOrder ≤ 8191) {x : Nat → Bool} {L S : Nat} {fs : List Nat} {ph : Phase} {p p' : Predictor} {c : Call}
    {f : Option Nat} (h : PhaseAt t mode W maxOrder x L S fs ph p) (hc : call t mode p c = some (f, p'))
    (hl : p.states.length ≤ maxOrder + 1) :
    ∃ r, callRounds p c = some r ∧ r ≤ mostRounds c * (maxOrder + 1) := by
  have hm := h.always.mo
  cases hs : phaseStep ph c with
  | none => rw [misuse h hs] at hc; cases hc
  | some ph' =>
    cases ph with
    | idle =>
      cases c with
      | start =>
        have h : IdleAt t mode W maxOrder x L S fs p := h
        obtain ⟨r, hr, e⟩ := start_rounds hW hM (by rw [h.pos]; omega) h.src
        exact ⟨r, e, hr⟩
      | predict => cases hs
      | update b => cases hs
    | ready j =>
      cases c with
      | start => cases hs
      | predict =>
        have h : ReadyAt t mode W maxOrder x L S j fs p := h
        obtain ⟨n, -, -, -, -, h6⟩ := h.pos
        obtain ⟨g1, -⟩ := bit_rounds h6
        obtain ⟨⟨g, q⟩, h1, -⟩ := Option.bind_eq_some_iff.mp hc
        unfold predPredict at h1
        obtain ⟨_, -, h1⟩ := Option.bind_eq_some_iff.mp h1
        obtain ⟨states, h2, h1⟩ := Option.bind_eq_some_iff.mp h1
        obtain ⟨_, h3, -⟩ := Option.bind_eq_some_iff.mp h1
        have h3 := check_eq_some.mp h3
        refine ⟨gatherRounds p.tree + states.length, by rw [callRounds, h2, ob_some], ?_⟩
        rw [hm] at h3
        rw [mostRounds]
        omega
      | update b => cases hs
    | pending j =>
      cases c with
      | start => cases hs
      | predict => cases hs
      | update b =>
        have h : PendingAt t mode W maxOrder x L S j fs p := h
        obtain ⟨n, -, -, -, -, h6⟩ := h.pos
        obtain ⟨-, g2⟩ := bit_rounds h6
        refine ⟨_, rfl, ?_⟩
        rw [mostRounds]
        omega

/-- **C97 (predictor).** For any calls the predictor does not refuse, the rounds of all its loops are at most, per order, 12
for each byte started, 2 for each prediction and 3 for each update, whatever the data and the window. -/
theorem C97_predictor {t : Tables} (ht : tablesNew = some t) (mode : Mode) {W maxOrder : Nat} (hW0 : 0 < W)
    (hW : W ≤ 2 ^ 31) (hM : maxOrder ≤ 8191) {p0 : Predictor} (h0 : predNew t mode W maxOrder = some p0)
    (cs : List Call) (hn : cs.length ≤ 2 ^ 40) {fs : List Nat} {p : Predictor}
    (h : calls t mode p0 cs = some (fs, p)) :
    ∃ r, callsRounds t mode p0 cs = some r ∧ r ≤ (maxOrder + 1) * (cs.map mostRounds).sum := by
  induction cs using List.reverseRecOn generalizing fs p with
  | nil => exact ⟨0, rfl, Nat.zero_le _⟩
  | append_singleton cs c ih =>
    rw [List.length_append, List.length_singleton] at hn
    rw [calls_append] at h
    obtain ⟨⟨fs1, p1⟩, h1, h⟩ := Option.bind_eq_some_iff.mp h
    obtain ⟨r, a1, a2⟩ := ih (by omega) h1
    obtain ⟨⟨fs2, p2⟩, h2, -⟩ := Option.map_eq_some_iff.mp h
    obtain ⟨⟨f, p3⟩, h3, -⟩ := Option.bind_eq_some_iff.mp h2
    obtain ⟨p0', e0, n1, n2⟩ := calls_new (tablesOk_of ht) hW hW0 hM mode cs (by omega)
    rw [h0] at e0
    obtain rfl := Option.some.inj e0
    have hk : p1.states.length ≤ maxOrder + 1 := by
      refine (calls_kept cs h1 ?_ ?_).1 <;>
      · unfold predNew at h0
        obtain ⟨_, -, h0⟩ := Option.bind_eq_some_iff.mp h0
        obtain ⟨_, -, h0⟩ := Option.bind_eq_some_iff.mp h0
        obtain ⟨_, -, h0⟩ := Option.bind_eq_some_iff.mp h0
        obtain rfl := Option.some.inj h0
        simp
    cases hp : phaseRun .idle cs with
    | none => rw [n1 hp] at h1; cases h1
    | some ph =>
      obtain ⟨fs', p', n3, -, n4⟩ := n2 ph hp
      rw [h1] at n3
      obtain ⟨-, rfl⟩ := Prod.mk.inj (Option.some.inj n3)
      obtain ⟨s, b1, b2⟩ := call_rounds hW hM n4 h3 hk
      refine ⟨r + s, callsRounds_append cs [c] p0 p1 fs1 r s a1 h1 ?_, ?_⟩
      · rw [callsRounds, b1, ob_some, h3, ob_some]
        rfl
      · rw [List.map_append, List.sum_append, List.map_singleton, List.sum_singleton, Nat.mul_add]
        rw [Nat.mul_comm] at b2
        omega

theorem byte_rounds (bytes : List (List Bool)) (h8 : ∀ b ∈ bytes, b.length = 8) :
    ((bytes.flatMap byteCalls).map mostRounds).sum = 52 * bytes.length := by
  have hb : ∀ bits : List Bool, ((byteCalls bits).map mostRounds).sum = 12 + 5 * bits.length := by
    intro bits
    unfold byteCalls
    rw [List.map_cons, List.sum_cons]
    congr 1
    induction bits with
    | nil => rfl
    | cons b bits ih =>
      rw [List.map_cons, List.flatten_cons, List.map_append, List.sum_append, ih, List.length_cons]
      simp only [List.map_cons, List.map_nil, List.sum_cons, List.sum_nil, mostRounds]
      omega
  induction bytes with
  | nil => rfl
  | cons b bytes ih =>
    rw [List.flatMap_cons, List.map_append, List.sum_append, hb, h8 b (by simp), ih (fun b hb => h8 b (by simp [hb])),
      List.length_cons]
    omega

/-- **C97 (the program).** For a file of up to 2^35 bytes all loops of the predictor of the program together make at most
1092 rounds per byte, whatever the file holds. -/
theorem C97_program {t : Tables} (ht : tablesNew = some t) {p0 : Predictor}
    (h0 : predNew t .light 10000000 20 = some p0) (bytes : List (List Bool)) (h8 : ∀ b ∈ bytes, b.length = 8)
    (hn : bytes.length ≤ 2 ^ 35) :
    ∃ r, callsRounds t .light p0 (bytes.flatMap byteCalls) = some r ∧ r ≤ 1092 * bytes.length := by
  have hlen := bytes_length bytes h8
  obtain ⟨fs, q, h1, -⟩ := C44_file ht .light (by omega) (by omega) (by omega) h0 bytes h8 hn
  obtain ⟨r, a1, a2⟩ := C97_predictor ht .light (by omega) (by omega) (by omega) h0 _ (by omega) h1
  rw [byte_rounds bytes h8] at a2
  exact ⟨r, a1, by omega⟩

/-- the hypotheses hold for two bytes -/
example : ∃ t p0, tablesNew = some t ∧ predNew t .light 10000000 20 = some p0 ∧
    ∃ r, callsRounds t .light p0 ([[false, true, true, false, false, false, false, true],
      [false, true, true, false, false, false, true, false]].flatMap byteCalls) = some r ∧ r ≤ 2184 := by
  obtain ⟨t, ht⟩ := C52_tables
  obtain ⟨p0, h0⟩ := C44_new ht .light (W := 10000000) (maxOrder := 20) (by omega) (by omega) (by omega)
  exact ⟨t, p0, ht, h0, C97_program ht h0 _ (by decide) (by decide)⟩

end Verif.Pred
