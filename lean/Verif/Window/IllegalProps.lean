import Verif.Window.Props

/-!
# C24: what illegal operations do
-/

namespace Verif.Window

open Verif

/-- the operation overwrites the newest byte -/
def Op.isSet : Op → Bool
  | .setByte _ => true
  | .setBit _ _ => true
  | _ => false

/-- the argument has the type of the parameter: a byte -/
def Op.Typed : Op → Prop
  | .setByte v => v < 256
  | _ => True

theorem set_empty {w : Win} (h : Inv w) (hz : w.size = 0) {v : Nat} (hv : v < 256) :
    bufSet w w.cursor v = none ∨ ∃ w', bufSet w w.cursor v = some w' ∧ Inv w' ∧ contents w' = [] ∧ w'.max = w.max := by
  unfold bufSet
  by_cases hl : w.cursor < w.buffer.length
  · right
    rw [check_pos hl, ob_some]
    refine ⟨_, rfl, ⟨h.max_pos, h.max_lt, h.start_lt, h.cursor_lt, h.size_le, ?_, h.rel, ?_, ?_⟩, ?_, rfl⟩
    · dsimp only; rw [List.length_set]; exact h.len_le
    · dsimp only; rw [List.length_set]; exact h.part
    · intro b hb
      rcases List.mem_or_eq_of_mem_set hb with hb | rfl
      · exact h.bytes b hb
      · exact hv
    · unfold contents
      dsimp only
      rw [hz]
      rfl
  · left
    rw [check_neg hl, ob_none]

/-- **C24 (illegal operations).** In every reachable window an operation that a bounded queue refuses panics, with one exception:
overwriting the newest byte of an empty window may be accepted, and then has no effect that later operations could show. -/
theorem C24_illegal {m s : Nat} (hm : m < 2 ^ 63) (hs : s < m) (os : List Op) (q : List Nat)
    (h : specRun m [] os = some q) {w : Win} (hw : (winNew m s).bind (fun w => run w os) = some w) (o : Op)
    (ht : o.Typed) (ho : specStep m q o = none) :
    step w o = none ∨ q = [] ∧ o.isSet = true ∧ ∃ w', step w o = some w' ∧ contents w' = [] ∧
      ∀ more r, specRun m [] more = some r → ∃ w'', run w' more = some w'' ∧ contents w'' = r := by
  obtain ⟨w0, e, i, c, hmax, _⟩ := new_ok hm hs
  obtain ⟨w', e', i', c', hmax'⟩ := run_ok os w0 q i (by rw [c, hmax]; exact h)
  rw [e, Option.bind_some, e', Option.some.injEq] at hw
  subst hw
  have hsz : w'.size = q.length := by rw [← c', contents_length]
  have later : ∀ {w1 : Win}, Inv w1 → contents w1 = [] → w1.max = m → ∀ more r, specRun m [] more = some r →
      ∃ w'', run w1 more = some w'' ∧ contents w'' = r := by
    intro w1 a1 a2 a3 more r hr
    obtain ⟨w2, b1, -, b2, -⟩ := run_ok more w1 r a1 (by rw [a2, a3]; exact hr)
    exact ⟨w2, b1, b2⟩
  have empty : ∀ {f : Nat → Nat}, setLast q f = none → q = [] := by
    intro f hf
    unfold setLast at hf
    cases hg : q.getLast? with
    | none => exact List.getLast?_eq_none_iff.mp hg
    | some x => rw [hg] at hf; cases hf
  cases o with
  | advanceCursor =>
    left
    unfold specStep at ho
    dsimp only at ho
    by_cases hq : q.length < m
    · rw [if_pos hq] at ho; cases ho
    · show advanceCursor w' = none
      unfold advanceCursor
      rw [check_neg (by rw [hsz, hmax', hmax]; omega), ob_none]
  | advanceStart =>
    left
    unfold specStep at ho
    dsimp only at ho
    by_cases hq : q = []
    · exact (C24_panics hm hs os q h (by rw [e, Option.bind_some, e'])).2 hq
    · rw [if_neg hq] at ho; cases ho
  | setByte v =>
    have hv : v < 256 := ht
    unfold specStep at ho
    dsimp only at ho
    rw [if_pos hv] at ho
    have hq := empty ho
    rcases set_empty i' (by rw [hsz, hq]; rfl) hv with hn | ⟨w1, a1, a2, a3, a4⟩
    · exact Or.inl hn
    · exact Or.inr ⟨hq, rfl, w1, a1, a3, later a2 a3 (by rw [a4, hmax', hmax])⟩
  | setBit b j =>
    unfold specStep at ho
    dsimp only at ho
    by_cases hj : j < 8
    · rw [if_pos hj] at ho
      have hq := empty ho
      by_cases hl : w'.cursor < w'.buffer.length
      · have hb : w'.buffer[w'.cursor]? = some w'.buffer[w'.cursor] := List.getElem?_eq_getElem hl
        have hlt := i'.bytes _ (List.getElem_mem hl)
        have hs : step w' (.setBit b j) = bufSet w' w'.cursor
            ((w'.buffer[w'.cursor] &&& (255 - 2 ^ j)) ||| wrapU8 (b.toNat * 2 ^ j)) := by
          show setBitAtCursor w' b j = _
          unfold setBitAtCursor
          rw [hb, ob_some, check_pos hj, ob_some]
        have hv : (w'.buffer[w'.cursor] &&& (255 - 2 ^ j)) ||| wrapU8 (b.toNat * 2 ^ j) < 256 := by
          refine Nat.or_lt_two_pow (n := 8) (lt_of_le_of_lt Nat.and_le_left hlt) ?_
          unfold wrapU8
          omega
        rcases set_empty i' (by rw [hsz, hq]; rfl) hv with hn | ⟨w1, a1, a2, a3, a4⟩
        · exact Or.inl (by rw [hs, hn])
        · exact Or.inr ⟨hq, rfl, w1, by rw [hs, a1], a3, later a2 a3 (by rw [a4, hmax', hmax])⟩
      · left
        show setBitAtCursor w' b j = none
        unfold setBitAtCursor
        rw [List.getElem?_eq_none (by omega), ob_none]
    · left
      show setBitAtCursor w' b j = none
      unfold setBitAtCursor
      cases w'.buffer[w'.cursor]? with
      | none => rfl
      | some x => rw [ob_some, check_neg hj, ob_none]

/-- both cases of the exception happen: a fresh window refuses to set a byte, one that has become empty does not -/
example : (winNew 3 0).bind (fun w => step w (.setByte 7)) = none ∧
    ((winNew 3 0).bind (fun w => run w [.advanceCursor, .advanceStart, .setByte 7, .advanceCursor])).map contents =
      some [0] := by decide +kernel

end Verif.Window
