import Verif.Tree.Nodes
import Mathlib.Data.List.Nodup
import Mathlib.Data.List.Range
import Mathlib.Data.List.Perm.Subperm

/-!
# C33, C34: child encoding and node pool
-/

namespace Verif.Tree

open Verif Verif.History

/-! ## C33 -/

theorem i32AsUsize_nat {z : Int} (h : 0 ≤ z) (h' : z < 2 ^ 64) : i32AsUsize z = z.toNat := by
  unfold i32AsUsize; omega

/-- what a child value may stand for -/
inductive Child
  | leaf (i : Nat)
  | inner (i : Nat)
  deriving DecidableEq

/-- which children the code can represent: positions below `2^31` and node numbers from `1` to `2^31 - 1` -/
def Child.InRange : Child → Prop
  | .leaf i => i < 2 ^ 31
  | .inner i => 1 ≤ i ∧ i < 2 ^ 31

/-- encoding with the conversions of the source -/
def encodeChild : Child → Option Int
  | .leaf i => childOfWindow i
  | .inner i => childOfNode i

/-- decoding with the queries of the source -/
def decodeChild (c : Int) : Option Child :=
  if childIsValid c then
    if childIsWindow c then (childToWindow c).map .leaf else (childToNode c).map .inner
  else none

theorem childOfWindow_eq {i : Nat} (h : i < 2 ^ 31) : childOfWindow i = some (i : Int) := by
  unfold childOfWindow
  rw [check_pos (by omega), ob_some, wrapI32_eq (by omega)]

theorem childOfNode_eq {i : Nat} (h0 : 1 ≤ i) (h : i < 2 ^ 31) : childOfNode i = some (-(i : Int) - 1) := by
  unfold childOfNode
  rw [check_pos (by omega), ob_some, wrapI32_eq (by omega)]

theorem childToWindow_eq (i : Nat) (h : i < 2 ^ 31) : childToWindow (i : Int) = some i := by
  unfold childToWindow
  rw [check_pos (by omega), ob_some, i32AsUsize_nat (by omega) (by omega)]
  rfl

theorem childToNode_eq (i : Nat) (h : i < 2 ^ 31) : childToNode (-(i : Int) - 1) = some i := by
  unfold childToNode
  rw [check_pos (by omega), ob_some, i32AsUsize_nat (by omega) (by omega)]
  congr 1; omega

theorem childIsValid_node {i : Nat} (h0 : 1 ≤ i) (h : i < 2 ^ 31) : childIsValid (-(i : Int) - 1) = true := by
  unfold childIsValid
  rw [i32AsUsize_nat (by omega) (by omega)]
  simp; omega

theorem childIsValid_window (i : Nat) : childIsValid (i : Int) = true := by
  unfold childIsValid; simp

theorem childInvalid_not_valid : childIsValid childInvalid = false := by decide

/-- **C33.** Every child in range has an encoding that fits an `i32`; decoding it gives back the child;
different children have different encodings; no encoding is the invalid marker, which decodes to nothing;
and every other `i32` is the encoding of some child, except the two node numbers outside the range
(`-1`, the marker, and none else). Out of range children are rejected. -/
theorem C33_roundtrip :
    (∀ c : Child, c.InRange → ∃ v, encodeChild c = some v ∧ -2 ^ 31 ≤ v ∧ v < 2 ^ 31 ∧ v ≠ childInvalid ∧
      decodeChild v = some c) ∧
    (∀ c c' : Child, c.InRange → c'.InRange → encodeChild c = encodeChild c' → c = c') ∧
    (decodeChild childInvalid = none) ∧
    (∀ v : Int, -2 ^ 31 ≤ v → v < 2 ^ 31 → v ≠ childInvalid → ∃ c, Child.InRange c ∧ encodeChild c = some v) ∧
    (∀ c : Child, ¬ c.InRange → encodeChild c = none) := by
  have key : ∀ c : Child, c.InRange → ∃ v, encodeChild c = some v ∧ -2 ^ 31 ≤ v ∧ v < 2 ^ 31 ∧
      v ≠ childInvalid ∧ decodeChild v = some c := by
    intro c hc
    cases c with
    | leaf i =>
      have hi : i < 2 ^ 31 := hc
      refine ⟨i, childOfWindow_eq hi, by omega, by omega, by unfold childInvalid; omega, ?_⟩
      unfold decodeChild
      rw [if_pos (childIsValid_window i), if_pos (by simp [childIsWindow]), childToWindow_eq i hi]
      rfl
    | inner i =>
      obtain ⟨h0, hi⟩ := hc
      refine ⟨-(i : Int) - 1, childOfNode_eq h0 hi, by omega, by omega, by unfold childInvalid; omega, ?_⟩
      unfold decodeChild
      rw [if_pos (childIsValid_node h0 hi), if_neg (by simp [childIsWindow]; omega), childToNode_eq i hi]
      rfl
  refine ⟨key, ?_, ?_, ?_, ?_⟩
  · intro c c' hc hc' he
    obtain ⟨v, h1, -, -, -, h2⟩ := key c hc
    obtain ⟨v', h1', -, -, -, h2'⟩ := key c' hc'
    rw [h1, h1', Option.some.injEq] at he
    rw [he, h2', Option.some.injEq] at h2
    exact h2.symm
  · unfold decodeChild
    rw [if_neg (by simp [childInvalid_not_valid])]
  · intro v h1 h2 h3
    unfold childInvalid at h3
    by_cases hv : 0 ≤ v
    · refine ⟨.leaf v.toNat, by change v.toNat < 2 ^ 31; omega, ?_⟩
      change childOfWindow v.toNat = _
      rw [childOfWindow_eq (by omega)]
      congr 1; omega
    · refine ⟨.inner (-v - 1).toNat, by change 1 ≤ (-v - 1).toNat ∧ (-v - 1).toNat < 2 ^ 31; omega, ?_⟩
      change childOfNode (-v - 1).toNat = _
      rw [childOfNode_eq (by omega) (by omega)]
      congr 1; omega
  · intro c hc
    cases c with
    | leaf i =>
      have : ¬ i < 2 ^ 31 := hc
      change childOfWindow i = none
      unfold childOfWindow
      rw [check_neg (by omega), ob_none]
    | inner i =>
      have : ¬ (1 ≤ i ∧ i < 2 ^ 31) := hc
      change childOfNode i = none
      unfold childOfNode
      rw [check_neg (by omega), ob_none]

example : encodeChild (.inner 5) = some (-6) ∧ decodeChild (-6) = some (.inner 5) ∧
    decodeChild 7 = some (.leaf 7) ∧ encodeChild (.inner 0) = none := by decide

/-! ## C34 -/

/-- what a history of operations on a pool should have as live nodes: the number of the node given by the
pool to each added node, until it is deleted -/
abbrev Live := Nat → Option Node

/-- change of one entry -/
def Live.put (live : Live) (i : Nat) (v : Option Node) : Live := fun j => if j = i then v else live j

/-- The states reachable from a new pool with the given limit by any sequence of additions, deletions of
live nodes, replacements of live nodes and replacements of the root, together with the live nodes and their
number according to the results returned. -/
inductive History (cap : Nat) : Nodes → Live → Nat → Prop
  | new {s} : nodesNew cap = some s → History cap s (fun _ => none) 0
  | add {s live n s' c i} (x : Node) : History cap s live n → addNode s x = some (s', c) →
      childToNode c = some i → History cap s' (live.put i (some x)) (n + 1)
  | delete {s live n s' i} : History cap s live n → live i ≠ none → deleteNode s i = some s' →
      History cap s' (live.put i none) (n - 1)
  | update {s live n s' i} (x : Node) : History cap s live n → live i ≠ none → updateNode s i x = some s' →
      History cap s' (live.put i (some x)) n
  | root {s live n s'} (x : Node) : History cap s live n → updateNode s 0 x = some s' → History cap s' live n

/-- the list of deleted nodes as linked in the pool -/
def Chain (items : List Node) : Option Nat → List Nat → Prop
  | o, [] => o = none
  | o, i :: is => o = some i ∧ ∃ nd, items[i]? = some nd ∧ nd.left = childInvalid ∧
      ∃ o', nextDeleted nd.right = some o' ∧ Chain items o' is

/-- invariant of the pool -/
structure PoolInv (cap : Nat) (s : Nodes) (live : Live) (n : Nat) (free : List Nat) : Prop where
  scap : s.cap = cap
  len : 1 ≤ s.items.length ∧ s.items.length ≤ cap
  nodup : free.Nodup
  range : ∀ i ∈ free, 1 ≤ i ∧ i < s.items.length
  chain : Chain s.items s.lastDeleted free
  isLive : ∀ i, live i = if 1 ≤ i ∧ i ∉ free then s.items[i]? else none
  removed : s.removed = free.length
  count : n + free.length + 1 = s.items.length

theorem Chain.set {items : List Node} {x : Nat} {v : Node} : ∀ {o : Option Nat} {free : List Nat},
    Chain items o free → x ∉ free → Chain (items.set x v) o free := by
  intro o free
  induction free generalizing o with
  | nil => intro h _; exact h
  | cons i is ih =>
    rintro ⟨h1, nd, h2, h3, o', h4, h5⟩ hx
    simp only [List.mem_cons, not_or] at hx
    exact ⟨h1, nd, by rw [List.getElem?_set_ne hx.1]; exact h2, h3, o', h4, ih h5 hx.2⟩

theorem Chain.append {items : List Node} {l : List Node} : ∀ {o : Option Nat} {free : List Nat},
    Chain items o free → Chain (items ++ l) o free := by
  intro o free
  induction free generalizing o with
  | nil => intro h; exact h
  | cons i is ih =>
    rintro ⟨h1, nd, h2, h3, o', h4, h5⟩
    refine ⟨h1, nd, ?_, h3, o', h4, ih h5⟩
    have hlt : i < items.length := (List.getElem?_eq_some_iff.mp h2).1
    rw [List.getElem?_append_left hlt]; exact h2

variable {cap : Nat} {s : Nodes} {live : Live} {n : Nat} {free : List Nat}

theorem nodesGet_pos {s : Nodes} {i : Nat} (h : 1 ≤ i) : nodesGet s i = s.items[i]? := by
  unfold nodesGet
  cases s.items[i]? with
  | none => rfl
  | some nd => rw [ob_some, check_pos (Or.inl h), ob_some]

theorem pool_new (h0 : 1 ≤ cap) {s : Nodes} (h : nodesNew cap = some s) :
    PoolInv cap s (fun _ => none) 0 [] := by
  unfold nodesNew at h
  rw [check_pos h0, ob_some, Option.some.injEq] at h
  subst h
  refine ⟨rfl, ⟨by simp, by simpa using h0⟩, List.nodup_nil, by simp, rfl, ?_, rfl, rfl⟩
  intro i
  split
  · rename_i hi
    rw [List.getElem?_eq_none (by simp; omega)]
  · rfl

/-- the invariant determines the outcome of an addition -/
theorem pool_add (h : PoolInv cap s live n free) (hc : cap ≤ 2 ^ 31) (x : Node) :
    (n + 1 < cap → ∃ s' free', ∃ i : Nat, addNode s x = some (s', -(i : Int) - 1) ∧ 1 ≤ i ∧ i < cap ∧ live i = none ∧
      s'.items[0]? = s.items[0]? ∧
      PoolInv cap s' (live.put i (some x)) (n + 1) free') ∧
    (¬ n + 1 < cap → addNode s x = none) := by
  obtain ⟨h1, ⟨h2, h2'⟩, h3, h4, h5, h6, h7, h8⟩ := h
  unfold addNode
  cases free with
  | nil =>
    have hl : s.lastDeleted = none := h5
    rw [hl]
    dsimp only
    rw [check_pos (by rw [h7]; rfl), ob_some]
    simp only [List.length_nil, Nat.add_zero] at h8
    constructor
    · intro hn
      refine ⟨_, [], s.items.length, by
        rw [check_pos (by omega), ob_some, childOfNode_eq h2 (by omega), ob_some], h2, by omega, ?_, ?_, ?_⟩
      · rw [h6, List.getElem?_eq_none (by omega)]; simp
      · rw [List.getElem?_append_left (by omega)]
      · refine ⟨h1, ⟨by simp, by simp; omega⟩, List.nodup_nil, by simp, rfl, ?_, h7, by simp; omega⟩
        intro i
        unfold Live.put
        dsimp only
        by_cases hi : i = s.items.length
        · subst hi
          rw [if_pos rfl, if_pos ⟨h2, by simp⟩]
          simp
        · rw [if_neg hi, h6]
          by_cases hlt : i < s.items.length
          · rw [List.getElem?_append_left hlt]
          · rw [List.getElem?_eq_none (by omega), List.getElem?_eq_none (by simp; omega)]
    · intro hn
      rw [check_neg (by omega), ob_none]
  | cons i is =>
    obtain ⟨hl, nd, e1, e2, o', e3, e4⟩ := h5
    obtain ⟨r1, r2⟩ := h4 i (by simp)
    rw [List.nodup_cons] at h3
    rw [hl]
    dsimp only
    rw [List.length_cons] at h7 h8
    constructor
    · intro hn
      refine ⟨_, is, i, by
        rw [check_pos (by omega), ob_some, nodesGet_pos r1, e1, ob_some, check_pos (by
          rw [e2]; exact childInvalid_not_valid), ob_some, e3, ob_some]
        unfold updateNode
        dsimp only
        rw [check_pos r2, ob_some, ob_some, childOfNode_eq r1 (by omega), ob_some], r1, by omega, ?_, ?_, ?_⟩
      · rw [h6, if_neg (by simp)]
      · dsimp only; rw [List.getElem?_set_ne (by omega)]
      · refine ⟨h1, ⟨by simpa using h2, by simpa using h2'⟩, h3.2, ?_, ?_, ?_, ?_, ?_⟩
        · intro j hj
          have := h4 j (by simp [hj])
          simpa using this
        · exact e4.set h3.1
        · intro j
          unfold Live.put
          dsimp only
          by_cases hj : j = i
          · subst hj
            rw [if_pos rfl, if_pos ⟨r1, h3.1⟩, List.getElem?_set_self r2]
          · rw [if_neg hj, h6, List.getElem?_set_ne (Ne.symm hj)]
            simp [hj]
        · dsimp only; omega
        · simp; omega
    · intro hn
      omega

theorem pool_delete (h : PoolInv cap s live n free) (hc : cap ≤ 2 ^ 31) {i : Nat} (hi : live i ≠ none) :
    ∃ s', deleteNode s i = some s' ∧ s'.items[0]? = s.items[0]? ∧
      PoolInv cap s' (live.put i none) (n - 1) (i :: free) ∧ 0 < n := by
  obtain ⟨h1, ⟨h2, h2'⟩, h3, h4, h5, h6, h7, h8⟩ := h
  rw [h6] at hi
  have hi1 : 1 ≤ i ∧ i ∉ free := by
    by_contra hcon
    rw [if_neg hcon] at hi
    exact hi rfl
  rw [if_pos hi1] at hi
  have hlt : i < s.items.length := by
    by_contra hcon
    exact hi (List.getElem?_eq_none (by omega))
  -- a live node besides the free ones and the root
  have hcard : free.length + 2 ≤ s.items.length := by
    have hnd : (0 :: i :: free).Nodup := by
      rw [List.nodup_cons, List.nodup_cons]
      refine ⟨?_, hi1.2, h3⟩
      simp only [List.mem_cons, not_or]
      exact ⟨by omega, fun h0 => by have := (h4 0 h0).1; omega⟩
    have hsub : (0 :: i :: free) ⊆ List.range s.items.length := by
      intro j hj
      rw [List.mem_range]
      simp only [List.mem_cons] at hj
      rcases hj with rfl | rfl | hj
      · omega
      · exact hlt
      · exact (h4 j hj).2
    have := (hnd.subperm hsub).length_le
    simpa using this
  obtain ⟨link, hlink, hnext⟩ : ∃ link, deletedLink s = some link ∧ nextDeleted link = some s.lastDeleted := by
    unfold deletedLink
    cases free with
    | nil =>
      have hl : s.lastDeleted = none := h5
      rw [hl]
      exact ⟨_, rfl, by unfold nextDeleted; rw [if_neg (by simp [childInvalid_not_valid])]⟩
    | cons j js =>
      have hl : s.lastDeleted = some j := h5.1
      obtain ⟨r1, r2⟩ := h4 j (by simp)
      rw [hl]
      refine ⟨-(j : Int) - 1, childOfNode_eq r1 (by omega), ?_⟩
      unfold nextDeleted
      rw [if_pos (childIsValid_node r1 (by omega)), check_pos (by simp [childIsNode]; omega), ob_some,
        childToNode_eq j (by omega), ob_some]
  unfold deleteNode nodesSet
  rw [hlink, ob_some, nodesGet_pos hi1.1, List.getElem?_eq_getElem hlt, ob_some, ob_some,
    usize_eq (by dsimp only; omega), ob_some]
  refine ⟨_, rfl, ?_, ⟨h1, ⟨by simpa using h2, by simpa using h2'⟩, ?_, ?_, ?_, ?_, ?_, ?_⟩, by omega⟩
  · dsimp only; rw [List.getElem?_set_ne (by omega)]
  · rw [List.nodup_cons]; exact ⟨hi1.2, h3⟩
  · intro j hj
    rw [List.length_set]
    rcases List.mem_cons.mp hj with rfl | hj
    · exact ⟨hi1.1, hlt⟩
    · exact h4 j hj
  · refine ⟨rfl, _, List.getElem?_set_self hlt, rfl, _, hnext, ?_⟩
    exact h5.set hi1.2
  · intro j
    unfold Live.put
    dsimp only
    by_cases hj : j = i
    · subst hj
      rw [if_pos rfl, if_neg (by simp)]
    · rw [if_neg hj, h6, List.getElem?_set_ne (Ne.symm hj)]
      simp [hj]
  · dsimp only; rw [List.length_cons]; omega
  · rw [List.length_set, List.length_cons]; omega

theorem pool_update (h : PoolInv cap s live n free) {i : Nat} (hi : live i ≠ none) (x : Node) :
    ∃ s', updateNode s i x = some s' ∧ s'.items[0]? = s.items[0]? ∧
      PoolInv cap s' (live.put i (some x)) n free := by
  obtain ⟨h1, ⟨h2, h2'⟩, h3, h4, h5, h6, h7, h8⟩ := h
  rw [h6] at hi
  have hi1 : 1 ≤ i ∧ i ∉ free := by
    by_contra hcon
    rw [if_neg hcon] at hi
    exact hi rfl
  rw [if_pos hi1] at hi
  have hlt : i < s.items.length := by
    by_contra hcon
    exact hi (List.getElem?_eq_none (by omega))
  unfold updateNode
  rw [check_pos hlt, ob_some]
  refine ⟨_, rfl, ?_, h1, ⟨by simpa using h2, by simpa using h2'⟩, h3, ?_, h5.set hi1.2, ?_, h7, by simpa using h8⟩
  · dsimp only; rw [List.getElem?_set_ne (by omega)]
  · intro j hj
    simpa using h4 j hj
  · intro j
    unfold Live.put
    dsimp only
    by_cases hj : j = i
    · subst hj
      rw [if_pos rfl, if_pos hi1, List.getElem?_set_self hlt]
    · rw [if_neg hj, h6, List.getElem?_set_ne (Ne.symm hj)]

theorem pool_root (h : PoolInv cap s live n free) (x : Node) :
    ∃ s', updateNode s 0 x = some s' ∧ s'.items[0]? = some x ∧ PoolInv cap s' live n free := by
  obtain ⟨h1, ⟨h2, h2'⟩, h3, h4, h5, h6, h7, h8⟩ := h
  unfold updateNode
  rw [check_pos (by omega), ob_some]
  refine ⟨_, rfl, ?_, h1, ⟨by simpa using h2, by simpa using h2'⟩, h3, ?_,
    h5.set (fun h0 => by have := (h4 0 h0).1; omega), ?_, h7, by simpa using h8⟩
  · dsimp only; rw [List.getElem?_set_self (by omega)]
  · intro j hj
    simpa using h4 j hj
  · intro j
    rw [h6]
    by_cases hj : j = 0
    · subst hj; rw [if_neg (by omega), if_neg (by omega)]
    · dsimp only; rw [List.getElem?_set_ne (Ne.symm hj)]

/-- every reachable pool satisfies the invariant -/
theorem history_inv (h0 : 1 ≤ cap) (hc : cap ≤ 2 ^ 31) (h : History cap s live n) :
    ∃ free, PoolInv cap s live n free := by
  induction h with
  | new h => exact ⟨[], pool_new h0 h⟩
  | add x _ e1 e2 ih =>
    obtain ⟨free, hi⟩ := ih
    obtain ⟨ha, hb⟩ := pool_add hi hc x
    rename_i s live n s' c i _
    by_cases hn : n + 1 < cap
    · obtain ⟨s'', free', i', e, h1, h2, -, -, hp⟩ := ha hn
      rw [e, Option.some.injEq, Prod.mk.injEq] at e1
      obtain ⟨rfl, rfl⟩ := e1
      rw [childToNode_eq i' (by omega), Option.some.injEq] at e2
      subst e2
      exact ⟨free', hp⟩
    · rw [hb hn] at e1
      exact absurd e1 (by simp)
  | delete _ hl e ih =>
    obtain ⟨free, hi⟩ := ih
    obtain ⟨s'', e', -, hp, -⟩ := pool_delete hi hc hl
    rw [e, Option.some.injEq] at e'
    subst e'
    exact ⟨_, hp⟩
  | update x _ hl e ih =>
    obtain ⟨free, hi⟩ := ih
    obtain ⟨s'', e', -, hp⟩ := pool_update hi hl x
    rw [e, Option.some.injEq] at e'
    subst e'
    exact ⟨_, hp⟩
  | root x _ e ih =>
    obtain ⟨free, hi⟩ := ih
    obtain ⟨s'', e', -, hp⟩ := pool_root hi x
    rw [e, Option.some.injEq] at e'
    subst e'
    exact ⟨_, hp⟩

/-- **C34 (contents).** After every history the pool still holds every live node unchanged, and never
handed out the root. -/
theorem C34_contents (h0 : 1 ≤ cap) (hc : cap ≤ 2 ^ 31) (h : History cap s live n) (i : Nat) (x : Node)
    (hi : live i = some x) : nodesGet s i = some x ∧ 1 ≤ i ∧ i < cap := by
  obtain ⟨free, hp⟩ := history_inv h0 hc h
  have h6 := hp.isLive i
  rw [hi] at h6
  have hi1 : 1 ≤ i ∧ i ∉ free := by
    by_contra hcon
    rw [if_neg hcon] at h6
    simp at h6
  rw [if_pos hi1] at h6
  refine ⟨by rw [nodesGet_pos hi1.1, h6], hi1.1, ?_⟩
  have := (List.getElem?_eq_some_iff.mp h6.symm).1
  have := hp.len.2
  omega

/-- **C34 (add).** After every history, adding a node succeeds exactly if fewer than all slots are live
(the root occupies one); the number returned is not that of a live node. -/
theorem C34_add (h0 : 1 ≤ cap) (hc : cap ≤ 2 ^ 31) (h : History cap s live n) (x : Node) :
    (n + 1 < cap → ∃ s' c i, addNode s x = some (s', c) ∧ childToNode c = some i ∧ live i = none ∧
      1 ≤ i ∧ i < cap) ∧
    (¬ n + 1 < cap → addNode s x = none) := by
  obtain ⟨free, hp⟩ := history_inv h0 hc h
  obtain ⟨ha, hb⟩ := pool_add hp hc x
  refine ⟨fun hn => ?_, hb⟩
  obtain ⟨s', _, i, e, h1, h2, h3, -, -⟩ := ha hn
  exact ⟨s', _, i, e, childToNode_eq i (by omega), h3, h1, h2⟩

/-- **C34 (delete, update).** Live nodes can always be deleted and replaced. -/
theorem C34_delete (h0 : 1 ≤ cap) (hc : cap ≤ 2 ^ 31) (h : History cap s live n) (i : Nat)
    (hi : live i ≠ none) (x : Node) :
    (∃ s', deleteNode s i = some s') ∧ ∃ s', updateNode s i x = some s' := by
  obtain ⟨free, hp⟩ := history_inv h0 hc h
  obtain ⟨s', e, -⟩ := pool_delete hp hc hi
  obtain ⟨s'', e', -⟩ := pool_update hp hi x
  exact ⟨⟨s', e⟩, s'', e'⟩

theorem card_live (items : List Node) (free : List Nat) (hn : free.Nodup)
    (hr : ∀ i ∈ free, 1 ≤ i ∧ i < items.length) (hl : 1 ≤ items.length) :
    ((List.range items.length).filter fun i =>
      ((if 1 ≤ i ∧ i ∉ free then items[i]? else none) : Option Node).isSome).length + free.length + 1 =
      items.length := by
  have h1 : ((List.range items.length).filter fun i => decide (i ∈ 0 :: free)).length = (0 :: free).length := by
    apply List.Perm.length_eq
    rw [List.perm_ext_iff_of_nodup (List.nodup_range.filter _)]
    · intro a
      simp only [List.mem_filter, List.mem_range, decide_eq_true_eq, and_iff_right_iff_imp, List.mem_cons]
      rintro (rfl | ha)
      · omega
      · exact (hr a ha).2
    · rw [List.nodup_cons]
      exact ⟨fun h0 => by have := (hr 0 h0).1; omega, hn⟩
  have h2 := List.length_eq_length_filter_add (l := List.range items.length) (fun i => decide (i ∈ 0 :: free))
  rw [h1, List.length_range, List.length_cons] at h2
  have h3 : (List.range items.length).filter (fun i =>
      ((if 1 ≤ i ∧ i ∉ free then items[i]? else none) : Option Node).isSome) =
      (List.range items.length).filter fun i => !decide (i ∈ 0 :: free) := by
    apply List.filter_congr
    intro i hi
    rw [List.mem_range] at hi
    by_cases hc : 1 ≤ i ∧ i ∉ free
    · rw [if_pos hc, List.getElem?_eq_getElem hi]
      have : i ∉ 0 :: free := by
        simp only [List.mem_cons, not_or]; exact ⟨by omega, hc.2⟩
      rw [decide_eq_false this]
      rfl
    · rw [if_neg hc]
      have : i ∈ 0 :: free := by
        simp only [List.mem_cons]
        by_cases h0 : i = 0
        · exact Or.inl h0
        · right
          by_contra hh
          exact hc ⟨by omega, hh⟩
      rw [decide_eq_true this]
      rfl
  rw [h3]
  omega

theorem nodeIsValid_iff (x : Node) : nodeIsValid x = true ↔ x.left ≠ -1 ∧ x.right ≠ -1 := by
  unfold nodeIsValid childInvalid
  simp

/-- **C34 (count).** After every history the number of live nodes is the number of additions minus
deletions; it is what the pool reports (plus the root, once that is set), and it is below the limit. -/
theorem C34_count (h0 : 1 ≤ cap) (hc : cap ≤ 2 ^ 31) (h : History cap s live n) :
    n = ((List.range cap).filter fun i => (live i).isSome).length ∧ n < cap ∧
    ∃ root, s.items[0]? = some root ∧ liveCount s = some (if root.left ≠ -1 ∧ root.right ≠ -1 then n + 1 else 0) := by
  obtain ⟨free, hp⟩ := history_inv h0 hc h
  obtain ⟨h1, ⟨h2, h2'⟩, h3, h4, h5, h6, h7, h8⟩ := hp
  have hcard := card_live s.items free h3 h4 h2
  refine ⟨?_, by omega, s.items[0], List.getElem?_eq_getElem (by omega), ?_⟩
  · have hsplit : List.range cap = List.range s.items.length ++
        List.range' s.items.length (cap - s.items.length) := by
      have := List.range'_append_1 (s := 0) (m := s.items.length) (n := cap - s.items.length)
      rw [Nat.zero_add] at this
      rw [List.range_eq_range', List.range_eq_range', this]
      congr 1; omega
    rw [hsplit, List.filter_append]
    have hz : (List.range' s.items.length (cap - s.items.length)).filter (fun i => (live i).isSome) = [] := by
      rw [List.filter_eq_nil_iff]
      intro i hi
      have := (List.mem_range'_1.mp hi).1
      rw [h6]
      split
      · rw [List.getElem?_eq_none (by omega)]; simp
      · simp
    rw [hz, List.append_nil]
    have he : (List.range s.items.length).filter (fun i => (live i).isSome) =
        (List.range s.items.length).filter fun i =>
          ((if 1 ≤ i ∧ i ∉ free then s.items[i]? else none) : Option Node).isSome := by
      apply List.filter_congr
      intro i _
      rw [h6]
    rw [he]
    omega
  · unfold liveCount
    rw [List.getElem?_eq_getElem (by omega), ob_some]
    have hiff := nodeIsValid_iff s.items[0]
    by_cases hv : nodeIsValid s.items[0] = true
    · rw [if_pos hv, if_pos (hiff.mp hv), subU_eq (by omega)]
      congr 1; omega
    · rw [if_neg hv, if_neg (fun h => hv (hiff.mpr h))]

/-- **C34 (root).** The root can be read exactly if both of its children are set. -/
theorem C34_root (s : Nodes) (x : Node) (h : s.items[0]? = some x) :
    nodesGet s 0 = if x.left ≠ -1 ∧ x.right ≠ -1 then some x else none := by
  unfold nodesGet
  rw [h, ob_some]
  have hiff := nodeIsValid_iff x
  by_cases hv : nodeIsValid x = true
  · rw [check_pos (Or.inr hv), ob_some, if_pos (hiff.mp hv)]
  · rw [check_neg (by simp [hv]), ob_none, if_neg (fun h => hv (hiff.mpr h))]

/-- a concrete history: two additions, a deletion, an addition that reuses the slot, and a full pool -/
example : ∃ s1 s2 s3 s4, nodesNew 3 = some s1 ∧ addNode s1 nodeInvalid = some (s2, -2) ∧
    addNode s2 { nodeInvalid with depth := 5 } = some (s3, -3) ∧ addNode s3 nodeInvalid = none ∧
    deleteNode s3 1 = some s4 ∧ ∃ s5, addNode s4 { nodeInvalid with depth := 7 } = some (s5, -2) ∧
    nodesGet s5 2 = some { nodeInvalid with depth := 5 } := by
  refine ⟨_, _, _, _, rfl, rfl, rfl, rfl, rfl, _, rfl, rfl⟩

/-- Deleting the root breaks the pool: the next addition fails. -/
theorem C34_root_delete (x y : Node) (hx : x.left ≠ -1 ∧ x.right ≠ -1) :
    ∃ s s', nodesNew 9 = some s ∧ (updateNode s 0 x).bind (fun s => deleteNode s 0) = some s' ∧
      addNode s' y = none := by
  refine ⟨_, ?_, rfl, ?_, ?_⟩
  · exact ⟨[nodeInvalid], some 0, 1, 9⟩
  · change deleteNode ⟨[x], none, 0, 9⟩ 0 = _
    unfold deleteNode nodesSet nodesGet deletedLink
    rw [ob_some]
    change ((check (0 ≥ 1 ∨ nodeIsValid x = true) >>= fun _ => some x) >>= _) >>= _ = _
    rw [check_pos (Or.inr ((nodeIsValid_iff x).mpr hx))]
    rfl
  · rfl

end Verif.Tree
