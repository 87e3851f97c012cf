import Verif.Tree.Inv
import Verif.History.CtxLemmas

/-!
# The input read so far, bit by bit and order by order; statistics
-/

namespace Verif.Tree

open Verif Verif.History

/-! ## The input -/

/-- `d` bits from byte `i` on -/
def seg (x : Nat → Bool) (i d : Nat) : Str := (List.range d).map fun r => x (8 * i + r)

/-- what is known when bytes `lo, …, n` are in the window, the first `L` bits have been read, and bit `L`
only by the suffixes starting before byte `lim` -/
def Known (x : Nat → Bool) (lo n L lim : Nat) (s : Str) (i : Nat) : Prop :=
  lo ≤ i ∧ i ≤ n ∧ seg x i s.length = s ∧ (8 * i + s.length ≤ L ∨ (8 * i + s.length = L + 1 ∧ i < lim))

/-- the context of order `m` in byte `n`, once `L` bits are known -/
def cs (x : Nat → Bool) (n L m : Nat) : Str := seg x (n - m) (L - 8 * (n - m))

variable {x : Nat → Bool} {lo n L lim : Nat}

@[simp] theorem seg_length (i d : Nat) : (seg x i d).length = d := by simp [seg]

theorem seg_succ (i d : Nat) : seg x i (d + 1) = seg x i d ++ [x (8 * i + d)] := by
  unfold seg
  rw [List.range_succ, List.map_append]
  rfl

theorem seg_take (i : Nat) {d d' : Nat} (h : d ≤ d') : (seg x i d').take d = seg x i d := by
  unfold seg
  rw [← List.map_take, List.take_range, Nat.min_eq_left h]

theorem seg_prefix (i : Nat) {d d' : Nat} (h : d ≤ d') : seg x i d <+: seg x i d' := by
  rw [← seg_take i h]
  exact List.take_prefix _ _

theorem seg_of_prefix {i : Nat} {r s : Str} (h : r <+: s) (hs : seg x i s.length = s) : seg x i r.length = r := by
  rw [← seg_take i h.length_le, hs]
  exact (List.prefix_iff_eq_take.mp h).symm

theorem seg_drop (i d : Nat) : (seg x i (d + 8)).drop 8 = seg x (i + 1) d := by
  apply List.ext_getElem
  · simp
  · intro k h1 h2
    simp only [seg, List.getElem_drop, List.getElem_map, List.getElem_range]
    congr 1; omega

theorem seg_snoc_iff {i : Nat} {s : Str} {b : Bool} :
    seg x i (s ++ [b]).length = s ++ [b] ↔ seg x i s.length = s ∧ x (8 * i + s.length) = b := by
  rw [List.length_append, List.length_singleton, seg_succ]
  constructor
  · intro h
    have := List.append_inj' h rfl
    exact ⟨this.1, by simpa using this.2⟩
  · rintro ⟨h1, h2⟩
    rw [h1, h2]

@[simp] theorem cs_length (m : Nat) : (cs x n L m).length = L - 8 * (n - m) := by simp [cs]

theorem cs_succ {m : Nat} (h : 8 * n ≤ L) : cs x n (L + 1) m = cs x n L m ++ [x L] := by
  unfold cs
  rw [show L + 1 - 8 * (n - m) = (L - 8 * (n - m)) + 1 by omega, seg_succ]
  congr 3; omega

theorem known_sys : Sys (Known x lo n L lim) := by
  constructor
  · rintro s r i ⟨h1, h2, h3, h4⟩ hr
    have := hr.length_le
    refine ⟨h1, h2, seg_of_prefix hr h3, ?_⟩
    by_cases he : r.length = s.length
    · rw [he]; exact h4
    · left; omega
  · rintro s s' i ⟨_, _, h3, _⟩ ⟨_, _, h3', _⟩ hl
    rw [← h3, ← h3']
    exact seg_prefix _ hl

theorem known_occ {s : Str} {i : Nat} : Occ (Known x lo n L lim) s i ↔
    lo ≤ i ∧ i ≤ n ∧ seg x i s.length = s ∧ (8 * i + s.length < L ∨ (8 * i + s.length = L ∧ i < lim)) := by
  constructor
  · rintro ⟨b, h1, h2, h3, h4⟩
    rw [List.length_append, List.length_singleton] at h4
    exact ⟨h1, h2, (seg_snoc_iff.mp h3).1, by omega⟩
  · rintro ⟨h1, h2, h3, h4⟩
    refine ⟨x (8 * i + s.length), h1, h2, seg_snoc_iff.mpr ⟨h3, rfl⟩, ?_⟩
    rw [List.length_append, List.length_singleton]
    omega

/-- reading bit `L` from byte `lim` on -/
theorem known_add (h1 : lo ≤ lim) (h2 : lim ≤ n) (h3 : 8 * n ≤ L) :
    AddEv (Known x lo n L lim) (Known x lo n L (lim + 1)) (seg x lim (L - 8 * lim)) (x L) lim := by
  constructor
  · intro t i
    constructor
    · rintro ⟨k1, k2, k3, k4⟩
      by_cases hi : i = lim ∧ 8 * i + t.length = L + 1
      · right
        obtain ⟨rfl, hi⟩ := hi
        refine ⟨?_, rfl⟩
        rw [← k3, show t.length = (L - 8 * i) + 1 by omega, seg_succ]
        congr 3; omega
      · exact Or.inl ⟨k1, k2, k3, by omega⟩
    · rintro (⟨k1, k2, k3, k4⟩ | ⟨rfl, rfl⟩)
      · exact ⟨k1, k2, k3, by omega⟩
      · refine ⟨h1, h2, seg_snoc_iff.mpr ⟨by simp, ?_⟩, ?_⟩
        · simp only [seg_length]; congr 1; omega
        · simp only [List.length_append, seg_length, List.length_singleton]; omega
  · intro i hi
    rw [known_occ] at hi
    simp only [seg_length] at hi
    omega

theorem known_next (hL : L ≤ 8 * n + 7) (s : Str) (i : Nat) :
    Known x lo n (L + 1) 0 (s) i ↔ Known x lo n L (n + 1) s i := by
  unfold Known
  constructor <;> rintro ⟨h1, h2, h3, h4⟩ <;> exact ⟨h1, h2, h3, by omega⟩

/-- starting a byte -/
theorem known_byte (s : Str) (c : Bool) (i : Nat) :
    Known x lo (n + 1) (8 * n + 8) 0 (s ++ [c]) i ↔ Known x lo n (8 * n + 8) 0 (s ++ [c]) i := by
  unfold Known
  rw [List.length_append, List.length_singleton]
  constructor <;> rintro ⟨h1, h2, h3, h4⟩ <;> exact ⟨h1, by omega, h3, by omega⟩

theorem known_drop : Drop (Known x lo n L 0) (Known x (lo + 1) n L 0) lo := by
  constructor
  · intro t i
    unfold Known
    constructor
    · rintro ⟨h1, h2, h3, h4⟩; exact ⟨⟨by omega, h2, h3, h4⟩, by omega⟩
    · rintro ⟨⟨h1, h2, h3, h4⟩, h5⟩; exact ⟨by omega, h2, h3, h4⟩
  · intro t i h; exact h.1

/-- `lim` does not matter below `lo` -/
theorem known_lim {lim lim' : Nat} (h : lim ≤ lo) (h' : lim' ≤ lo) (s : Str) (i : Nat) :
    Known x lo n L lim s i ↔ Known x lo n L lim' s i := by
  unfold Known
  constructor <;> rintro ⟨h1, h2, h3, h4⟩ <;> exact ⟨h1, h2, h3, by omega⟩

/-- every earlier reading of the context and the bit goes on -/
theorem known_closed {k i : Nat} (h : 8 * n ≤ L) (hk : k ≤ n)
    (hi : Known x lo n L (n - k) (cs x n L k ++ [x L]) i) :
    Occ (Known x lo n L (n - k)) (cs x n L k ++ [x L]) i := by
  rw [known_occ]
  obtain ⟨h1, h2, h3, h4⟩ := hi
  refine ⟨h1, h2, h3, ?_⟩
  simp only [List.length_append, cs_length, List.length_singleton] at h4 ⊢
  omega

/-- occurrences of a context are before it -/
theorem known_before {m i : Nat} (h : 8 * n ≤ L) (hm : m ≤ n) (hlim : lim ≤ n - m)
    (hi : Occ (Known x lo n L lim) (cs x n L m) i) : lo ≤ i ∧ i < n - m := by
  rw [known_occ, cs_length] at hi
  omega

theorem known_before' {m i : Nat} (h : 8 * n ≤ L) (hm : m ≤ n)
    (hi : Occ (Known x lo n L lim) (cs x n (L + 1) m) i) : lo ≤ i ∧ i < n - m := by
  rw [known_occ, cs_length] at hi
  omega

/-- an occurrence of a longer context is one of the shorter, a byte later -/
theorem known_shorter {k i : Nat} (h : 8 * n ≤ L) (hk : k + 1 ≤ n)
    (hi : Occ (Known x lo n L lim) (cs x n (L + 1) (k + 1)) i) :
    Known x lo n L (n - k) (cs x n L k ++ [x L]) (i + 1) := by
  have hb := known_before' h hk hi
  rw [known_occ] at hi
  obtain ⟨h1, h2, h3, h4⟩ := hi
  rw [← cs_succ h]
  refine ⟨by omega, by omega, ?_, ?_⟩
  · have h5 := congrArg (List.drop 8) h3
    unfold cs at h5 ⊢
    rw [seg_length, show L + 1 - 8 * (n - (k + 1)) = (L + 1 - 8 * (n - k)) + 8 by omega, seg_drop, seg_drop,
      show n - (k + 1) + 1 = n - k by omega] at h5
    rw [seg_length]
    exact h5
  · rw [cs_length] at h4 ⊢
    omega

/-! ## Counting -/

theorem flw_exists {P : Str → Nat → Prop} {s : Str} {l : List Nat} (h1 : l.Pairwise (· < ·))
    (h2 : ∀ i, i ∈ l ↔ Occ P s i) : ∃ q, Flw P s q ∧ q.length = l.length := by
  have key : ∀ l : List Nat, (∀ i ∈ l, Occ P s i) → ∃ q, List.Forall₂ (fun i b => P (s ++ [b]) i) l q := by
    intro l
    induction l with
    | nil => intro _; exact ⟨[], List.Forall₂.nil⟩
    | cons a l ih =>
      intro h
      obtain ⟨q, hq⟩ := ih (fun i hi => h i (List.mem_cons_of_mem _ hi))
      obtain ⟨b, hb⟩ := h a (by simp)
      exact ⟨b :: q, List.Forall₂.cons hb hq⟩
  obtain ⟨q, hq⟩ := key l (fun i hi => (h2 i).mp hi)
  exact ⟨q, ⟨l, h1, h2, hq⟩, hq.length_eq.symm⟩

/-- the occurrences of `s` followed by `b` -/
theorem flw_child {P : Str → Nat → Prop} (hs : Sys P) {s : Str} {b : Bool} {q : List Bool} (hq : Flw P s q)
    (hcl : ∀ i, P (s ++ [b]) i → Occ P (s ++ [b]) i) :
    ∃ q1, Flw P (s ++ [b]) q1 ∧ q1.length = q.count b := by
  obtain ⟨l, h1, h2, h3⟩ := hq
  have key : ∃ l1 : List Nat, l1.Sublist l ∧ (∀ i, i ∈ l1 ↔ i ∈ l ∧ P (s ++ [b]) i) ∧ l1.length = q.count b := by
    clear h1 h2
    induction h3 with
    | nil => exact ⟨[], List.Sublist.refl _, by simp, rfl⟩
    | @cons a c l q hc _ ih =>
      obtain ⟨l1, k1, k2, k3⟩ := ih
      by_cases hcb : c = b
      · subst hcb
        refine ⟨a :: l1, k1.cons_cons _, ?_, ?_⟩
        · intro i
          rw [List.mem_cons, List.mem_cons, k2]
          constructor
          · rintro (rfl | ⟨m1, m2⟩)
            · exact ⟨Or.inl rfl, hc⟩
            · exact ⟨Or.inr m1, m2⟩
          · rintro ⟨rfl | m1, m2⟩
            · exact Or.inl rfl
            · exact Or.inr ⟨m1, m2⟩
        · rw [List.length_cons, k3, List.count_cons_self]
      · refine ⟨l1, k1.cons _, ?_, ?_⟩
        · intro i
          rw [List.mem_cons, k2]
          constructor
          · rintro ⟨m1, m2⟩; exact ⟨Or.inr m1, m2⟩
          · rintro ⟨rfl | m1, m2⟩
            · exact absurd (hs.bit hc m2) hcb
            · exact ⟨m1, m2⟩
        · rw [k3, List.count_cons_of_ne hcb]
  obtain ⟨l1, k1, k2, k3⟩ := key
  obtain ⟨q1, e1, e2⟩ := flw_exists (P := P) (s := s ++ [b]) (h1.sublist k1) (by
    intro i
    rw [k2, h2]
    constructor
    · rintro ⟨-, m2⟩; exact hcl i m2
    · intro ho
      have := hs.occ ho
      exact ⟨⟨b, this⟩, this⟩)
  exact ⟨q1, e1, by rw [e2, k3]⟩

theorem flw_mem {P : Str → Nat → Prop} {s : Str} {q : List Bool} (hq : Flw P s q) {b : Bool} (hb : b ∈ q) :
    ∃ i, P (s ++ [b]) i := by
  obtain ⟨l, -, -, h⟩ := hq
  induction h with
  | nil => simp at hb
  | @cons a c l q hc _ ih =>
    rcases List.mem_cons.mp hb with rfl | hb
    · exact ⟨a, hc⟩
    · exact ih hb

theorem flw_mem' {P : Str → Nat → Prop} (hs : Sys P) {s : Str} {q : List Bool} (hq : Flw P s q) {b : Bool} {i : Nat}
    (hi : P (s ++ [b]) i) : b ∈ q := by
  obtain ⟨l, -, h2, h⟩ := hq
  have hm : i ∈ l := (h2 i).mpr ⟨b, hi⟩
  clear h2
  induction h with
  | nil => simp at hm
  | @cons a c l q hc _ ih =>
    rcases List.mem_cons.mp hm with rfl | hm
    · rw [hs.bit hi hc]; simp
    · exact List.mem_cons_of_mem _ (ih hm)

/-! ## Statistics -/

variable {P P' : Str → Nat → Prop} {ex : Prop} {Pc Pc' : Str → List Bool → Costs → Prop} {luts : Luts}

theorem mem_ne_nil {q : List Bool} {b : Bool} (h : b ∈ q) : ∃ b0 l, q = b0 :: l := by
  cases q with
  | nil => simp at h
  | cons b0 l => exact ⟨b0, l, rfl⟩

/-- a node reads a bit -/
theorem StatOk.update (hL : LutsOk luts) {s0 : Str} {b : Bool} {i0 : Nat} {nd : Node} {c : Costs}
    (h : StatOk P ex Pc luts.costs s0 nd) (ha : AddEv P P' s0 b i0) (hc : ∀ q c0, Pc s0 q c0 → (ex → Flw P s0 q) → Pc' s0 (q ++ [b]) c) :
    ∃ nd', updateOnNextBit luts nd b c = some nd' ∧ StatOk P' ex Pc' luts.costs s0 nd' ∧
      (∀ d, nd'.child d = nd.child d) ∧ nd'.depth = nd.depth ∧ nd'.textStart = nd.textStart := by
  obtain ⟨q, q0, c0, h1, h2, h3, h4, h5, h6, h7, h8, h9⟩ := h
  obtain ⟨b0, l, rfl⟩ := mem_ne_nil h4
  obtain ⟨t, t', e1, e2, e3, e4⟩ := specState_snoc hL 0 b0 l c0 0 b c
  rw [h7, Option.some.injEq] at e1
  subst e1
  unfold nextState at e3
  simp only [CtxState.isNode, if_true] at e3
  rw [ob_some] at e3
  cases hE : Est.decUpdate luts.rates nd.est b with
  | none => rw [hE, ob_none] at e3; simp at e3
  | some e =>
    rw [hE, ob_some] at e3
    cases hR : State.recentUpdated nd.recent b with
    | none => rw [hR, ob_none] at e3; simp at e3
    | some r =>
      rw [hR, ob_some] at e3
      cases hU : State.runsUpdated nd.runs b with
      | none => rw [hU, ob_none] at e3; simp at e3
      | some u =>
        rw [hU, ob_some, Option.some.injEq] at e3
        subst e3
        have hsuf : q0 ++ [b] <:+ b0 :: l ++ [b] := by
          obtain ⟨p, hp⟩ := h2
          exact ⟨p, by rw [← hp, List.append_assoc]⟩
        unfold updateOnNextBit countBit
        cases b with
        | true =>
          simp only [if_true]
          rw [u16_eq (by omega), ob_some, ob_some]
          dsimp only
          rw [hU, ob_some, hR, ob_some, hE, ob_some]
          refine ⟨_, rfl, ⟨_, _, c, ha.flw_new h1, hsuf, fun he => by rw [h3 he], by simp, ?_, hc _ _ h6 (fun he => h3 he ▸ h1), e4, ?_, ?_⟩, ?_,
            rfl, rfl⟩
          · rw [List.mem_append]; exact Or.inl h5
          · dsimp only
            rw [h8, List.count_append, List.count_singleton]; simp
          · dsimp only
            rw [h9, List.count_append, List.count_singleton]; simp only [beq_self_eq_true, if_true]; omega
          · intro d; cases d <;> rfl
        | false =>
          simp only [Bool.false_eq_true, if_false]
          rw [u16_eq (by omega), ob_some, ob_some]
          dsimp only
          rw [hU, ob_some, hR, ob_some, hE, ob_some]
          refine ⟨_, rfl, ⟨_, _, c, ha.flw_new h1, hsuf, fun he => by rw [h3 he], ?_, by simp, hc _ _ h6 (fun he => h3 he ▸ h1), e4, ?_, ?_⟩, ?_,
            rfl, rfl⟩
          · rw [List.mem_append]; exact Or.inl h4
          · dsimp only
            rw [h8, List.count_append, List.count_singleton]; simp only [beq_self_eq_true, if_true]; omega
          · dsimp only
            rw [h9, List.count_append, List.count_singleton]; simp
          · intro d; cases d <;> rfl

/-- the bits after a string that has not branched -/
theorem all_same {q : List Bool} {b : Bool} (h : b ∉ q) : q = List.replicate q.length (!b) := by
  apply List.eq_replicate_of_mem
  intro c hc
  rcases bool_eq_or b c with rfl | rfl
  · exact absurd hc h
  · rfl

/-- the first bit that differs makes a sequence whose cost trackers do not matter -/
theorem fresh_split (hPc : Fresh Pc) (s0 : Str) (b : Bool) {C : Nat} (hC : 1 ≤ C) :
    ∃ c, Pc s0 (List.replicate C (!b) ++ [b]) c :=
  hPc s0 (List.replicate C (!b) ++ [b]) (by
    rw [leadRun, headRun_replicate_append (by omega) (by cases b <;> simp), List.length_append, List.length_replicate,
      List.length_singleton])

/-- a new node -/
theorem StatOk.new (hL : LutsOk luts) {s0 : Str} {b : Bool} {i0 : Nat} {q0 : List Bool} {C : Nat}
    (hPc : ∃ c, Pc' s0 (List.replicate C (!b) ++ [b]) c)
    (hq : Flw P s0 q0) (hle : q0.length ≤ C) (hex : ex → q0.length = C) (hC : 1 ≤ C) (hb : b ∉ q0)
    (ha : AddEv P P' s0 b i0) :
    ∃ est cost runs recent, Est.cacheForNewNode luts.cache b (min 1000 C) = some est ∧
      Log2.costForNewNode luts.costs (min 1000 C) = some cost ∧
      State.runsForNewNode b (min 1000 C) = some runs ∧
      State.recentForNewNode b (min 1000 C) = some recent ∧
      recent ≠ 0 ∧
      ∀ nd : Node, nd.est = est → nd.costs = (cost, cost) → nd.runs = runs → nd.recent = recent →
        nd.leftCount = (if b then min 1000 C else 1) → nd.rightCount = (if b then 1 else min 1000 C) →
        StatOk P' ex Pc' luts.costs s0 nd := by
  obtain ⟨c, hc⟩ := hPc
  obtain ⟨t, t', e1, e2, e3, e4⟩ := specState_snoc hL 0 (!b) (List.replicate (C - 1) (!b)) c 0 b c
  have hrep : (!b) :: List.replicate (C - 1) (!b) = List.replicate C (!b) := by
    rw [← List.replicate_succ, Nat.sub_add_cancel hC]
  rw [hrep] at e1 e2 e4
  have ht : t = .edge 0 (min C 1000) (!b) := by
    unfold specState leadRun at e1
    rw [if_neg (by simp; omega), headRun_replicate, List.length_replicate, if_pos rfl, Option.some.injEq] at e1
    rw [← e1]
    congr 1
    rw [← hrep]; rfl
  subst ht
  unfold nextState at e3
  simp only [CtxState.isNode, Bool.false_eq_true, if_false] at e3
  rw [check_pos trivial, ob_some, if_neg (by cases b <;> simp), Nat.min_comm C 1000] at e3
  cases hE : Est.cacheForNewNode luts.cache b (min 1000 C) with
  | none => rw [hE, ob_none] at e3; simp at e3
  | some e =>
    rw [hE, ob_some] at e3
    cases hR : State.recentForNewNode b (min 1000 C) with
    | none => rw [hR, ob_none] at e3; simp at e3
    | some r =>
      rw [hR, ob_some] at e3
      cases hU : State.runsForNewNode b (min 1000 C) with
      | none => rw [hU, ob_none] at e3; simp at e3
      | some u =>
        rw [hU, ob_some] at e3
        cases hT : Log2.costForNewNode luts.costs (min 1000 C) with
        | none => rw [hT, ob_none] at e3; simp at e3
        | some tt =>
          rw [hT, ob_some, Option.some.injEq] at e3
          subst e3
          have hr0 : r ≠ 0 := by
            have h1 := (State.C18_constructors b (min 1000 C)).2
            rw [hR, Option.some.injEq] at h1
            rw [h1]
            unfold Bits.enc
            have := Nat.two_pow_pos (Bits.lastN 15 (List.replicate (min 1000 C) (!b) ++ [b])).length
            omega
          refine ⟨e, tt, u, r, rfl, rfl, rfl, rfl, hr0, ?_⟩
          intro nd n1 n2 n3 n4 n5 n6
          have hsame := all_same hb
          refine ⟨_, _, c, ha.flw_new hq, ?_, ?_, ?_, ?_, hc, by rw [e4, n1, n2, n3, n4], ?_, ?_⟩
          · refine ⟨List.replicate (C - q0.length) (!b), ?_⟩
            rw [← List.append_assoc]
            congr 1
            rw [hsame, List.replicate_append_replicate, List.length_replicate]
            congr 1; omega
          · intro he
            rw [hsame, hex he]
          · cases b <;> simp; omega
          · cases b <;> simp; omega
          · rw [n5]
            cases b <;> simp [List.count_replicate]
          · rw [n6]
            cases b <;> simp [List.count_replicate]

end Verif.Tree
