import Verif.History.Spec
import Mathlib.Data.List.Forall2
import Mathlib.Data.List.Infix
import Mathlib.Data.Finset.Card
import Mathlib.Order.Interval.Finset.Nat

/-!
# Contexts occurring in a text: branching contexts and last occurrences

`P s i` says that the string `s` has been read from byte `i` on. A string is branching when both bits have
followed it.
-/

namespace Verif.Tree

abbrev Str := List Bool

/-! ## Prefixes -/

theorem snoc_of_prefix {r s : Str} (h : r <+: s) (hne : r ≠ s) : ∃ c, r ++ [c] <+: s := by
  obtain ⟨t, rfl⟩ := h
  cases t with
  | nil => simp at hne
  | cons c t => exact ⟨c, t, by simp⟩

theorem prefix_of_snoc {r s : Str} {c : Bool} (h : r ++ [c] <+: s) : r <+: s :=
  (List.prefix_append r [c]).trans h

theorem snoc_len {r s : Str} {c : Bool} (h : r ++ [c] <+: s) : r.length < s.length := by
  have := h.length_le
  rw [List.length_append, List.length_singleton] at this
  omega

theorem prefix_antisymm {r s : Str} (h : r <+: s) (h' : s <+: r) : r = s :=
  h.eq_of_length (Nat.le_antisymm h.length_le h'.length_le)

theorem snoc_bit {r s : Str} {c c' : Bool} (h : r ++ [c] <+: s) (h' : r ++ [c'] <+: s) : c = c' := by
  have := List.prefix_of_prefix_length_le h h' (by simp)
  have := this.eq_of_length (by simp)
  simpa using this

theorem prefix_cmp {r r' s : Str} (h : r <+: s) (h' : r' <+: s) : r <+: r' ∨ r' <+: r :=
  List.prefix_or_prefix_of_prefix h h'

/-- a strict prefix of a string goes on as the string does -/
theorem snoc_of_lt {r s t : Str} {c : Bool} (h : r ++ [c] <+: t) (h' : s <+: t) (hl : r.length < s.length) :
    r ++ [c] <+: s :=
  List.prefix_of_prefix_length_le h h' (by rw [List.length_append, List.length_singleton]; omega)

theorem bool_eq_or (b c : Bool) : c = b ∨ c = !b := by cases b <;> cases c <;> simp

/-- two strings are comparable or part somewhere -/
theorem part_or (s s' : Str) : s <+: s' ∨ s' <+: s ∨ ∃ r c, r ++ [c] <+: s ∧ r ++ [!c] <+: s' := by
  induction s generalizing s' with
  | nil => exact Or.inl List.nil_prefix
  | cons a s ih =>
    cases s' with
    | nil => exact Or.inr (Or.inl List.nil_prefix)
    | cons a' s' =>
      by_cases h : a = a'
      · subst h
        rcases ih s' with h | h | ⟨r, c, h1, h2⟩
        · exact Or.inl ((List.prefix_cons_inj a).mpr h)
        · exact Or.inr (Or.inl ((List.prefix_cons_inj a).mpr h))
        · exact Or.inr (Or.inr ⟨a :: r, c, (List.prefix_cons_inj a).mpr h1, (List.prefix_cons_inj a).mpr h2⟩)
      · refine Or.inr (Or.inr ⟨[], a, ⟨s, rfl⟩, ⟨s', ?_⟩⟩)
        have : (!a) = a' := by cases a <;> cases a' <;> simp_all
        rw [this]; rfl

/-! ## Texts -/

/-- the strings read at each byte -/
structure Sys (P : Str → Nat → Prop) : Prop where
  pre : ∀ {s r i}, P s i → r <+: s → P r i
  det : ∀ {s s' i}, P s i → P s' i → s.length ≤ s'.length → s <+: s'

variable {P P' : Str → Nat → Prop} {D : Nat}

/-- both bits have followed `s`, and `s` is not too long -/
def Br (P : Str → Nat → Prop) (D : Nat) (s : Str) : Prop := s.length ≤ D ∧ ∀ b, ∃ i, P (s ++ [b]) i

/-- `i` is the last place where `t` has been read -/
def Last (P : Str → Nat → Prop) (t : Str) (i : Nat) : Prop := P t i ∧ ∀ i', P t i' → i' ≤ i

/-- `s` has been read at `i`, and a bit after it -/
def Occ (P : Str → Nat → Prop) (s : Str) (i : Nat) : Prop := ∃ b, P (s ++ [b]) i

/-- the last occurrence -/
def LastOcc (P : Str → Nat → Prop) (s : Str) (i : Nat) : Prop := Occ P s i ∧ ∀ i', Occ P s i' → i' ≤ i

/-- the bits that have followed `s`, in order -/
def Flw (P : Str → Nat → Prop) (s : Str) (q : List Bool) : Prop :=
  ∃ l : List Nat, l.Pairwise (· < ·) ∧ (∀ i, i ∈ l ↔ Occ P s i) ∧ List.Forall₂ (fun i b => P (s ++ [b]) i) l q

/-- no branching string extends `s` -/
def NoBr (P : Str → Nat → Prop) (D : Nat) (s : Str) : Prop := ∀ r, Br P D r → ¬ s <+: r

/-- `t` is the shortest branching extension of `s` -/
def Least (P : Str → Nat → Prop) (D : Nat) (s t : Str) : Prop :=
  Br P D t ∧ s <+: t ∧ ∀ r, Br P D r → s <+: r → t <+: r

theorem Sys.bit (h : Sys P) {s : Str} {b c : Bool} {i : Nat} (h1 : P (s ++ [b]) i) (h2 : P (s ++ [c]) i) :
    b = c := snoc_bit (h.det h1 h2 (by simp)) (List.prefix_refl _)

theorem Sys.cmp (h : Sys P) {s s' : Str} {i : Nat} (h1 : P s i) (h2 : P s' i) : s <+: s' ∨ s' <+: s := by
  rcases Nat.le_total s.length s'.length with hl | hl
  · exact Or.inl (h.det h1 h2 hl)
  · exact Or.inr (h.det h2 h1 hl)

theorem Sys.occ_pre (h : Sys P) {s r : Str} {i : Nat} (h1 : Occ P s i) (hr : r <+: s) : Occ P r i := by
  obtain ⟨b, hb⟩ := h1
  by_cases he : r = s
  · subst he; exact ⟨b, hb⟩
  · obtain ⟨c, hc⟩ := snoc_of_prefix hr he
    exact ⟨c, h.pre hb (hc.trans (List.prefix_append _ _))⟩

theorem Sys.occ (h : Sys P) {s : Str} {i : Nat} (h1 : Occ P s i) : P s i := by
  obtain ⟨b, hb⟩ := h1
  exact h.pre hb (List.prefix_append _ _)

theorem Br.occ {s : Str} (h : Br P D s) : ∃ i, Occ P s i := by
  obtain ⟨i, hi⟩ := h.2 true
  exact ⟨i, true, hi⟩

/-- strings that part have a branching common prefix -/
theorem Sys.part (h : Sys P) {s s' t : Str} {i i' : Nat} (h1 : P s i) (h2 : P s' i') (ht : t <+: s)
    (ht' : t <+: s') (hD : s.length ≤ D + 1) :
    s <+: s' ∨ s' <+: s ∨ ∃ r, Br P D r ∧ t <+: r ∧ r <+: s ∧ r <+: s' ∧ r.length < s.length ∧
      r.length < s'.length := by
  rcases part_or s s' with hp | hp | ⟨r, c, hc, hc'⟩
  · exact Or.inl hp
  · exact Or.inr (Or.inl hp)
  · refine Or.inr (Or.inr ⟨r, ⟨?_, ?_⟩, ?_, prefix_of_snoc hc, prefix_of_snoc hc', snoc_len hc, snoc_len hc'⟩)
    · have := snoc_len hc; omega
    · intro b
      rcases bool_eq_or c b with rfl | rfl
      · exact ⟨i, h.pre h1 hc⟩
      · exact ⟨i', h.pre h2 hc'⟩
    · by_contra hn
      have hlt : r.length < t.length := by
        by_contra hge
        exact hn (List.prefix_of_prefix_length_le ht (prefix_of_snoc hc) (by omega))
      have := snoc_bit (snoc_of_lt hc ht hlt) (snoc_of_lt hc' ht' hlt)
      cases c <;> simp at this

/-- without branching extensions, all that is read after `t` is the same -/
theorem Sys.same (h : Sys P) {s s' t : Str} {i i' : Nat} (hn : NoBr P D t) (h1 : P s i) (h2 : P s' i')
    (ht : t <+: s) (ht' : t <+: s') (hD : s.length ≤ D + 1) : s <+: s' ∨ s' <+: s := by
  rcases h.part h1 h2 ht ht' hD with hp | hp | ⟨r, hr, hr', -⟩
  · exact Or.inl hp
  · exact Or.inr hp
  · exact absurd hr' (hn r hr)

/-- all that is read after `s` agrees with the shortest branching extension -/
theorem Sys.least_cmp (h : Sys P) {s t u : Str} {i : Nat} (hl : Least P D s t) (hu : P u i) (hs : s <+: u) :
    u <+: t ∨ t <+: u := by
  obtain ⟨i', hi'⟩ := hl.1.occ
  rcases h.part (D := D) (h.occ hi') hu hl.2.1 hs (by have := hl.1.1; omega) with hp | hp | ⟨r, hr, hr', hr'', -, hlt, -⟩
  · exact Or.inr hp
  · exact Or.inl hp
  · have := (hl.2.2 r hr hr').length_le
    omega

/-! ## One more bit read -/

/-- the bit `b` has been read after `s0` at `i0` -/
structure AddEv (P P' : Str → Nat → Prop) (s0 : Str) (b : Bool) (i0 : Nat) : Prop where
  iff : ∀ t i, P' t i ↔ P t i ∨ (t = s0 ++ [b] ∧ i = i0)
  lt : ∀ i, Occ P s0 i → i < i0

namespace AddEv

variable {s0 : Str} {b : Bool} {i0 : Nat}

theorem old (h : AddEv P P' s0 b i0) {t : Str} {i : Nat} (hp : P t i) : P' t i := (h.iff t i).mpr (Or.inl hp)

theorem new (h : AddEv P P' s0 b i0) : P' (s0 ++ [b]) i0 := (h.iff _ _).mpr (Or.inr ⟨rfl, rfl⟩)

theorem ne (h : AddEv P P' s0 b i0) {t : Str} {i : Nat} (hne : t ≠ s0 ++ [b]) : P' t i ↔ P t i := by
  rw [h.iff]
  constructor
  · rintro (hp | ⟨he, -⟩)
    · exact hp
    · exact absurd he hne
  · exact Or.inl

/-- nothing changes for other strings -/
theorem iff_ne (h : AddEv P P' s0 b i0) {s : Str} (hs : s ≠ s0) (c : Bool) (i : Nat) :
    P' (s ++ [c]) i ↔ P (s ++ [c]) i := by
  apply h.ne
  intro he
  exact hs (by simpa using (List.append_inj' he rfl).1)

theorem occ_ne (h : AddEv P P' s0 b i0) {s : Str} (hs : s ≠ s0) (i : Nat) : Occ P' s i ↔ Occ P s i := by
  unfold Occ
  constructor <;> rintro ⟨c, hc⟩ <;> exact ⟨c, by rwa [h.iff_ne hs] at *⟩

theorem last_ne (h : AddEv P P' s0 b i0) {s : Str} {c : Bool} (hs : s ++ [c] ≠ s0 ++ [b]) (i : Nat) :
    Last P' (s ++ [c]) i ↔ Last P (s ++ [c]) i := by
  unfold Last
  simp only [h.ne hs]

theorem lastOcc_ne (h : AddEv P P' s0 b i0) {s : Str} (hs : s ≠ s0) (i : Nat) :
    LastOcc P' s i ↔ LastOcc P s i := by
  unfold LastOcc
  simp only [h.occ_ne hs]

theorem flw_ne (h : AddEv P P' s0 b i0) {s : Str} (hs : s ≠ s0) (q : List Bool) : Flw P' s q ↔ Flw P s q := by
  unfold Flw
  simp only [h.occ_ne hs, h.iff_ne hs]

theorem last_new (h : AddEv P P' s0 b i0) : Last P' (s0 ++ [b]) i0 := by
  refine ⟨h.new, ?_⟩
  intro i hi
  rcases (h.iff _ _).mp hi with hp | ⟨-, rfl⟩
  · exact Nat.le_of_lt (h.lt i ⟨b, hp⟩)
  · exact Nat.le_refl _

theorem occ_iff (h : AddEv P P' s0 b i0) (i : Nat) : Occ P' s0 i ↔ Occ P s0 i ∨ i = i0 := by
  constructor
  · rintro ⟨c, hc⟩
    rcases (h.iff _ _).mp hc with hp | ⟨-, rfl⟩
    · exact Or.inl ⟨c, hp⟩
    · exact Or.inr rfl
  · rintro (⟨c, hc⟩ | rfl)
    · exact ⟨c, h.old hc⟩
    · exact ⟨b, h.new⟩

theorem flw_new (h : AddEv P P' s0 b i0) {q : List Bool} (hq : Flw P s0 q) : Flw P' s0 (q ++ [b]) := by
  obtain ⟨l, h1, h2, h3⟩ := hq
  refine ⟨l ++ [i0], ?_, ?_, ?_⟩
  · rw [List.pairwise_append]
    refine ⟨h1, List.pairwise_singleton _ _, ?_⟩
    intro a ha c hc
    rw [List.mem_singleton] at hc
    subst hc
    exact h.lt a ((h2 a).mp ha)
  · intro i
    rw [List.mem_append, h2, List.mem_singleton, h.occ_iff]
  · refine List.rel_append (h3.imp fun _ _ hp => h.old hp) ?_
    exact List.Forall₂.cons h.new List.Forall₂.nil

theorem br_ne (h : AddEv P P' s0 b i0) {s : Str} (hs : s ≠ s0) : Br P' D s ↔ Br P D s := by
  unfold Br
  simp only [h.iff_ne hs]

theorem br_mono (h : AddEv P P' s0 b i0) {s : Str} (hs : Br P D s) : Br P' D s :=
  ⟨hs.1, fun c => (hs.2 c).imp fun _ hp => h.old hp⟩

/-- when the new bit is nothing new, the branching strings stay the same -/
theorem br_same (h : AddEv P P' s0 b i0) (hs0 : Br P D s0 ∨ D < s0.length ∨ ∀ i, ¬ P (s0 ++ [!b]) i) (s : Str) :
    Br P' D s ↔ Br P D s := by
  by_cases hs : s = s0
  · subst hs
    refine ⟨fun hb => ?_, h.br_mono⟩
    rcases hs0 with h0 | h0 | h0
    · exact h0
    · have := hb.1; omega
    · obtain ⟨i, hi⟩ := hb.2 (!b)
      rw [h.ne (by intro he; have := (List.append_inj' he rfl).2; cases b <;> simp at this)] at hi
      exact absurd hi (h0 i)
  · exact h.br_ne hs

/-- when all bits before were the other one, one string becomes branching -/
theorem br_split (h : AddEv P P' s0 b i0) (hD : s0.length ≤ D) (h1 : ∃ i, P (s0 ++ [!b]) i) (s : Str) :
    Br P' D s ↔ Br P D s ∨ s = s0 := by
  by_cases hs : s = s0
  · subst hs
    refine ⟨fun _ => Or.inr rfl, fun _ => ⟨hD, ?_⟩⟩
    intro c
    rcases bool_eq_or b c with rfl | rfl
    · exact ⟨i0, h.new⟩
    · obtain ⟨i, hi⟩ := h1
      exact ⟨i, h.old hi⟩
  · rw [h.br_ne hs]
    simp [hs]

end AddEv

/-! ## Forgetting the oldest byte -/

/-- whatever was read at `lo` is forgotten -/
structure Drop (P P' : Str → Nat → Prop) (lo : Nat) : Prop where
  iff : ∀ t i, P' t i ↔ P t i ∧ i ≠ lo
  ge : ∀ t i, P t i → lo ≤ i

namespace Drop

variable {lo : Nat}

theorem occ_iff (h : Drop P P' lo) {s : Str} {i : Nat} : Occ P' s i ↔ Occ P s i ∧ i ≠ lo := by
  unfold Occ
  simp only [h.iff]
  constructor
  · rintro ⟨b, h1, h2⟩; exact ⟨⟨b, h1⟩, h2⟩
  · rintro ⟨⟨b, h1⟩, h2⟩; exact ⟨b, h1, h2⟩

theorem last (h : Drop P P' lo) {t : Str} {i : Nat} (hl : Last P t i) (hne : i ≠ lo) : Last P' t i :=
  ⟨(h.iff _ _).mpr ⟨hl.1, hne⟩, fun i' hi' => hl.2 i' ((h.iff _ _).mp hi').1⟩

theorem lastOcc (h : Drop P P' lo) {t : Str} {i : Nat} (hl : LastOcc P t i) (hne : i ≠ lo) : LastOcc P' t i :=
  ⟨h.occ_iff.mpr ⟨hl.1, hne⟩, fun i' hi' => hl.2 i' (h.occ_iff.mp hi').1⟩

theorem br (h : Drop P P' lo) {s : Str} (hb : Br P' D s) : Br P D s :=
  ⟨hb.1, fun c => (hb.2 c).imp fun _ hp => ((h.iff _ _).mp hp).1⟩

theorem flw (h : Drop P P' lo) {s : Str} {q : List Bool} (hq : Flw P s q) : ∃ q', Flw P' s q' ∧ q' <:+ q := by
  obtain ⟨l, h1, h2, h3⟩ := hq
  by_cases hl : Occ P s lo
  · cases h3 with
    | nil => exact absurd ((h2 lo).mpr hl) (by simp)
    | @cons a c l q ha hr =>
      rw [List.pairwise_cons] at h1
      have hlo : a = lo := by
        have hmem := (h2 lo).mpr hl
        rcases List.mem_cons.mp hmem with he | he
        · exact he.symm
        · have := h1.1 lo he
          have := h.ge _ _ ha
          omega
      subst hlo
      refine ⟨q, ⟨l, h1.2, ?_, ?_⟩, List.suffix_cons _ _⟩
      · intro i
        rw [h.occ_iff, ← h2, List.mem_cons]
        constructor
        · intro hi
          have := h1.1 i hi
          exact ⟨Or.inr hi, by omega⟩
        · rintro ⟨hi | hi, hne⟩
          · exact absurd hi hne
          · exact hi
      · have hall : ∀ i ∈ l, i ≠ a := fun i hi => by have := h1.1 i hi; omega
        clear h1 h2 ha hl
        induction hr with
        | nil => exact List.Forall₂.nil
        | cons hx _ ih =>
          exact List.Forall₂.cons ((h.iff _ _).mpr ⟨hx, hall _ (by simp)⟩)
            (ih (fun i hi => hall i (by simp [hi])))
  · refine ⟨q, ⟨l, h1, ?_, ?_⟩, List.suffix_refl _⟩
    · intro i
      rw [h.occ_iff, ← h2]
      refine ⟨fun hi => ⟨hi, ?_⟩, fun hi => hi.1⟩
      rintro rfl
      exact hl ((h2 _).mp hi)
    · have hall : ∀ i ∈ l, i ≠ lo := by rintro i hi rfl; exact hl ((h2 _).mp hi)
      clear h1 h2 hl
      induction h3 with
      | nil => exact List.Forall₂.nil
      | cons hx _ ih =>
        exact List.Forall₂.cons ((h.iff _ _).mpr ⟨hx, hall _ (by simp)⟩) (ih (fun i hi => hall i (by simp [hi])))

end Drop

theorem Flw.length_eq {s : Str} {q q' : List Bool} (h : Flw P s q) (h' : Flw P s q') (hs : Sys P) : q = q' := by
  obtain ⟨l, h1, h2, h3⟩ := h
  obtain ⟨l', h1', h2', h3'⟩ := h'
  have hl : l = l' := by
    apply List.Perm.eq_of_pairwise (le := (· < ·)) (by intro a b _ _ hab hba; omega) h1 h1'
    rw [List.perm_ext_iff_of_nodup]
    · intro a; rw [h2, h2']
    · exact h1.imp (fun hab => by omega)
    · exact h1'.imp (fun hab => by omega)
  subst hl
  clear h1 h2 h1' h2'
  induction h3 generalizing q' with
  | nil => cases h3'; rfl
  | cons hx _ ih =>
    cases h3' with
    | cons hx' hr' => rw [hs.bit hx hx', ih hr']

/-! ## At most as many branching strings as bytes -/

/-- the byte from which on both bits have followed `s` -/
def Turn (P : Str → Nat → Prop) (s : Str) (m : Nat) : Prop :=
  ∃ c, P (s ++ [c]) m ∧ (∀ i, P (s ++ [c]) i → m ≤ i) ∧ ∃ i, P (s ++ [!c]) i ∧ i < m

theorem turn_exists (h : Sys P) {s : Str} (hb : Br P D s) : ∃ m, Turn P s m := by
  classical
  have hmin : ∀ c, ∃ m, P (s ++ [c]) m ∧ ∀ i, P (s ++ [c]) i → m ≤ i := by
    intro c
    have hex := hb.2 c
    exact ⟨Nat.find hex, Nat.find_spec hex, fun i hi => Nat.find_min' hex hi⟩
  obtain ⟨m1, a1, a2⟩ := hmin true
  obtain ⟨m0, b1, b2⟩ := hmin false
  rcases Nat.lt_trichotomy m0 m1 with hlt | he | hlt
  · exact ⟨m1, true, a1, a2, m0, b1, hlt⟩
  · subst he
    have := h.bit a1 b1
    simp at this
  · exact ⟨m0, false, b1, b2, m1, a1, hlt⟩

theorem turn_inj (h : Sys P) {s s' : Str} {m : Nat} (h1 : Turn P s m) (h2 : Turn P s' m) : s = s' := by
  have key : ∀ {s s' : Str}, Turn P s m → Turn P s' m → s <+: s' → s = s' := by
    rintro s s' ⟨c, a1, a2, -⟩ ⟨c', b1, -, i, b3, b4⟩ hp
    by_contra hne
    obtain ⟨d, hd⟩ := snoc_of_prefix hp hne
    have e1 : P (s ++ [d]) m := h.pre b1 (hd.trans (List.prefix_append _ _))
    have e2 := h.bit a1 e1
    subst e2
    have := a2 i (h.pre b3 (hd.trans (List.prefix_append _ _)))
    omega
  obtain ⟨c, a1, -⟩ := id h1
  obtain ⟨c', b1, -⟩ := id h2
  rcases h.cmp (h.pre a1 (List.prefix_append _ _)) (h.pre b1 (List.prefix_append _ _)) with hp | hp
  · exact key h1 h2 hp
  · exact (key h2 h1 hp).symm

/-- distinct branching strings are at most as many as bytes but one -/
theorem br_count (h : Sys P) {lo n : Nat} (hr : ∀ t i, P t i → lo ≤ i ∧ i ≤ n) (l : List Str)
    (hd : l.Nodup) (hl : ∀ s ∈ l, Br P D s) : l.length ≤ n - lo := by
  classical
  have hex : ∀ s : Str, ∃ m, s ∈ l → Turn P s m := by
    intro s
    by_cases hs : s ∈ l
    · obtain ⟨m, hm⟩ := turn_exists h (hl s hs)
      exact ⟨m, fun _ => hm⟩
    · exact ⟨0, fun hh => absurd hh hs⟩
  choose g hg using hex
  have hsub : l.toFinset.card ≤ (Finset.Ioc lo n).card := by
    apply Finset.card_le_card_of_injOn g
    · intro s hs
      rw [Finset.mem_coe, List.mem_toFinset] at hs
      obtain ⟨c, a1, -, i, a2, a3⟩ := hg s hs
      have b1 := hr _ _ a1
      have b2 := hr _ _ a2
      rw [Finset.mem_coe, Finset.mem_Ioc]
      omega
    · intro s hs s' hs' he
      rw [Finset.mem_coe, List.mem_toFinset] at hs hs'
      have t2 := hg s' hs'
      rw [← he] at t2
      exact turn_inj h (hg s hs) t2
  rw [List.toFinset_card_of_nodup hd, Nat.card_Ioc] at hsub
  exact hsub

end Verif.Tree
