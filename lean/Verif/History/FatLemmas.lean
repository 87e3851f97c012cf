import Verif.History.GatherLemmas

/-!
# The hash map history source: lemmas

For each order `k` and each number `j` of bits of the byte in progress there is a map of buckets. Its
invariant says that the buckets hold exactly one item for each distinct context of that shape seen so far.
-/

namespace Verif.History

open Verif Verif.Window

/-- number of positions `i` with `8 * i + L < len` -/
def posCount (len L : Nat) : Nat := (len - L + 7) / 8

theorem lt_posCount {len L i : Nat} : i < posCount len L ↔ 8 * i + L < len := by
  unfold posCount; omega

/-- the `L` bits from byte `i` on -/
def sub (hist : List Bool) (L i : Nat) : List Bool := (hist.drop (8 * i)).take L

/-- the positions at which `key` occurs and is followed by a bit -/
def cls (hist : List Bool) (L : Nat) (key : List Bool) : List Nat :=
  (List.range (posCount hist.length L)).filter fun i => sub hist L i = key

theorem sub_append {hist : List Bool} {L i : Nat} (h : 8 * i + L ≤ hist.length) (more : List Bool) :
    sub (hist ++ more) L i = sub hist L i := by
  unfold sub
  rw [List.drop_append_of_le_length (by omega), List.take_append_of_le_length (by rw [List.length_drop]; omega)]

theorem mem_cls {hist : List Bool} {L i : Nat} {key : List Bool} :
    i ∈ cls hist L key ↔ 8 * i + L < hist.length ∧ sub hist L i = key := by
  unfold cls
  rw [List.mem_filter, List.mem_range, lt_posCount, decide_eq_true_iff]

/-- no new position of this shape -/
theorem cls_append_ne {hist : List Bool} {L : Nat} (key : List Bool) (b : Bool)
    (h : ∀ p, 8 * p + L ≠ hist.length) : cls (hist ++ [b]) L key = cls hist L key := by
  unfold cls
  have : posCount (hist ++ [b]).length L = posCount hist.length L := by
    rw [List.length_append, List.length_singleton]
    unfold posCount
    have := h ((hist.length - L) / 8)
    by_cases hL : L ≤ hist.length
    · omega
    · omega
  rw [this]
  apply List.filter_congr
  intro i hi
  rw [List.mem_range, lt_posCount] at hi
  rw [sub_append (by omega)]

/-- the new position -/
theorem cls_append_eq {hist : List Bool} {L p : Nat} (key : List Bool) (b : Bool)
    (h : 8 * p + L = hist.length) : cls (hist ++ [b]) L key =
      cls hist L key ++ if sub hist L p = key then [p] else [] := by
  unfold cls
  have e1 : posCount (hist ++ [b]).length L = p + 1 := by
    rw [List.length_append, List.length_singleton]
    unfold posCount; omega
  have e2 : posCount hist.length L = p := by unfold posCount; omega
  rw [e1, e2, List.range_succ, List.filter_append]
  congr 1
  · apply List.filter_congr
    intro i hi
    rw [List.mem_range] at hi
    rw [sub_append (by omega)]
  · rw [List.filter_singleton, sub_append (by omega)]
    by_cases hk : sub hist L p = key
    · simp [hk]
    · simp [hk]

/-- bits that followed -/
def clsBits (hist : List Bool) (L : Nat) (key : List Bool) : List Bool :=
  (cls hist L key).map fun i => hist.getD (8 * i + L) false

theorem clsBits_append_ne {hist : List Bool} {L : Nat} (key : List Bool) (b : Bool)
    (h : ∀ p, 8 * p + L ≠ hist.length) : clsBits (hist ++ [b]) L key = clsBits hist L key := by
  unfold clsBits
  rw [cls_append_ne key b h]
  apply List.map_congr_left
  intro i hi
  rw [mem_cls] at hi
  rw [List.getD_append _ _ _ _ (by omega)]

theorem clsBits_append_eq {hist : List Bool} {L p : Nat} (key : List Bool) (b : Bool)
    (h : 8 * p + L = hist.length) : clsBits (hist ++ [b]) L key =
      clsBits hist L key ++ if sub hist L p = key then [b] else [] := by
  unfold clsBits
  rw [cls_append_eq key b h, List.map_append]
  congr 1
  · apply List.map_congr_left
    intro i hi
    rw [mem_cls] at hi
    rw [List.getD_append _ _ _ _ (by omega)]
  · by_cases hk : sub hist L p = key
    · simp only [hk, if_true, List.map_cons, List.map_nil]
      rw [List.getD_append_right _ _ _ _ (by omega), h, Nat.sub_self]
      rfl
    · simp only [hk, if_false, List.map_nil]

/-- the invariant of the buckets of one shape: `L` is the length of the contexts in bits, `hf` the hash of
a context -/
structure BucketInv (P : List Bool → List Bool → Costs → Prop) (table : List Nat) (hist : List Bool) (L : Nat)
    (hf : List Bool → Nat) (bucket : Nat → List CtxState) : Prop where
  item : ∀ h, ∀ x ∈ bucket h, 8 * x.dist + L < hist.length ∧ hf (sub hist L x.dist) = h ∧
    (cls hist L (sub hist L x.dist)).getLastD 0 = x.dist ∧
    ∃ c, P (sub hist L x.dist) (clsBits hist L (sub hist L x.dist)) c ∧
      specState table x.dist (clsBits hist L (sub hist L x.dist)) c = some x
  uniq : ∀ h, (bucket h).Pairwise fun x y => sub hist L x.dist ≠ sub hist L y.dist
  full : ∀ i, 8 * i + L < hist.length → ∃ x ∈ bucket (hf (sub hist L i)), sub hist L x.dist = sub hist L i

theorem BucketInv.nil (P : List Bool → List Bool → Costs → Prop) (table : List Nat) (L : Nat) (hf : List Bool → Nat) :
    BucketInv P table [] L hf (fun _ => []) :=
  ⟨by intro h x hx; simp at hx, by intro h; exact List.Pairwise.nil, by intro i hi; simp at hi⟩

/-- a bit that adds no position of this shape changes nothing -/
theorem BucketInv.other {P : List Bool → List Bool → Costs → Prop} {table : List Nat} {hist : List Bool} {L : Nat}
    {hf : List Bool → Nat} {bucket : Nat → List CtxState} (h : BucketInv P table hist L hf bucket) (b : Bool)
    (hne : ∀ p, 8 * p + L ≠ hist.length) : BucketInv P table (hist ++ [b]) L hf bucket := by
  constructor
  · intro hh x hx
    obtain ⟨h1, h2, h3, c, hc, h4⟩ := h.item hh x hx
    rw [sub_append (by omega), cls_append_ne _ _ hne, clsBits_append_ne _ _ hne]
    exact ⟨by simp; omega, h2, h3, c, hc, h4⟩
  · intro hh
    refine (h.uniq hh).imp_of_mem ?_
    intro x y hx hy hxy
    obtain ⟨h1, -⟩ := h.item hh x hx
    obtain ⟨h2, -⟩ := h.item hh y hy
    rw [sub_append (by omega), sub_append (by omega)]
    exact hxy
  · intro i hi
    have hi' : 8 * i + L < hist.length := by
      rw [List.length_append, List.length_singleton] at hi
      have := hne i
      omega
    obtain ⟨x, hx, e⟩ := h.full i hi'
    obtain ⟨h1, -⟩ := h.item _ x hx
    refine ⟨x, by rw [sub_append (by omega)]; exact hx, ?_⟩
    rw [sub_append (by omega), sub_append (by omega)]
    exact e

/-- writing one bucket of one map -/
def setOne (bucket : Nat → List CtxState) (h : Nat) (v : List CtxState) : Nat → List CtxState :=
  fun h' => if h' = h then v else bucket h'

theorem specState_dist {table : List Nat} {d : Nat} {bits : List Bool} {c : Costs} {s : CtxState}
    (h : specState table d bits c = some s) : s.dist = d := by
  unfold specState at h
  by_cases h1 : bits = []
  · rw [if_pos h1] at h; simp at h
  · rw [if_neg h1] at h
    by_cases h2 : leadRun bits = bits.length
    · rw [if_pos h2, Option.some.injEq] at h
      subst h; rfl
    · rw [if_neg h2] at h
      obtain ⟨e, he⟩ := replay_some (capRun bits)
      rw [he, ob_some] at h
      cases ht : Log2.costForNewNode table (min (leadRun bits) 1000) with
      | none => rw [ht, ob_none] at h; simp at h
      | some t => rw [ht, ob_some, Option.some.injEq] at h; subst h; rfl

theorem specState_setDist {table : List Nat} {d d' : Nat} {bits : List Bool} {c : Costs} {s : CtxState}
    (h : specState table d bits c = some s) : specState table d' bits c = some (s.setDist d') := by
  unfold specState at h ⊢
  by_cases h1 : bits = []
  · rw [if_pos h1] at h; simp at h
  · rw [if_neg h1] at h ⊢
    by_cases h2 : leadRun bits = bits.length
    · rw [if_pos h2, Option.some.injEq] at h
      subst h
      rw [if_pos h2]; rfl
    · rw [if_neg h2] at h ⊢
      obtain ⟨e, he⟩ := replay_some (capRun bits)
      rw [he, ob_some] at h ⊢
      cases ht : Log2.costForNewNode table (min (leadRun bits) 1000) with
      | none => rw [ht, ob_none] at h; simp at h
      | some t =>
        rw [ht, ob_some, Option.some.injEq] at h
        subst h
        rw [ob_some]; rfl

/-- the context of the new position was seen before -/
theorem BucketInv.update {P : List Bool → List Bool → Costs → Prop} {table : List Nat} {hist : List Bool} {L p : Nat}
    {hf : List Bool → Nat} {bucket : Nat → List CtxState} (h : BucketInv P table hist L hf bucket) (b : Bool)
    (hp : 8 * p + L = hist.length) {pre post : List CtxState} {x x' : CtxState} {c : Costs}
    (hb : bucket (hf (sub hist L p)) = pre ++ x :: post) (hx : sub hist L x.dist = sub hist L p)
    (hc : P (sub hist L p) (clsBits hist L (sub hist L p) ++ [b]) c)
    (hx' : specState table p (clsBits hist L (sub hist L p) ++ [b]) c = some x') :
    BucketInv P table (hist ++ [b]) L hf (setOne bucket (hf (sub hist L p)) (pre ++ x' :: post)) := by
  have hmem : x ∈ bucket (hf (sub hist L p)) := by rw [hb]; simp
  obtain ⟨hx1, -⟩ := h.item _ x hmem
  have hd' : x'.dist = p := specState_dist hx'
  -- the other items belong to other contexts
  have hu := h.uniq (hf (sub hist L p))
  rw [hb] at hu
  have hother : ∀ y ∈ pre ++ post, sub hist L y.dist ≠ sub hist L p := by
    intro y hy
    rw [List.pairwise_append] at hu
    obtain ⟨-, h2, h3⟩ := hu
    rcases List.mem_append.mp hy with hy | hy
    · rw [← hx]; exact h3 y hy x (by simp)
    · rw [List.pairwise_cons] at h2
      rw [← hx]; exact fun e => h2.1 y hy e.symm
  have hkeep : ∀ hh, ∀ y ∈ bucket hh, sub hist L y.dist ≠ sub hist L p →
      8 * y.dist + L < (hist ++ [b]).length ∧ hf (sub (hist ++ [b]) L y.dist) = hh ∧
      (cls (hist ++ [b]) L (sub (hist ++ [b]) L y.dist)).getLastD 0 = y.dist ∧
      ∃ c, P (sub (hist ++ [b]) L y.dist) (clsBits (hist ++ [b]) L (sub (hist ++ [b]) L y.dist)) c ∧
        specState table y.dist (clsBits (hist ++ [b]) L (sub (hist ++ [b]) L y.dist)) c = some y := by
    intro hh y hy hne
    obtain ⟨h1, h2, h3, c, hc, h4⟩ := h.item hh y hy
    rw [sub_append (by omega), cls_append_eq _ _ hp, clsBits_append_eq _ _ hp,
      if_neg (fun e => hne e.symm), if_neg (fun e => hne e.symm), List.append_nil, List.append_nil]
    exact ⟨by simp; omega, h2, h3, c, hc, h4⟩
  constructor
  · intro hh y hy
    unfold setOne at hy
    by_cases he : hh = hf (sub hist L p)
    · rw [if_pos he] at hy
      have hcases : y = x' ∨ y ∈ pre ++ post := by
        simp only [List.mem_append, List.mem_cons] at hy ⊢; tauto
      rcases hcases with rfl | hy
      · rw [hd', sub_append (by omega), cls_append_eq _ _ hp, clsBits_append_eq _ _ hp, if_pos rfl, if_pos rfl]
        exact ⟨by simp; omega, he.symm, by rw [List.getLastD_concat], c, hc, hx'⟩
      · have hyb : y ∈ bucket hh := by
          rw [he, hb]; simp only [List.mem_append, List.mem_cons] at hy ⊢; tauto
        exact hkeep hh y hyb (hother y hy)
    · rw [if_neg he] at hy
      refine hkeep hh y hy ?_
      intro e
      obtain ⟨-, h2, -⟩ := h.item hh y hy
      rw [e] at h2
      exact he h2.symm
  · intro hh
    unfold setOne
    by_cases he : hh = hf (sub hist L p)
    · rw [if_pos he]
      have hin : ∀ y ∈ pre ++ post, sub (hist ++ [b]) L y.dist = sub hist L y.dist := by
        intro y hy
        have hyb : y ∈ bucket (hf (sub hist L p)) := by
          rw [hb]; simp only [List.mem_append, List.mem_cons] at hy ⊢; tauto
        obtain ⟨h1, -⟩ := h.item _ y hyb
        rw [sub_append (by omega)]
      have hpx : sub (hist ++ [b]) L x'.dist = sub hist L p := by rw [hd', sub_append (by omega)]
      rw [List.pairwise_append, List.pairwise_cons] at hu ⊢
      obtain ⟨h1, ⟨h2, h3⟩, h4⟩ := hu
      refine ⟨?_, ⟨?_, ?_⟩, ?_⟩
      · refine h1.imp_of_mem ?_
        intro y z hy hz hyz
        rw [hin y (by simp [hy]), hin z (by simp [hz])]; exact hyz
      · intro y hy
        rw [hpx, hin y (by simp [hy])]
        exact fun e => hother y (by simp [hy]) e.symm
      · refine h3.imp_of_mem ?_
        intro y z hy hz hyz
        rw [hin y (by simp [hy]), hin z (by simp [hz])]; exact hyz
      · intro y hy z hz
        rcases List.mem_cons.mp hz with rfl | hz
        · rw [hpx, hin y (by simp [hy])]
          exact hother y (by simp [hy])
        · rw [hin y (by simp [hy]), hin z (by simp [hz])]
          exact h4 y hy z (by simp [hz])
    · rw [if_neg he]
      refine (h.uniq hh).imp_of_mem ?_
      intro y z hy hz hyz
      obtain ⟨h1, -⟩ := h.item hh y hy
      obtain ⟨h2, -⟩ := h.item hh z hz
      rw [sub_append (by omega), sub_append (by omega)]
      exact hyz
  · intro i hi
    rw [List.length_append, List.length_singleton] at hi
    rw [sub_append (by omega)]
    by_cases hk : sub hist L i = sub hist L p
    · refine ⟨x', ?_, by rw [hd', sub_append (by omega), hk]⟩
      unfold setOne
      rw [if_pos (by rw [hk])]
      simp
    · have hi' : 8 * i + L < hist.length := by
        by_contra hc
        have : i = p := by omega
        rw [this] at hk; exact hk rfl
      obtain ⟨y, hy, e⟩ := h.full i hi'
      obtain ⟨h1, -⟩ := h.item _ y hy
      refine ⟨y, ?_, by rw [sub_append (by omega)]; exact e⟩
      unfold setOne
      by_cases he : hf (sub hist L i) = hf (sub hist L p)
      · rw [if_pos he]
        rw [he, hb] at hy
        have hne : y ≠ x := by
          intro e2; rw [e2, hx] at e; exact hk e.symm
        simp only [List.mem_append, List.mem_cons] at hy ⊢; tauto
      · rw [if_neg he]; exact hy

/-- the context of the new position is new -/
theorem BucketInv.insert {P : List Bool → List Bool → Costs → Prop} {table : List Nat} {hist : List Bool} {L p : Nat}
    {hf : List Bool → Nat} {bucket : Nat → List CtxState} (h : BucketInv P table hist L hf bucket) (b : Bool)
    (hp : 8 * p + L = hist.length)
    (hnone : ∀ x ∈ bucket (hf (sub hist L p)), sub hist L x.dist ≠ sub hist L p) (hP : Fresh P) :
    BucketInv P table (hist ++ [b]) L hf (setOne bucket (hf (sub hist L p))
      (bucket (hf (sub hist L p)) ++ [startingState p b])) := by
  have hcls : cls hist L (sub hist L p) = [] := by
    apply List.eq_nil_iff_forall_not_mem.mpr
    intro i hi
    rw [mem_cls] at hi
    obtain ⟨x, hx, e⟩ := h.full i hi.1
    rw [hi.2] at hx e
    exact hnone x hx e
  have hcb : clsBits hist L (sub hist L p) = [] := by unfold clsBits; rw [hcls]; rfl
  have hkeep : ∀ hh, ∀ y ∈ bucket hh,
      8 * y.dist + L < (hist ++ [b]).length ∧ hf (sub (hist ++ [b]) L y.dist) = hh ∧
      (cls (hist ++ [b]) L (sub (hist ++ [b]) L y.dist)).getLastD 0 = y.dist ∧
      ∃ c, P (sub (hist ++ [b]) L y.dist) (clsBits (hist ++ [b]) L (sub (hist ++ [b]) L y.dist)) c ∧
        specState table y.dist (clsBits (hist ++ [b]) L (sub (hist ++ [b]) L y.dist)) c = some y := by
    intro hh y hy
    obtain ⟨h1, h2, h3, c, hc, h4⟩ := h.item hh y hy
    have hne : sub hist L y.dist ≠ sub hist L p := by
      intro e
      rw [e] at h2
      rw [← h2] at hy
      exact hnone y hy e
    rw [sub_append (by omega), cls_append_eq _ _ hp, clsBits_append_eq _ _ hp,
      if_neg (fun e => hne e.symm), if_neg (fun e => hne e.symm), List.append_nil, List.append_nil]
    exact ⟨by simp; omega, h2, h3, c, hc, h4⟩
  constructor
  · intro hh y hy
    unfold setOne at hy
    by_cases he : hh = hf (sub hist L p)
    · rw [if_pos he] at hy
      rcases List.mem_append.mp hy with hy | hy
      · rw [← he] at hy; exact hkeep hh y hy
      · rw [List.mem_singleton] at hy
        subst hy
        change 8 * p + L < _ ∧ hf (sub (hist ++ [b]) L p) = hh ∧ (cls (hist ++ [b]) L (sub (hist ++ [b]) L p)).getLastD 0 = p ∧
          ∃ c, P (sub (hist ++ [b]) L p) (clsBits (hist ++ [b]) L (sub (hist ++ [b]) L p)) c ∧
            specState table p (clsBits (hist ++ [b]) L (sub (hist ++ [b]) L p)) c = some (startingState p b)
        rw [sub_append (by omega), cls_append_eq _ _ hp, clsBits_append_eq _ _ hp, if_pos rfl, if_pos rfl,
          hcls, hcb]
        obtain ⟨c, hc⟩ := hP (sub hist L p) ([] ++ [b]) (by simp)
        exact ⟨by simp; omega, he.symm, rfl, c, hc, rfl⟩
    · rw [if_neg he] at hy; exact hkeep hh y hy
  · intro hh
    have hsame : (bucket hh).Pairwise fun x y => sub (hist ++ [b]) L x.dist ≠ sub (hist ++ [b]) L y.dist := by
      refine (h.uniq hh).imp_of_mem ?_
      intro y z hy hz hyz
      obtain ⟨h1, -⟩ := h.item hh y hy
      obtain ⟨h2, -⟩ := h.item hh z hz
      rw [sub_append (by omega), sub_append (by omega)]
      exact hyz
    unfold setOne
    by_cases he : hh = hf (sub hist L p)
    · rw [if_pos he, ← he, List.pairwise_append]
      refine ⟨hsame, List.pairwise_singleton _ _, ?_⟩
      intro y hy z hz
      rw [List.mem_singleton] at hz
      subst hz
      obtain ⟨h1, -⟩ := h.item hh y hy
      change sub (hist ++ [b]) L y.dist ≠ sub (hist ++ [b]) L p
      rw [sub_append (by omega), sub_append (by omega)]
      rw [he] at hy
      exact hnone y hy
    · rw [if_neg he]; exact hsame
  · intro i hi
    rw [List.length_append, List.length_singleton] at hi
    rw [sub_append (by omega)]
    by_cases hk : 8 * i + L < hist.length
    · obtain ⟨y, hy, e⟩ := h.full i hk
      obtain ⟨h1, -⟩ := h.item _ y hy
      refine ⟨y, ?_, by rw [sub_append (by omega)]; exact e⟩
      unfold setOne
      by_cases he : hf (sub hist L i) = hf (sub hist L p)
      · rw [if_pos he, List.mem_append]; left; rw [← he]; exact hy
      · rw [if_neg he]; exact hy
    · have : i = p := by omega
      subst this
      refine ⟨startingState i b, ?_, ?_⟩
      · unfold setOne
        rw [if_pos rfl]; simp
      · change sub (hist ++ [b]) L i = _
        rw [sub_append (by omega)]

end Verif.History
