import Verif.Tree.Walk

/-!
# Forgetting the oldest suffix
-/

namespace Verif.Tree

open Verif Verif.History Verif.Window

variable {P P' : Str → Nat → Prop} {D : Nat} {ex ex' : Prop} {Pc : Str → List Bool → Costs → Prop}
  {Ic : Nat → Nat → Prop} {table : List Nat}
  {N N' : Live} {str str' : Nat → Str} {luts : Luts} {ps : Nat → Nat}
  {x : Nat → Bool} {sh W lo n j m maxOrder cnt : Nat}

theorem InfoOk.of {ctx ctx' : Ctx} {s : Str} {I : Nat → Prop} (h : InfoOk P ex I ps ctx s) (h1 : ctx'.suffix = ctx.suffix)
    (h2 : ctx'.incoming = ctx.incoming) : InfoOk P ex I ps ctx' s := by
  unfold InfoOk at h ⊢
  rw [h1, h2]
  exact h

/-- an occurrence of a context is one of the next shorter, a byte later -/
theorem occ_shorter {i : Nat} (hm : lo + m + 1 ≤ n)
    (hi : Occ (Known x lo n (8 * n + 8) 0) (cs x n (8 * n + 8) (m + 1)) i) :
    Occ (Known x lo n (8 * n + 8) 0) (cs x n (8 * n + 8) m) (i + 1) := by
  rw [known_occ, cs_length] at hi
  rw [known_occ, cs_length]
  obtain ⟨h1, h2, h3, h4⟩ := hi
  refine ⟨by omega, by omega, ?_, by omega⟩
  have h5 := congrArg (List.drop 8) h3
  unfold cs at h5 ⊢
  rw [show 8 * n + 8 - 8 * (n - (m + 1)) = 8 * n + 8 - 8 * (n - m) + 8 by omega, seg_drop, seg_drop,
    show n - (m + 1) + 1 = n - m by omega] at h5
  exact h5

/-- the current suffix of the order of a context -/
theorem known_self (h : lo + m ≤ n) : Known x lo n (8 * n + 8) 0 (cs x n (8 * n + 8) m) (n - m) := by
  refine ⟨by omega, by omega, ?_, ?_⟩
  · rw [cs_length]; rfl
  · rw [cs_length]; omega

section

variable {ctxs : List Ctx}
  (hC : Contexts (Known x lo n (8 * n + 8) 0) x D maxOrder ex Ic ps N str lo n (8 * n + 8) ctxs)

include hC

theorem Contexts.lt {ctx : Ctx} (h : ctxs[m]? = some ctx) : m < ctxs.length := by
  by_contra hge
  rw [List.getElem?_eq_none (by omega)] at h; simp at h

/-- only the highest order may have been read by the oldest suffix alone -/
theorem Contexts.top {ctx : Ctx} (h : ctxs[m]? = some ctx)
    (hl : LastOcc (Known x lo n (8 * n + 8) 0) (cs x n (8 * n + 8) m) lo) : m + 1 = ctxs.length := by
  have hm := hC.lt h
  have hs := hC.size
  by_contra hne
  have hm' : m + 1 < ctxs.length := by omega
  obtain ⟨⟨i, hi, -⟩, -⟩ := hC.info (m + 1) _ (List.getElem?_eq_getElem hm')
  have h1 := hl.2 _ (occ_shorter (by omega) hi.1)
  have h2 := (known_occ.mp hi.1).1
  omega

/-- the contexts after the oldest suffix is forgotten -/
theorem Contexts.dropped (hex : ex' → False) {count : Nat} (hcount : count ≤ ctxs.length) (hlo : lo + 1 ≤ n)
    (f : Ctx → Ctx) (hf : ∀ ctx, (f ctx).suffix = ctx.suffix ∧ (f ctx).incoming = ctx.incoming)
    (hne : ∀ (m : Nat) ctx, ctxs[m]? = some ctx → m < count →
      ¬ LastOcc (Known x lo n (8 * n + 8) 0) (cs x n (8 * n + 8) m) lo)
    (hloc : ∀ (m : Nat) ctx, ctxs[m]? = some ctx → m < count →
      LocOk (Known x (lo + 1) n (8 * n + 8) 0) D N' str' (f ctx) (cs x n (8 * n + 8) m) ∧
      Settled (Known x (lo + 1) n (8 * n + 8) 0) D str' (f ctx))
    (hnone : ∀ m, count ≤ m → m < ctxs.length → ∀ i, Occ (Known x lo n (8 * n + 8) 0) (cs x n (8 * n + 8) m) i → i = lo)
    (hrt : ∀ p, RootText N p → RootText N' p) :
    Contexts (Known x (lo + 1) n (8 * n + 8) 0) x D maxOrder ex' Ic ps N' str' (lo + 1) n (8 * n + 8)
      ((ctxs.take count).map f) := by
  have hd := known_drop (x := x) (lo := lo) (n := n) (L := 8 * n + 8)
  have hlen := hC.len
  have hsize := hC.size
  have hget : ∀ (m : Nat) ctx, ((ctxs.take count).map f)[m]? = some ctx →
      m < count ∧ ∃ c, ctxs[m]? = some c ∧ ctx = f c := by
    intro m ctx h
    rw [List.getElem?_map, List.getElem?_take] at h
    split at h
    · cases hc : ctxs[m]? with
      | none => rw [hc] at h; simp at h
      | some c =>
        rw [hc, Option.map_some, Option.some.injEq] at h
        exact ⟨by assumption, c, rfl, h.symm⟩
    · simp at h
  have hinfo : ∀ (m : Nat) ctx, ctxs[m]? = some ctx → m < count →
      InfoOk (Known x (lo + 1) n (8 * n + 8) 0) ex' (Ic m) ps (f ctx) (cs x n (8 * n + 8) m) := by
    intro m ctx hm hlt
    refine ((hC.info m ctx hm).drop hd hex ?_).of (hf ctx).1 (hf ctx).2
    rintro i hi rfl
    exact hne m ctx hm hlt hi
  refine ⟨?_, ?_, ?_, ?_, ?_, ?_, hrt _ hC.root⟩
  · rw [List.length_map, List.length_take]; omega
  · rw [List.length_map, List.length_take, Nat.min_eq_left hcount]
    by_cases h0 : count = 0
    · omega
    · have hm : count - 1 < ctxs.length := by omega
      obtain ⟨⟨i, hi, -⟩, -⟩ := hinfo (count - 1) _ (List.getElem?_eq_getElem hm) (by omega)
      have := known_occ.mp hi.1
      rw [cs_length] at this
      omega
  · intro m ctx h
    obtain ⟨h1, c, h2, rfl⟩ := hget m ctx h
    exact (hloc m c h2 h1).1
  · intro m ctx h
    obtain ⟨h1, c, h2, rfl⟩ := hget m ctx h
    exact (hloc m c h2 h1).2
  · intro m ctx h
    obtain ⟨h1, c, h2, rfl⟩ := hget m ctx h
    exact hinfo m c h2 h1
  · intro m hm hmo hmn i hi
    rw [List.length_map, List.length_take, Nat.min_eq_left hcount] at hm
    rw [hd.occ_iff] at hi
    by_cases hml : m < ctxs.length
    · exact hi.2 (hnone m hm hml i hi.1)
    · exact hC.none m (by omega) hmo (by omega) i hi.1

end

theorem dropContexts_none {start c : Nat} : ∀ {l : List Ctx}, (∀ ctx ∈ l, ctx.suffix ≠ start) →
    dropContexts start l c = some c
  | [], _ => rfl
  | ctx :: l, h => by
    rw [dropContexts, if_neg (h ctx (by simp))]
    exact dropContexts_none (fun ctx' h' => h ctx' (List.mem_cons_of_mem _ h'))

/-- at most the context of the highest order is dropped -/
theorem dropContexts_ok {start : Nat} {ctxs : List Ctx}
    (h : ∀ (m : Nat) ctx, ctxs[m]? = some ctx → ctx.suffix = start → m + 1 = ctxs.length) :
    ∃ count, dropContexts start ctxs.reverse ctxs.length = some count ∧ count ≤ ctxs.length ∧
      (∀ (m : Nat) ctx, ctxs[m]? = some ctx → (m < count ↔ ctx.suffix ≠ start)) := by
  rcases List.eq_nil_or_concat ctxs with rfl | ⟨l, a, rfl⟩
  · exact ⟨0, rfl, le_refl _, fun m ctx h => by simp at h⟩
  · have hl : ∀ ctx ∈ l.reverse, ctx.suffix ≠ start := by
      intro ctx hctx he
      rw [List.mem_reverse] at hctx
      obtain ⟨m, hm⟩ := List.getElem?_of_mem hctx
      have hlt := (List.getElem?_eq_some_iff.mp hm).1
      have := h m ctx (by rw [List.concat_eq_append, List.getElem?_append_left hlt]; exact hm) he
      rw [List.concat_eq_append, List.length_append, List.length_singleton] at this
      omega
    have hget : ∀ (m : Nat) ctx, (l.concat a)[m]? = some ctx → (m < l.length ∧ ctx.suffix ≠ start) ∨ (m = l.length ∧ ctx = a) := by
      intro m ctx hm
      rw [List.concat_eq_append] at hm
      rcases Nat.lt_trichotomy m l.length with hlt | he | hgt
      · left
        rw [List.getElem?_append_left hlt] at hm
        exact ⟨hlt, hl ctx (by rw [List.mem_reverse]; exact List.mem_of_getElem? hm)⟩
      · right
        subst he
        simp at hm
        exact ⟨rfl, hm.symm⟩
      · rw [List.getElem?_eq_none (by simp; omega)] at hm; simp at hm
    rw [List.concat_eq_append, List.reverse_append, List.reverse_singleton, List.singleton_append, dropContexts,
      List.length_append, List.length_singleton, List.length_reverse]
    by_cases ha : a.suffix = start
    · rw [if_pos ha, subU_eq (by omega), ob_some, check_pos (by omega), ob_some]
      refine ⟨l.length, by rw [dropContexts_none hl]; congr 1, by omega, ?_⟩
      intro m ctx hm
      rw [← List.concat_eq_append] at hm
      rcases hget m ctx hm with ⟨h1, h2⟩ | ⟨h1, rfl⟩
      · exact ⟨fun _ => h2, fun _ => h1⟩
      · constructor
        · intro; omega
        · intro hh; exact absurd ha hh
    · rw [if_neg ha, dropContexts_none hl]
      refine ⟨_, rfl, le_refl _, ?_⟩
      intro m ctx hm
      rw [← List.concat_eq_append] at hm
      rcases hget m ctx hm with ⟨h1, h2⟩ | ⟨h1, rfl⟩
      · exact ⟨fun _ => h2, fun _ => by omega⟩
      · exact ⟨fun _ => ha, fun _ => by omega⟩

/-! ## The cases -/

section

variable {t : Tree} {ctxs : List Ctx} {f : Found}
  (hW : W ≤ 2 ^ 31) (hw : WinOk t.window x sh W lo (n + 1) (8 * n + 8))
  (hT : TreeOk t (Known x lo n (8 * n + 8) 0) (8 * maxOrder + 7) ex Pc luts.costs (pos sh W) (max 1 (W - 1)) N str cnt)
  (hC : Contexts (Known x lo n (8 * n + 8) 0) x (8 * maxOrder + 7) maxOrder ex Ic (pos sh W) N str lo n (8 * n + 8) ctxs)
  {nd : Node} {dir : Bool} {v : Nat}
  (hv : N v = some nd) (hlo : Known x lo n (8 * n + 8) 0 (str v ++ [dir]) lo)
  (hno : NoBr (Known x lo n (8 * n + 8) 0) (8 * maxOrder + 7) (str v ++ [dir]))

include hT hv in
omit hW hw hC hlo hno in
theorem two_bytes : lo + 1 ≤ n := by
  obtain ⟨i, hi⟩ := (hT.inv.node v nd hv).br.2 true
  obtain ⟨i', hi'⟩ := (hT.inv.node v nd hv).br.2 false
  have h1 := hi.1
  have h2 := hi.2.1
  have h3 := hi'.1
  have h4 := hi'.2.1
  by_contra hlt
  have he : i = i' := by omega
  subst he
  have := known_sys.bit hi hi'
  simp at this

include hw hT hC hv hlo hno in
/-- the leaf of the oldest suffix has been read later: contexts read by that suffix only are dropped -/
theorem remove_later (hex : ex' → False) (hlater : ∃ i, Known x lo n (8 * n + 8) 0 (str v ++ [dir]) i ∧ i ≠ lo) :
    ∃ count, dropContexts t.window.start ctxs.reverse ctxs.length = some count ∧ count ≤ ctxs.length ∧
      ProperOk luts x Pc Ic sh W maxOrder ex' (lo + 1) n (8 * n + 8) t (ctxs.take count) := by
  have hsys := known_sys (x := x) (lo := lo) (n := n) (L := 8 * n + 8) (lim := 0)
  have hd := known_drop (x := x) (lo := lo) (n := n) (L := 8 * n + 8)
  have h2 := two_bytes hT hv
  have hsuf : ∀ (m : Nat) ctx, ctxs[m]? = some ctx → (ctx.suffix = t.window.start ↔
      LastOcc (Known x lo n (8 * n + 8) 0) (cs x n (8 * n + 8) m) lo) := by
    intro m ctx hm
    obtain ⟨⟨i, hi, he⟩, -⟩ := hC.info m ctx hm
    have hr := known_occ.mp hi.1
    rw [he, hw.start]
    constructor
    · intro h
      have he2 : i = lo := hw.inj hr.1 hr.2.1 (le_refl _) (by omega) h
      rw [he2] at hi; exact hi
    · intro h
      congr 1
      exact Nat.le_antisymm (h.2 i hi.1) (hi.2 lo h.1)
  obtain ⟨count, e, hcl, hcount⟩ := dropContexts_ok (start := t.window.start) (ctxs := ctxs)
    (fun m ctx hm he => hC.top hm ((hsuf m ctx hm).mp he))
  have hbr := drop_br_same hT.inv hsys hd hv hlo hno hlater
  refine ⟨count, e, hcl, N, str, cnt, ⟨hT.proper, hT.rep, hT.inv.dropSame hsys hd hv hlo hno hex hlater⟩, ?_⟩
  rw [← List.map_id (ctxs.take count)]
  refine hC.dropped hex hcl h2 id (fun ctx => ⟨rfl, rfl⟩) ?_ ?_ ?_ (fun _ h => h)
  · intro m ctx hm hlt
    rw [← hsuf m ctx hm]
    exact (hcount m ctx hm).mp hlt
  · intro m ctx hm _
    exact ⟨(hC.loc m ctx hm).same hbr (fun v nd hv => ⟨nd, hv⟩), (hC.set m ctx hm).same hbr⟩
  · intro m hge hlt i hi
    have hm := List.getElem?_eq_getElem hlt
    have hs : ctxs[m].suffix = t.window.start := by
      by_contra hne
      have := (hcount m _ hm).mpr hne
      omega
    have h3 := ((hsuf m _ hm).mp hs).2 i hi
    have h4 := hi.choose_spec.1
    omega

variable (honly : ∀ i, Known x lo n (8 * n + 8) 0 (str v ++ [dir]) i → i = lo)

include hT hC hv hlo honly in
omit hW hw hno in
/-- then no context has been read by that suffix only -/
theorem remove_no_last {ctx : Ctx} (hm : ctxs[m]? = some ctx) :
    ¬ LastOcc (Known x lo n (8 * n + 8) 0) (cs x n (8 * n + 8) m) lo := by
  intro hl
  have hsys := known_sys (x := x) (lo := lo) (n := n) (L := 8 * n + 8) (lim := 0)
  have hlt := hC.lt hm
  have hs := hC.size
  have hself := known_self (x := x) (lo := lo) (n := n) (m := m) (by omega)
  have hpre : cs x n (8 * n + 8) m <+: str v := by
    rcases Nat.lt_or_ge (str v).length (cs x n (8 * n + 8) m).length with h | h
    · have h1 : str v ++ [dir] <+: cs x n (8 * n + 8) m := hsys.det hlo (hsys.occ hl.1)
        (by rw [List.length_append, List.length_singleton]; omega)
      have := honly _ (hsys.pre hself h1)
      omega
    · have h1 : cs x n (8 * n + 8) m <+: str v ++ [dir] := hsys.det (hsys.occ hl.1) hlo
        (by rw [List.length_append, List.length_singleton]; omega)
      exact List.prefix_of_prefix_length_le h1 (List.prefix_append _ _) h
  have hbr := (hT.inv.node v nd hv).br
  obtain ⟨i0, hi0⟩ := hbr.2 true
  obtain ⟨i1, hi1⟩ := hbr.2 false
  have e0 := hl.2 i0 (hsys.occ_pre ⟨_, hi0⟩ hpre)
  have e1 := hl.2 i1 (hsys.occ_pre ⟨_, hi1⟩ hpre)
  have g0 := hi0.1
  have g1 := hi1.1
  have : i0 = i1 := by omega
  subst this
  have := hsys.bit hi0 hi1
  simp at this

include hC honly in
omit hW hw hT hv hlo hno in
/-- no context is in the leaf -/
theorem remove_no_leaf {ctx : Ctx} (hm : ctxs[m]? = some ctx) (hpre : str v ++ [dir] <+: cs x n (8 * n + 8) m) :
    False := by
  have hlt := hC.lt hm
  have hs := hC.size
  have := honly _ (known_sys.pre (known_self (x := x) (lo := lo) (n := n) (m := m) (by omega)) hpre)
  omega

include hT hC hv hlo hno honly in
omit hW hw in
/-- contexts elsewhere stay where they are -/
theorem remove_other {ctx : Ctx} (hm : ctxs[m]? = some ctx) (hne : ctx.node ≠ v) {nd' : Node}
    (hN' : N' ctx.node = some nd') (hs' : str' ctx.node = str ctx.node) :
    LocOk (Known x (lo + 1) n (8 * n + 8) 0) (8 * maxOrder + 7) N' str' ctx (cs x n (8 * n + 8) m) ∧
      Settled (Known x (lo + 1) n (8 * n + 8) 0) (8 * maxOrder + 7) str' ctx := by
  have hsys := known_sys (x := x) (lo := lo) (n := n) (L := 8 * n + 8) (lim := 0)
  have hd := known_drop (x := x) (lo := lo) (n := n) (L := 8 * n + 8)
  have hbr := drop_br_less hT.inv hsys hd hv hlo hno honly
  obtain ⟨nc, h1, h2⟩ := hC.loc m ctx hm
  constructor
  · refine ⟨nd', hN', ?_⟩
    rw [hs']
    rcases h2 with ⟨h2, h3⟩ | ⟨h2, c, h3, h4, h5⟩
    · exact Or.inl ⟨h2, (hbr _).mpr ⟨h3.1, fun he => hne (hT.inv.inj _ _ _ _ h1 hv he)⟩, h3.2.1,
        fun r hr => h3.2.2 r (hd.br hr)⟩
    · exact Or.inr ⟨h2, c, h3, h4, fun r hr => h5 r (hd.br hr)⟩
  · intro h c hc
    rw [hs']
    exact (hC.set m ctx hm h c hc).drop hd

include hT hC hv hlo hno honly in
omit hW hw in
/-- contexts of the removed node when a node is left -/
theorem remove_here {ctx ctx' : Ctx} (hm : ctxs[m]? = some ctx) (he : ctx.node = v) {w : Nat} {nw : Node}
    (hle : Least (Known x lo n (8 * n + 8) 0) (8 * maxOrder + 7) (str v ++ [!dir]) (str w))
    (hN' : N' ctx'.node = some nw) (hs' : str' ctx'.node = str w) (hl : ctx.inLeaf = false → ctx'.inLeaf = false) :
    LocOk (Known x (lo + 1) n (8 * n + 8) 0) (8 * maxOrder + 7) N' str' ctx' (cs x n (8 * n + 8) m) ∧
      Settled (Known x (lo + 1) n (8 * n + 8) 0) (8 * maxOrder + 7) str' ctx' ∧ ctx.inLeaf = false := by
  have hsys := known_sys (x := x) (lo := lo) (n := n) (L := 8 * n + 8) (lim := 0)
  have hd := known_drop (x := x) (lo := lo) (n := n) (L := 8 * n + 8)
  obtain ⟨nc, h1, h2⟩ := hC.loc m ctx hm
  rcases h2 with ⟨h2, h3⟩ | ⟨h2, c, h3, h4, h5⟩
  · rw [he] at h3
    refine ⟨⟨nw, hN', Or.inl ⟨hl h2, ?_⟩⟩, ?_, h2⟩
    · rw [hs']
      exact drop_least hT.inv hsys hd hv hlo hno honly h3 hle
    · intro h; rw [hl h2] at h; simp at h
  · exfalso
    rw [he] at h4
    have hset := hC.set m ctx hm h2 c h3
    rw [he] at hset
    rcases bool_eq_or dir c with rfl | rfl
    · exact remove_no_leaf hC honly hm h4
    · exact hset _ hle.1 hle.2.1

/-- the text position of a node is the last place of the edge to it -/
theorem parent_text (hI : TInv P D ex Pc table ps N str) (hv : N v = some nd) {p : Nat} {np : Node} {d : Bool}
    (hp : N p = some np) (hc : np.child d = -(v : Int) - 1) :
    ∃ i, Last P (str p ++ [d]) i ∧ nd.textStart = ps i := by
  obtain ⟨i, hl, ⟨-, h⟩ | ⟨w, nw, h1, h2, h3, h4, h5⟩⟩ := (hI.node p np hp).child d
  · rw [hc] at h; omega
  · rw [hc] at h3
    have : w = v := by omega
    subst this
    rw [hv, Option.some.injEq] at h2
    subst h2
    exact ⟨i, hl, h5⟩

include hT hC hv hno honly in
omit hW hw hlo in
/-- without contexts at the node, the edge to it was last read with the bit that stays -/
theorem inactive_last {p : Nat} {np : Node} {d : Bool} (hp : N p = some np)
    (hle : Least (Known x lo n (8 * n + 8) 0) (8 * maxOrder + 7) (str p ++ [d]) (str v))
    (hina : ∀ (m : Nat) ctx, ctxs[m]? = some ctx → ctx.node ≠ v) {i : Nat}
    (hl : Last (Known x lo n (8 * n + 8) 0) (str v ++ [!dir]) i) :
    Last (Known x lo n (8 * n + 8) 0) (str p ++ [d]) i := by
  have hsys := known_sys (x := x) (lo := lo) (n := n) (L := 8 * n + 8) (lim := 0)
  refine ⟨hsys.pre hl.1 (hle.2.1.trans (List.prefix_append _ _)), ?_⟩
  intro i' hi'
  have hbr := (hT.inv.node v nd hv).br
  by_cases hlen : 8 * i' + (str v).length + 1 ≤ 8 * n + 8
  · -- the suffix goes on to the node
    have hu : Known x lo n (8 * n + 8) 0 (seg x i' ((str v).length + 1)) i' :=
      ⟨hi'.1, hi'.2.1, by rw [seg_length], by rw [seg_length]; omega⟩
    have hpre : str p ++ [d] <+: seg x i' ((str v).length + 1) := by
      rw [← hi'.2.2.1]
      exact seg_prefix _ (by have := hle.2.1.length_le; omega)
    have hvu : str v <+: seg x i' ((str v).length + 1) := by
      rcases hsys.least_cmp hle hu hpre with h | h
      · have := h.length_le; simp at this
      · exact h
    have hseg : seg x i' (str v).length = str v :=
      List.IsPrefix.eq_of_length (List.prefix_of_prefix_length_le (seg_prefix _ (by omega)) hvu (by simp)) (by simp)
    rw [seg_succ, hseg] at hu
    rcases bool_eq_or dir (x (8 * i' + (str v).length)) with h | h
    · rw [h] at hu
      have h1 := honly _ hu
      have h2 := hl.1.1
      omega
    · rw [h] at hu
      exact hl.2 _ hu
  · -- or it is a context on the edge
    exfalso
    have h1 := hi'.1
    have h2 := hi'.2.1
    obtain ⟨i0, hi0⟩ := hbr.occ
    have hi0' := known_occ.mp hi0
    have hD := hbr.1
    have hpl := hi'.2.2.2
    have hseg : seg x i' (8 * n + 8 - 8 * i') = cs x n (8 * n + 8) (n - i') := by
      unfold cs
      rw [show n - (n - i') = i' by omega]
    have hself : Known x lo n (8 * n + 8) 0 (seg x i' (8 * n + 8 - 8 * i')) i' :=
      ⟨h1, h2, by rw [seg_length], by rw [seg_length]; omega⟩
    have hpre : str p ++ [d] <+: seg x i' (8 * n + 8 - 8 * i') := by
      rw [← hi'.2.2.1]
      exact seg_prefix _ (by omega)
    have hsv : seg x i' (8 * n + 8 - 8 * i') <+: str v := by
      rcases hsys.least_cmp hle hself hpre with h | h
      · exact h
      · rw [h.eq_of_length (by have := h.length_le; rw [seg_length] at this ⊢; omega)]
    rw [hseg] at hpre hsv
    have hocc : Occ (Known x lo n (8 * n + 8) 0) (cs x n (8 * n + 8) (n - i')) i0 := hsys.occ_pre hi0 hsv
    have hml : n - i' < ctxs.length := by
      by_contra hge
      exact hC.none (n - i') (by omega) (by omega) (by omega) i0 hocc
    have hm := List.getElem?_eq_getElem hml
    obtain ⟨nc, k1, k2⟩ := hC.loc _ _ hm
    rcases k2 with ⟨k2, k3⟩ | ⟨k2, c, k3, k4, k5⟩
    · have e1 := k3.2.2 _ hbr hsv
      have e2 := hle.2.2 _ k3.1 (hpre.trans k3.2.1)
      exact hina _ _ hm (hT.inv.inj _ _ _ _ k1 hv (prefix_antisymm e1 e2))
    · exact hC.set _ _ hm k2 c k3 _ hbr (k4.trans hsv)

include hW hw hT hC hv hlo hno honly in
/-- an inactive node is replaced by its other child -/
theorem removeInactive_ok (hex : ex' → False) {p : Nat} {np : Node} {d : Bool} (hv1 : 1 ≤ v) (hp : N p = some np)
    (hle : Least (Known x lo n (8 * n + 8) 0) (8 * maxOrder + 7) (str p ++ [d]) (str v))
    (hina : ∀ (m : Nat) ctx, ctxs[m]? = some ctx → ctx.node ≠ v) (leaf : Nat) :
    ∃ t', removeInactive t ctxs ⟨some (p, d), v, dir, nd.child (!dir), leaf⟩ = some (t', ctxs) ∧
      t'.window = t.window ∧ ProperOk luts x Pc Ic sh W maxOrder ex' (lo + 1) n (8 * n + 8) t' ctxs := by
  have hsys := known_sys (x := x) (lo := lo) (n := n) (L := 8 * n + 8) (lim := 0)
  have hd := known_drop (x := x) (lo := lo) (n := n) (L := 8 * n + 8)
  have h2 := two_bytes hT hv
  have hpn := hT.inv.node p np hp
  have hpv : p ≠ v := by rintro rfl; exact least_ne hle
  obtain ⟨ns1, e1, r1⟩ := rep_set hT.rep hp (Or.inr hpn.valid) (np.setChild d (nd.child (!dir)))
  obtain ⟨ns2, e2, r2⟩ := rep_delete r1 (by omega) hv1 (by rw [put_ne _ _ (Ne.symm hpv)]; exact hv)
  unfold removeInactive
  dsimp only
  rw [check_pos hv1, ob_some, ob_some]
  dsimp only
  rw [rep_get hT.rep hp (Or.inr hpn.valid), ob_some, e1, ob_some, e2, ob_some]
  have hgetp : ((N.put p (some (np.setChild d (nd.child (!dir))))).put v none) p =
      some (np.setChild d (nd.child (!dir))) := by rw [put_ne _ _ hpv, put_self]
  have hget : ∀ u, u ≠ v → u ≠ p → ((N.put p (some (np.setChild d (nd.child (!dir))))).put v none) u = N u := by
    intro u k1 k2; rw [put_ne _ _ k1, put_ne _ _ k2]
  have hgetv : ((N.put p (some (np.setChild d (nd.child (!dir))))).put v none) v = none := put_self _ _ _
  have hrt : ∀ q, RootText N q → RootText ((N.put p (some (np.setChild d (nd.child (!dir))))).put v none) q :=
    fun q hq => (hq.keep hp (setChild_text _ _ _)).del hv1
  generalize hN' : (N.put p (some (np.setChild d (nd.child (!dir))))).put v none = N' at *
  have hlive : ∀ u nu, u ≠ v → N u = some nu → ∃ nu', N' u = some nu' := by
    intro u nu k1 k2
    by_cases he : u = p
    · rw [he]; exact ⟨_, hgetp⟩
    · exact ⟨nu, by rw [hget u k1 he]; exact k2⟩
  have hchild : ChildOk (Known x (lo + 1) n (8 * n + 8) 0) (8 * maxOrder + 7) (pos sh W) N' str (str p ++ [d])
      ((np.setChild d (nd.child (!dir))).child d) := by
    rw [child_setChild]
    obtain ⟨i, hl, hcc⟩ := (hT.inv.node v nd hv).child (!dir)
    have hl' := inactive_last hT hC hv hno honly hp hle hina hl
    refine ⟨i, drop_last hT.inv hsys hd hv hlo hno hpn.br
      (Or.inl (fun he => hpv (hT.inv.inj _ _ _ _ hp hv he))) hl', ?_⟩
    rcases hcc with ⟨k1, k2⟩ | ⟨w, nw, k1, k2, k3, k4, k5⟩
    · exact Or.inl ⟨drop_noBr hT.inv hsys hd hv hlo hno honly hle k1, k2⟩
    · refine Or.inr ⟨w, nw, k1, ?_, k3, drop_least hT.inv hsys hd hv hlo hno honly hle k4, k5⟩
      have hwv : w ≠ v := by rintro rfl; exact least_ne k4
      have hwp : w ≠ p := by
        rintro rfl
        have a1 := snoc_len k4.2.1
        have a2 := snoc_len hle.2.1
        omega
      rw [hget w hwv hwp]; exact k2
  have hI := hT.inv.remove hsys hd hv hlo hno hex honly hv1 hp hle hgetv hgetp (child_setChild_not _ _ _)
    (setChild_depth _ _ _) (setChild_text _ _ _) (hpn.stat.setChild _ _) hchild (by
      intro u nu k1 k2 k3
      have hn := hT.inv.node u nu k3
      exact ⟨nu, by rw [hget u k1 k2]; exact k3, fun c => rfl, rfl, hn.text, hn.stat, Or.inl rfl⟩) (by
      intro u hu
      by_cases he : u = p
      · rw [he, hp] at hu; simp at hu
      · by_cases he' : u = v
        · rw [he']; exact hgetv
        · rw [hget u he' he]; exact hu)
  refine ⟨_, rfl, rfl, N', str, _, ⟨hT.proper, r2, hI⟩, ?_⟩
  have hctx := hC.dropped (N' := N') (str' := str) hex (le_refl _) h2 id (fun ctx => ⟨rfl, rfl⟩)
    (fun m ctx hm _ => remove_no_last hT hC hv hlo honly hm)
    (fun m ctx hm _ => by
      obtain ⟨nc, k1, -⟩ := hC.loc m ctx hm
      obtain ⟨nu', k2⟩ := hlive _ _ (hina m ctx hm) k1
      exact remove_other hT hC hv hlo hno honly hm (hina m ctx hm) k2 rfl)
    (fun m h1 h2 => by omega) hrt
  rw [List.map_id, List.take_length] at hctx
  exact hctx

include hW hw hT hC hv hlo hno honly in
/-- an active node is replaced by its other child -/
theorem removeActive_ok (hex : ex' → False) {p : Nat} {np : Node} {d : Bool} (hv1 : 1 ≤ v) (hp : N p = some np)
    (hpc : np.child d = -(v : Int) - 1)
    (hle : Least (Known x lo n (8 * n + 8) 0) (8 * maxOrder + 7) (str p ++ [d]) (str v)) (leaf : Nat) :
    ∃ t' ctxs', removeActive t ctxs ⟨some (p, d), v, dir, nd.child (!dir), leaf⟩ = some (t', ctxs') ∧
      t'.window = t.window ∧ ProperOk luts x Pc Ic sh W maxOrder ex' (lo + 1) n (8 * n + 8) t' ctxs' := by
  have hsys := known_sys (x := x) (lo := lo) (n := n) (L := 8 * n + 8) (lim := 0)
  have hd := known_drop (x := x) (lo := lo) (n := n) (L := 8 * n + 8)
  have h2 := two_bytes hT hv
  have hpn := hT.inv.node p np hp
  have hvn := hT.inv.node v nd hv
  have hpv : p ≠ v := by rintro rfl; exact least_ne hle
  obtain ⟨iL, hiL, htext⟩ := parent_text hT.inv hv hp hpc
  have hiL' := drop_last hT.inv hsys hd hv hlo hno hpn.br
    (Or.inl (fun he => hpv (hT.inv.inj _ _ _ _ hp hv he))) hiL
  have hany : (ctxs.any fun ctx => ctx.node = v && ctx.dir = some dir && ctx.inLeaf) = false := by
    rw [List.any_eq_false]
    intro ctx hmem hcon
    obtain ⟨m, hm⟩ := List.getElem?_of_mem hmem
    simp only [Bool.and_eq_true, decide_eq_true_eq] at hcon
    obtain ⟨⟨a1, a2⟩, a3⟩ := hcon
    obtain ⟨nc, -, k2⟩ := hC.loc m ctx hm
    rcases k2 with ⟨k2, -⟩ | ⟨-, c, k3, k4, -⟩
    · rw [k2] at a3; simp at a3
    · rw [a2, Option.some.injEq] at k3
      rw [a1, ← k3] at k4
      exact remove_no_leaf hC honly hm k4
  unfold removeActive
  dsimp only
  rw [check_pos hv1, ob_some, check_pos hany, ob_some, ob_some]
  dsimp only
  obtain ⟨i, hl, hcc⟩ := hvn.child (!dir)
  rcases hcc with ⟨k1, k2⟩ | ⟨w, nw, k1, k2, k3, k4, k5⟩
  · -- a leaf is left
    rw [k2, if_pos (by simp [childIsWindow]), rep_get hT.rep hv (Or.inl hv1), ob_some, childOfWindow_eq hvn.text, ob_some,
      rep_get hT.rep hp (Or.inr hpn.valid), ob_some]
    obtain ⟨ns1, e1, r1⟩ := rep_set hT.rep hp (Or.inr hpn.valid) (np.setChild d ((nd.textStart : Nat) : Int))
    obtain ⟨ns2, e2, r2⟩ := rep_delete r1 (by omega) hv1 (by rw [put_ne _ _ (Ne.symm hpv)]; exact hv)
    rw [e1, ob_some, e2, ob_some]
    have hgetp : ((N.put p (some (np.setChild d ((nd.textStart : Nat) : Int)))).put v none) p =
        some (np.setChild d ((nd.textStart : Nat) : Int)) := by rw [put_ne _ _ hpv, put_self]
    have hget : ∀ u, u ≠ v → u ≠ p → ((N.put p (some (np.setChild d ((nd.textStart : Nat) : Int)))).put v none) u = N u := by
      intro u k1 k2; rw [put_ne _ _ k1, put_ne _ _ k2]
    have hgetv : ((N.put p (some (np.setChild d ((nd.textStart : Nat) : Int)))).put v none) v = none := put_self _ _ _
    have hrt : ∀ q, RootText N q → RootText ((N.put p (some (np.setChild d ((nd.textStart : Nat) : Int)))).put v none) q :=
      fun q hq => (hq.keep hp (setChild_text _ _ _)).del hv1
    generalize hN' : (N.put p (some (np.setChild d ((nd.textStart : Nat) : Int)))).put v none = N' at *
    have hnb := drop_noBr hT.inv hsys hd hv hlo hno honly hle k1
    have hchild : ChildOk (Known x (lo + 1) n (8 * n + 8) 0) (8 * maxOrder + 7) (pos sh W) N' str (str p ++ [d])
        ((np.setChild d ((nd.textStart : Nat) : Int)).child d) := by
      rw [child_setChild, htext]
      exact ⟨iL, hiL', Or.inl ⟨hnb, rfl⟩⟩
    have hI := hT.inv.remove hsys hd hv hlo hno hex honly hv1 hp hle hgetv hgetp (child_setChild_not _ _ _)
      (setChild_depth _ _ _) (setChild_text _ _ _) (hpn.stat.setChild _ _) hchild (by
        intro u nu k1 k2 k3
        have hn := hT.inv.node u nu k3
        exact ⟨nu, by rw [hget u k1 k2]; exact k3, fun c => rfl, rfl, hn.text, hn.stat, Or.inl rfl⟩) (by
        intro u hu
        by_cases he : u = p
        · rw [he, hp] at hu; simp at hu
        · by_cases he' : u = v
          · rw [he']; exact hgetv
          · rw [hget u he' he]; exact hu)
    refine ⟨_, _, rfl, rfl, N', str, _, ⟨hT.proper, r2, hI⟩, ?_⟩
    have hctx := hC.dropped (N' := N') (str' := str) hex (le_refl _) h2 (toLeaf v p d)
      (fun ctx => by unfold toLeaf; split <;> exact ⟨rfl, rfl⟩)
      (fun m ctx hm _ => remove_no_last hT hC hv hlo honly hm)
      (fun m ctx hm _ => by
        obtain ⟨nc, a1, a2⟩ := hC.loc m ctx hm
        unfold toLeaf
        by_cases he : ctx.node = v
        · rw [if_pos he]
          constructor
          · refine ⟨_, hgetp, Or.inr ⟨rfl, d, rfl, ?_, ?_⟩⟩
            · rcases a2 with ⟨-, a3⟩ | ⟨-, c, -, a4, -⟩
              · rw [he] at a3
                dsimp only
                have hlt : (str p).length < (cs x n (8 * n + 8) m).length := by
                  by_contra hge
                  have hpre : cs x n (8 * n + 8) m <+: str p :=
                    List.prefix_of_prefix_length_le a3.2.1 (prefix_of_snoc hle.2.1) (by omega)
                  have b1 := (a3.2.2 _ hpn.br hpre).length_le
                  have b2 := snoc_len hle.2.1
                  omega
                exact snoc_of_lt hle.2.1 a3.2.1 hlt
              · rw [he] at a4
                exact hle.2.1.trans (prefix_of_snoc a4)
            · intro r hr hp'
              exact absurd hp' (hnb r hr)
          · intro _ c hc
            dsimp only at hc
            rw [Option.some.injEq] at hc
            subst hc
            exact hnb
        · rw [if_neg he]
          have hlive : ∃ nu', N' ctx.node = some nu' := by
            by_cases he2 : ctx.node = p
            · rw [he2]; exact ⟨_, hgetp⟩
            · exact ⟨nc, by rw [hget _ he he2]; exact a1⟩
          obtain ⟨nu', b2⟩ := hlive
          exact remove_other hT hC hv hlo hno honly hm he b2 rfl)
      (fun m h1 h2 => by omega) hrt
    rw [List.take_length] at hctx
    exact hctx
  · -- a node is left
    have hwv : w ≠ v := by rintro rfl; exact least_ne k4
    have hwp : w ≠ p := by
      rintro rfl
      have a1 := snoc_len k4.2.1
      have a2 := snoc_len hle.2.1
      omega
    have hwc : w < 2 ^ 31 := lt_of_lt_of_le (rep_some hT.rep k2).2 (by omega)
    have hwin : childIsWindow (-(w : Int) - 1) = false := by simp [childIsWindow]; omega
    obtain ⟨ns0, e0, r0⟩ := rep_update hT.rep k2 { nw with textStart := nd.textStart }
    have hp0 : (N.put w (some { nw with textStart := nd.textStart })) p = some np := by
      rw [put_ne _ _ (Ne.symm hwp)]; exact hp
    obtain ⟨ns1, e1, r1⟩ := rep_set r0 hp0 (Or.inr hpn.valid) (np.setChild d (-(w : Int) - 1))
    obtain ⟨ns2, e2, r2⟩ := rep_delete r1 (by omega) hv1
      (by rw [put_ne _ _ (Ne.symm hpv), put_ne _ _ (Ne.symm hwv)]; exact hv)
    rw [k3, if_neg (by rw [hwin]; simp), childToNode_eq _ hwc, ob_some, rep_get hT.rep k2 (Or.inl k1), ob_some,
      rep_get hT.rep hv (Or.inl hv1), ob_some, e0, ob_some, rep_get r0 hp0 (Or.inr hpn.valid), ob_some, e1, ob_some, e2,
      ob_some]
    have hgetp : (((N.put w (some { nw with textStart := nd.textStart })).put p
        (some (np.setChild d (-(w : Int) - 1)))).put v none) p = some (np.setChild d (-(w : Int) - 1)) := by
      rw [put_ne _ _ hpv, put_self]
    have hgetw : (((N.put w (some { nw with textStart := nd.textStart })).put p
        (some (np.setChild d (-(w : Int) - 1)))).put v none) w = some { nw with textStart := nd.textStart } := by
      rw [put_ne _ _ hwv, put_ne _ _ hwp, put_self]
    have hget : ∀ u, u ≠ v → u ≠ p → u ≠ w → (((N.put w (some { nw with textStart := nd.textStart })).put p
        (some (np.setChild d (-(w : Int) - 1)))).put v none) u = N u := by
      intro u k1 k2 k3; rw [put_ne _ _ k1, put_ne _ _ k2, put_ne _ _ k3]
    have hgetv : (((N.put w (some { nw with textStart := nd.textStart })).put p
        (some (np.setChild d (-(w : Int) - 1)))).put v none) v = none := put_self _ _ _
    have hrt : ∀ q, RootText N q → RootText (((N.put w (some { nw with textStart := nd.textStart })).put p
        (some (np.setChild d (-(w : Int) - 1)))).put v none) q :=
      fun q hq => ((hq.put (fun h0 => by omega)).keep hp0 (setChild_text _ _ _)).del hv1
    generalize hN' : (((N.put w (some { nw with textStart := nd.textStart })).put p
        (some (np.setChild d (-(w : Int) - 1)))).put v none) = N' at *
    have hle' := drop_least hT.inv hsys hd hv hlo hno honly hle k4
    have hchild : ChildOk (Known x (lo + 1) n (8 * n + 8) 0) (8 * maxOrder + 7) (pos sh W) N' str (str p ++ [d])
        ((np.setChild d (-(w : Int) - 1)).child d) := by
      rw [child_setChild]
      exact ⟨iL, hiL', Or.inr ⟨w, _, k1, hgetw, rfl, hle', htext⟩⟩
    have hI := hT.inv.remove hsys hd hv hlo hno hex honly hv1 hp hle hgetv hgetp (child_setChild_not _ _ _)
      (setChild_depth _ _ _) (setChild_text _ _ _) (hpn.stat.setChild _ _) hchild (by
        intro u nu b1 b2 b3
        have hn := hT.inv.node u nu b3
        by_cases he : u = w
        · subst he
          rw [k2, Option.some.injEq] at b3
          subst b3
          exact ⟨_, hgetw, fun c => rfl, rfl, hvn.text, hn.stat.text _, Or.inr k4⟩
        · exact ⟨nu, by rw [hget u b1 b2 he]; exact b3, fun c => rfl, rfl, hn.text, hn.stat, Or.inl rfl⟩) (by
        intro u hu
        by_cases he : u = p
        · rw [he, hp] at hu; simp at hu
        · by_cases he' : u = v
          · rw [he']; exact hgetv
          · by_cases he'' : u = w
            · rw [he'', k2] at hu; simp at hu
            · rw [hget u he' he he'']; exact hu)
    refine ⟨_, _, rfl, rfl, N', str, _, ⟨hT.proper, r2, hI⟩, ?_⟩
    have hctx := hC.dropped (N' := N') (str' := str) hex (le_refl _) h2 (toSibling v w d)
      (fun ctx => by unfold toSibling; split <;> exact ⟨rfl, rfl⟩)
      (fun m ctx hm _ => remove_no_last hT hC hv hlo honly hm)
      (fun m ctx hm _ => by
        obtain ⟨nc, a1, a2⟩ := hC.loc m ctx hm
        unfold toSibling
        by_cases he : ctx.node = v
        · rw [if_pos he]
          have := remove_here (N' := N') (str' := str) (ctx' := { ctx with node := w, dir := some d, inLeaf := false })
            hT hC hv hlo hno honly hm he k4 hgetw rfl (fun _ => rfl)
          exact ⟨this.1, this.2.1⟩
        · rw [if_neg he]
          have hlive : ∃ nu', N' ctx.node = some nu' := by
            by_cases he2 : ctx.node = p
            · rw [he2]; exact ⟨_, hgetp⟩
            · by_cases he3 : ctx.node = w
              · rw [he3]; exact ⟨_, hgetw⟩
              · exact ⟨nc, by rw [hget _ he he2 he3]; exact a1⟩
          obtain ⟨nu', b2⟩ := hlive
          exact remove_other hT hC hv hlo hno honly hm he b2 rfl)
      (fun m h1 h2 => by omega) hrt
    rw [List.take_length] at hctx
    exact hctx

include hW hw hT hC hv hlo hno honly in
/-- the root is replaced by its other child, or there is no tree any more -/
theorem removeAtRoot_ok (hex : ex' → False) (h0 : v = 0) (leaf : Nat) :
    ∃ t' ctxs', removeAtRoot t ctxs ⟨none, v, dir, nd.child (!dir), leaf⟩ = some (t', ctxs') ∧
      t'.window = t.window ∧ (ProperOk luts x Pc Ic sh W maxOrder ex' (lo + 1) n (8 * n + 8) t' ctxs' ∨
        FlatOk x W (lo + 1) n (8 * n + 8) t' ctxs') := by
  have hsys := known_sys (x := x) (lo := lo) (n := n) (L := 8 * n + 8) (lim := 0)
  have hd := known_drop (x := x) (lo := lo) (n := n) (L := 8 * n + 8)
  have h2 := two_bytes hT hv
  have hvn := hT.inv.node v nd hv
  have hroot : Least (Known x lo n (8 * n + 8) 0) (8 * maxOrder + 7) [] (str v) :=
    ⟨hvn.br, List.nil_prefix, fun r hr _ => by rw [h0]; exact hT.inv.rootle r hr⟩
  unfold removeAtRoot
  dsimp only
  rw [check_pos rfl, ob_some]
  obtain ⟨i, hl, hcc⟩ := hvn.child (!dir)
  rcases hcc with ⟨k1, k2⟩ | ⟨w, nw, k1, k2, k3, k4, k5⟩
  · -- no node is left
    obtain ⟨ns1, e1, r1⟩ := rep_update hT.rep (by rw [← h0]; exact hv : N 0 = some nd) nodeInvalid
    have hnot : childIsNode ((pos sh W i : Nat) : Int) = false := by simp [childIsNode]
    rw [k2, if_neg (by rw [hnot]; simp)]
    unfold keepOnly
    rw [check_pos (Nat.zero_le _), ob_some, List.take_zero, ob_some, e1, ob_some]
    have hnb := drop_noBr hT.inv hsys hd hv hlo hno honly hroot k1
    have hNv : ∀ u, 1 ≤ u → (N.put 0 (some nodeInvalid)) u = none := by
      intro u hu
      rw [put_ne _ _ (by omega)]
      cases hN : N u with
      | none => rfl
      | some nu =>
        exfalso
        have hbu := (hT.inv.node u nu hN).br
        have h3 := (drop_br_less hT.inv hsys hd hv hlo hno honly (str u)).mpr
          ⟨hbu, fun he => by have := hT.inv.inj _ _ _ _ hN hv he; omega⟩
        exact hnb _ h3 List.nil_prefix
    have hcnt : cnt = 0 := by
      obtain ⟨l, l1, l2, l3, l4⟩ := rep_list r1
      have hall : ∀ i ∈ l, i = 0 := by
        intro i hi
        obtain ⟨ni, hni⟩ := l3 i hi
        by_contra hne
        rw [hNv i (by omega)] at hni; simp at hni
      have : l = List.replicate l.length 0 := List.eq_replicate_of_mem hall
      rw [this, List.nodup_replicate] at l1
      omega
    rw [hcnt] at r1
    refine ⟨_, _, rfl, rfl, Or.inr ⟨rfl, rfl, ?_, _, r1, ⟨_, put_self _ _ _, rfl⟩, hNv⟩⟩
    intro i d' a1 a2 a3 a4
    have b1 : Known x (lo + 1) n (8 * n + 8) 0 (seg x i 8) i := ⟨a1, a2, by rw [seg_length], by rw [seg_length]; omega⟩
    have b2 : Known x (lo + 1) n (8 * n + 8) 0 (seg x (lo + 1) 8) (lo + 1) :=
      ⟨le_refl _, by omega, by rw [seg_length], by rw [seg_length]; omega⟩
    have b3 : seg x i 8 = seg x (lo + 1) 8 := by
      rcases known_sys.same (D := 8 * maxOrder + 7) hnb b1 b2 List.nil_prefix List.nil_prefix (by rw [seg_length]; omega) with
        h | h
      · exact h.eq_of_length (by simp)
      · exact (h.eq_of_length (by simp)).symm
    have b4 := congrArg (fun l => l[d']?) b3
    unfold seg at b4
    rw [List.getElem?_map, List.getElem?_map, List.getElem?_range (by omega), Option.map_some, Option.map_some,
      Option.some.injEq] at b4
    exact b4
  · -- a node is left
    have hwc : w < 2 ^ 31 := lt_of_lt_of_le (rep_some hT.rep k2).2 (by omega)
    have hnot : childIsNode (-(w : Int) - 1) = true := by simp [childIsNode]; omega
    have hN0 : N 0 = some nd := by rw [← h0]; exact hv
    obtain ⟨ns1, e1, r1⟩ := rep_update hT.rep hN0 { nw with textStart := nd.textStart }
    obtain ⟨ns2, e2, r2⟩ := rep_delete r1 (by omega) k1 (by rw [put_ne _ _ (by omega)]; exact k2)
    rw [k3, if_pos hnot, childToNode_eq _ hwc, ob_some,
      rep_get hT.rep k2 (Or.inl k1), ob_some, rep_get hT.rep hN0 (Or.inr hvn.valid), ob_some, e1, ob_some, e2, ob_some]
    have hI := hT.inv.removeRoot hsys hd hv hlo hno hex honly h0 k1 k2 k4 hvn.text
    refine ⟨_, _, rfl, rfl, Or.inl ⟨_, _, _, ⟨hT.proper, r2, hI⟩, ?_⟩⟩
    have hrt : ∀ q, RootText N q → RootText ((N.put 0 (some { nw with textStart := nd.textStart })).put w none) q :=
      fun q hq => (hq.keep (nd' := { nw with textStart := nd.textStart }) hN0 rfl).del k1
    have hget0 : ((N.put 0 (some { nw with textStart := nd.textStart })).put w none) 0 =
        some { nw with textStart := nd.textStart } := by rw [put_ne _ _ (by omega), put_self]
    have hctx := hC.dropped (N' := (N.put 0 (some { nw with textStart := nd.textStart })).put w none)
      (str' := setStr str 0 (str w)) hex (le_refl _) h2 (fun ctx => if ctx.node = w then { ctx with node := 0 } else ctx)
      (fun ctx => by split <;> exact ⟨rfl, rfl⟩)
      (fun m ctx hm _ => remove_no_last hT hC hv hlo honly hm)
      (fun m ctx hm _ => by
        obtain ⟨nc, a1, a2⟩ := hC.loc m ctx hm
        by_cases he : ctx.node = w
        · rw [if_pos he]
          have hne : ctx.node ≠ v := by rw [he]; omega
          have := remove_other (N' := N) (str' := str) hT hC hv hlo hno honly hm hne a1 rfl
          obtain ⟨⟨-, -, b1⟩, b2⟩ := this
          constructor
          · refine ⟨_, hget0, ?_⟩
            dsimp only
            rw [setStr_self]
            rw [he] at b1
            exact b1
          · intro h c hc
            dsimp only at h hc ⊢
            rw [setStr_self, ← he]
            exact b2 h c hc
        · rw [if_neg he]
          by_cases hev : ctx.node = v
          · have := remove_here (N' := (N.put 0 (some { nw with textStart := nd.textStart })).put w none)
              (str' := setStr str 0 (str w)) (ctx' := ctx) hT hC hv hlo hno honly hm hev k4
              (by rw [hev, h0]; exact hget0) (by rw [hev, h0, setStr_self]) id
            exact ⟨this.1, this.2.1⟩
          · refine remove_other hT hC hv hlo hno honly hm hev (nd' := nc) ?_ ?_
            · rw [put_ne _ _ he, put_ne _ _ (by omega)]; exact a1
            · rw [setStr_ne _ _ (by omega)])
      (fun m h1 h2 => by omega) hrt
    rw [List.take_length] at hctx
    exact hctx

end

/-- Forgetting the oldest suffix. -/
theorem removeLeftmost_ok (hW : W ≤ 2 ^ 31) (hM : maxOrder ≤ 8191) {t : Tree} {ctxs : List Ctx}
    (hex : ex' → False) (h : StateOk luts x Pc Ic sh W maxOrder ex lo n (8 * n + 8) t ctxs) :
    ∃ t' ctxs', removeLeftmost t ctxs = some (t', ctxs') ∧ WinOk t'.window x sh W (lo + 1) (n + 1) (8 * n + 8) ∧
      (n + 1 - lo = W → ∃ next, indexIncrement t'.window t'.window.cursor = some next ∧ t'.window.buffer[next]? = some 0) ∧
      (ProperOk luts x Pc Ic sh W maxOrder ex' (lo + 1) n (8 * n + 8) t' ctxs' ∨
        FlatOk x W (lo + 1) n (8 * n + 8) t' ctxs') := by
  obtain ⟨hw, hle, hcases⟩ := h
  obtain ⟨w', e, hw', hnext⟩ := hw.drop hle
  have hproper : ∀ {t1 : Tree} {w1 : Win} {c1 : List Ctx},
      (ProperOk luts x Pc Ic sh W maxOrder ex' (lo + 1) n (8 * n + 8) t1 c1 ∨
        FlatOk x W (lo + 1) n (8 * n + 8) t1 c1) →
      (ProperOk luts x Pc Ic sh W maxOrder ex' (lo + 1) n (8 * n + 8) { t1 with window := w1 } c1 ∨
        FlatOk x W (lo + 1) n (8 * n + 8) { t1 with window := w1 } c1) := by
    rintro t1 w1 c1 (⟨N, str, cnt, hT, hC⟩ | ⟨h1, h2, h3, N, h4⟩)
    · exact Or.inl ⟨N, str, cnt, ⟨hT.proper, hT.rep, hT.inv⟩, hC⟩
    · exact Or.inr ⟨h1, h2, h3, N, h4⟩
  unfold removeLeftmost
  rcases hcases with ⟨N, str, cnt, hT, hC⟩ | ⟨h1, rfl, h3, N, h4⟩
  · rw [if_pos hT.proper]
    obtain ⟨f, e1, hf⟩ := walk_root hW (by omega) hw hT hle
    rw [e1, ob_some]
    have key : ∃ t1 c1, removeFound t ctxs f = some (t1, c1) ∧ t1.window = t.window ∧
        (ProperOk luts x Pc Ic sh W maxOrder ex' (lo + 1) n (8 * n + 8) t1 c1 ∨
          FlatOk x W (lo + 1) n (8 * n + 8) t1 c1) := by
      obtain ⟨fp, v, dir, sib, leaf⟩ := f
      obtain ⟨nd, i, g1, g2, g3, g4, g5, g6, g7⟩ := hf
      dsimp only at g1 g2 g3 g4 g5 g6 g7
      subst g6
      have hir := g4.1
      unfold removeFound
      dsimp only
      by_cases hleaf : leaf = t.window.start
      · have hi : i = lo := by
          rw [hw.start, g5] at hleaf
          exact hw.inj hir.1 hir.2.1 (le_refl _) hle hleaf
        have honly : ∀ i', Known x lo n (8 * n + 8) 0 (str v ++ [dir]) i' → i' = lo := by
          intro i' hi'
          have a1 := g4.2 i' hi'
          have a2 := hi'.1
          omega
        rw [if_neg (by simpa using hleaf)]
        rcases g7 with ⟨h0, hpar⟩ | ⟨h1, p, d, np, hpar, hp, hpc, hple⟩
        · rw [if_pos (by omega), hpar]
          exact removeAtRoot_ok hW hw hT hC g1 g2 g3 honly hex h0 leaf
        · rw [if_neg (by omega), hpar]
          by_cases hany : (ctxs.any fun ctx => ctx.node = v) = true
          · rw [if_pos hany]
            obtain ⟨t1, c1, a1, a2, a3⟩ := removeActive_ok hW hw hT hC g1 g2 g3 honly hex h1 hp hpc hple leaf
            exact ⟨t1, c1, a1, a2, Or.inl a3⟩
          · rw [if_neg hany]
            obtain ⟨t1, a1, a2, a3⟩ := removeInactive_ok hW hw hT hC g1 g2 g3 honly hex h1 hp hple (by
              intro m ctx hm he
              apply hany
              rw [List.any_eq_true]
              exact ⟨ctx, List.mem_of_getElem? hm, by simpa using he⟩) leaf
            exact ⟨t1, ctxs, a1, a2, Or.inl a3⟩
      · rw [if_pos hleaf]
        have hne : i ≠ lo := by
          rintro rfl
          exact hleaf (by rw [g5, hw.start])
        obtain ⟨count, a1, a2, a3⟩ := remove_later hw hT hC g1 g2 g3 hex ⟨i, g4.1, hne⟩
        rw [a1, ob_some]
        unfold keepOnly
        rw [check_pos a2, ob_some, ob_some]
        exact ⟨t, _, rfl, rfl, Or.inl a3⟩
    obtain ⟨t1, c1, a1, a2, a3⟩ := key
    rw [a1, ob_some]
    dsimp only
    rw [a2, e, ob_some]
    exact ⟨_, _, rfl, hw', hnext, hproper a3⟩
  · rw [if_neg (by rw [h1]; simp), e, ob_some]
    refine ⟨_, _, rfl, hw', hnext, Or.inr ⟨h1, rfl, ?_, N, h4⟩⟩
    intro i d k1 k2 k3 k4
    rw [h3 i d (by omega) k2 k3 k4, h3 (lo + 1) d (by omega) (by omega) k3 (by omega)]

end Verif.Tree
