import Verif.Tree.Events
import Verif.Tree.Win
import Verif.Tree.Model

/-!
# One context reads one bit
-/

namespace Verif.Tree

open Verif Verif.History Verif.Window

variable {P P' : Str → Nat → Prop} {D : Nat} {ex : Prop} {Pc Pc' : Str → List Bool → Costs → Prop} {Ic Ic' : Nat → Prop} {table : List Nat}
  {N N' : Live} {str str' : Nat → Str} {luts : Luts}

/-- a tree in order -/
structure TreeOk (t : Tree) (P : Str → Nat → Prop) (D : Nat) (ex : Prop) (Pc : Str → List Bool → Costs → Prop) (table : List Nat)
    (ps : Nat → Nat) (cap : Nat) (N : Live) (str : Nat → Str) (cnt : Nat) : Prop where
  proper : t.proper = true
  rep : Rep cap t.nodes N cnt
  inv : TInv P D ex Pc table ps N str

/-! ## Places of contexts -/

theorem LocOk.same {ctx : Ctx} {s : Str} (h : LocOk P D N str ctx s) (hbr : ∀ s, Br P' D s ↔ Br P D s)
    (hN : ∀ v nd, N v = some nd → ∃ nd', N' v = some nd') : LocOk P' D N' str ctx s := by
  obtain ⟨nd, h1, h2⟩ := h
  obtain ⟨nd', h1'⟩ := hN _ _ h1
  refine ⟨nd', h1', ?_⟩
  rcases h2 with ⟨h2, h3⟩ | ⟨h2, c, h3, h4, h5⟩
  · exact Or.inl ⟨h2, least_congr hbr h3⟩
  · exact Or.inr ⟨h2, c, h3, h4, fun r hr => h5 r ((hbr r).mp hr)⟩

theorem Settled.same {ctx : Ctx} (h : Settled P D str ctx) (hbr : ∀ s, Br P' D s ↔ Br P D s) :
    Settled P' D str ctx := fun h1 c h2 => noBr_congr hbr (h h1 c h2)

/-- contexts above a split edge -/
theorem LocOk.edge {pos : Nat → Nat} (hI : TInv P D ex Pc table pos N str) {v u : Nat} {nd nd0 nd1 : Node} {s0 : Str} {b : Bool} {i0 : Nat}
    (ha : AddEv P P' s0 b i0) (hD : s0.length ≤ D) (hv : N v = some nd) (hloc : Least P D s0 (str v))
    (hex : ∃ i, P (s0 ++ [!b]) i) (hu : N u = none) {ctx : Ctx} {s : Str} (hs : s.length < s0.length)
    (h : LocOk P D N str ctx s) :
    LocOk P' D ((N.put u (some nd0)).put v (some nd1)) (setStr (setStr str u (str v)) v s0) ctx s := by
  have hbr := ha.br_split hD hex
  obtain ⟨nx, h1, h2⟩ := h
  have hxu : ctx.node ≠ u := by
    intro he; rw [he, hu] at h1; simp at h1
  have hlive : ∃ nd', ((N.put u (some nd0)).put v (some nd1)) ctx.node = some nd' := by
    by_cases he : ctx.node = v
    · rw [he, put_self]; exact ⟨_, rfl⟩
    · rw [put_ne _ _ he, put_ne _ _ hxu]; exact ⟨nx, h1⟩
  obtain ⟨nd', hnd'⟩ := hlive
  refine ⟨nd', hnd', ?_⟩
  have hle := hloc.2.1.length_le
  by_cases he : ctx.node = v
  · rw [he, setStr_self]
    rw [he] at h2
    rcases h2 with ⟨h2, h3⟩ | ⟨h2, c, h3, h4, h5⟩
    · refine Or.inl ⟨h2, (hbr _).mpr (Or.inr rfl), ?_, ?_⟩
      · exact List.prefix_of_prefix_length_le h3.2.1 hloc.2.1 (by omega)
      · intro r hr hp
        rcases (hbr r).mp hr with hr | rfl
        · exact hloc.2.1.trans (h3.2.2 r hr hp)
        · exact List.prefix_refl _
    · have := snoc_len h4
      omega
  · rw [setStr_ne _ _ he, setStr_ne _ _ hxu]
    rcases h2 with ⟨h2, h3⟩ | ⟨h2, c, h3, h4, h5⟩
    · refine Or.inl ⟨h2, ha.br_mono h3.1, h3.2.1, ?_⟩
      intro r hr hp
      rcases (hbr r).mp hr with hr | rfl
      · exact h3.2.2 r hr hp
      · have k1 := h3.2.2 _ hloc.1 (hp.trans hloc.2.1)
        rcases prefix_cmp k1 hloc.2.1 with hq | hq
        · exact hq
        · have k2 := hloc.2.2 _ h3.1 hq
          exact absurd (hI.inj _ _ _ _ h1 hv (prefix_antisymm k1 k2)) he
    · refine Or.inr ⟨h2, c, h3, h4, ?_⟩
      intro r hr hp
      rcases (hbr r).mp hr with hr | rfl
      · exact h5 r hr hp
      · have k1 := h5 _ hloc.1 (hp.trans hloc.2.1)
        exact List.prefix_of_prefix_length_le k1 hloc.2.1 (by omega)

/-- contexts above a split leaf -/
theorem LocOk.leaf {pos : Nat → Nat} (hI : TInv P D ex Pc table pos N str) (hsys : Sys P) {v u : Nat} {nd nd0 nd1 : Node} {s0 : Str}
    {b c : Bool} {i0 : Nat}
    (ha : AddEv P P' s0 b i0) (hD : s0.length ≤ D) (hv : N v = some nd) (hpre : str v ++ [c] <+: s0)
    (hno : NoBr P D (str v ++ [c]))
    (hex : ∃ i, P (s0 ++ [!b]) i) (hu : N u = none) {ctx : Ctx} {s : Str} (hs : s.length < s0.length)
    (hocc : ∃ i, P s i) (h : LocOk P D N str ctx s) :
    LocOk P' D ((N.put u (some nd1)).put v (some nd0)) (setStr str u s0) ctx s := by
  have hbr := ha.br_split hD hex
  obtain ⟨nx, h1, h2⟩ := h
  have hxu : ctx.node ≠ u := by
    intro he; rw [he, hu] at h1; simp at h1
  have hlive : ∃ nd', ((N.put u (some nd1)).put v (some nd0)) ctx.node = some nd' := by
    by_cases he : ctx.node = v
    · rw [he, put_self]; exact ⟨_, rfl⟩
    · rw [put_ne _ _ he, put_ne _ _ hxu]; exact ⟨nx, h1⟩
  obtain ⟨nd', hnd'⟩ := hlive
  refine ⟨nd', hnd', ?_⟩
  rw [setStr_ne _ _ hxu]
  rcases h2 with ⟨h2, h3⟩ | ⟨h2, d, h3, h4, h5⟩
  · refine Or.inl ⟨h2, ha.br_mono h3.1, h3.2.1, ?_⟩
    intro r hr hp
    rcases (hbr r).mp hr with hr | rfl
    · exact h3.2.2 r hr hp
    · rcases Nat.lt_or_ge (str v).length s.length with hlt | hge
      · have k1 : str v ++ [c] <+: s := List.prefix_of_prefix_length_le hpre hp (by simp; omega)
        exact absurd (k1.trans h3.2.1) (hno _ h3.1)
      · have k1 : s <+: str v := List.prefix_of_prefix_length_le hp (prefix_of_snoc hpre) hge
        exact (h3.2.2 _ (hI.node v nd hv).br k1).trans (prefix_of_snoc hpre)
  · refine Or.inr ⟨h2, d, h3, h4, ?_⟩
    intro r hr hp
    rcases (hbr r).mp hr with hr | rfl
    · exact h5 r hr hp
    · rcases Nat.lt_trichotomy (str ctx.node).length (str v).length with hlt | he | hlt
      · exact (h5 _ (hI.node v nd hv).br (snoc_of_lt hp (prefix_of_snoc hpre) hlt)).trans (prefix_of_snoc hpre)
      · have k1 : str ctx.node ++ [d] = str v ++ [c] :=
          (List.prefix_of_prefix_length_le hp hpre (by simp; omega)).eq_of_length (by simp [he])
        rw [k1] at h4
        obtain ⟨i, hi⟩ := hocc
        obtain ⟨i', hi'⟩ := hex
        rcases hsys.same (D := D) hno hi (hsys.pre hi' (List.prefix_append _ _)) h4 hpre (by omega) with hq | hq
        · exact hq
        · have := hq.length_le; omega
      · exact absurd (snoc_of_lt hpre (prefix_of_snoc hp) hlt) (hno _ (hI.node _ nx h1).br)

/-- what a step leaves as it was for contexts of shorter strings -/
def Lower (P P' : Str → Nat → Prop) (D : Nat) (N N' : Live) (str str' : Nat → Str) (s0 : Str) : Prop :=
  ∀ ctx s, s.length < s0.length → (∃ i, P s i) → LocOk P D N str ctx s → LocOk P' D N' str' ctx s

/-- a step without a split -/
def Calm (P P' : Str → Nat → Prop) (D : Nat) (N N' : Live) (str str' : Nat → Str) : Prop :=
  (∀ s, Br P' D s ↔ Br P D s) ∧ (∀ v nd, N v = some nd → ∃ nd', N' v = some nd') ∧ str' = str

theorem Calm.lower (h : Calm P P' D N N' str str') (s0 : Str) : Lower P P' D N N' str str' s0 := by
  obtain ⟨h1, h2, rfl⟩ := h
  intro ctx s _ _ hl
  exact hl.same h1 h2

/-- the node of a context has the depth of the context iff the context branches -/
theorem LocOk.depth {pos : Nat → Nat} (hI : TInv P D ex Pc table pos N str) {ctx : Ctx} {s : Str}
    (h : LocOk P D N str ctx s) (hset : Settled P D str ctx) {nd : Node} (hnd : N ctx.node = some nd) :
    (nd.depth = s.length ↔ Br P D s) ∧ (Br P D s → ctx.inLeaf = false ∧ str ctx.node = s) := by
  obtain ⟨nd', h1, h2⟩ := h
  rw [hnd, Option.some.injEq] at h1
  subst h1
  have hn := hI.node _ nd hnd
  have hd := hn.depth
  rcases h2 with ⟨h2, h3⟩ | ⟨h2, c, h3, h4, h5⟩
  · have key : Br P D s → str ctx.node = s :=
      fun hs => prefix_antisymm (h3.2.2 s hs (List.prefix_refl _)) h3.2.1
    refine ⟨⟨?_, ?_⟩, fun hs => ⟨h2, key hs⟩⟩
    · intro he
      have : s = str ctx.node := h3.2.1.eq_of_length (by omega)
      rw [this]; exact hn.br
    · intro hs
      rw [hd, key hs]
  · have hno := hset h2 c h3
    have hlt := snoc_len h4
    refine ⟨⟨fun he => by omega, fun hs => absurd h4 (hno s hs)⟩, fun hs => absurd h4 (hno s hs)⟩

theorem depthOf_eq {m j : Nat} (hm : m ≤ 8191) (hj : j < 8) : depthOf m (7 - j) = some (8 * m + j) := by
  unfold depthOf
  rw [usize_eq (by omega), ob_some, usize_eq (by omega), ob_some, subU_eq (by omega)]
  congr 1; omega

theorem put_put (N : Live) (v : Nat) (a b : Option Node) : (N.put v a).put v b = N.put v b := by
  funext i
  unfold Live.put
  by_cases h : i = v <;> simp [h]

theorem valid_of_child {n n' : Node} (h : ∀ d, n'.child d = n.child d) (hv : nodeIsValid n = true) :
    nodeIsValid n' = true := by
  have h0 := h false
  have h1 := h true
  simp only [Node.child, if_true, Bool.false_eq_true, if_false] at h0 h1
  unfold nodeIsValid at hv ⊢
  rw [h0, h1]
  exact hv

section step

variable {x : Nat → Bool} {sh W lo n j k maxOrder cnt : Nat}

/-- how a context goes on to the next bit -/
theorem InfoOk.next {pos : Nat → Nat} {ctx ctx' : Ctx} {s0 : Str} {b : Bool} {i0 i : Nat} {q q0 : List Bool}
    (hsys : Sys P) (ha : AddEv P P' s0 b i0)
    (hcl : ∀ i, P (s0 ++ [b]) i → Occ P (s0 ++ [b]) i) (hlast : Last P (s0 ++ [b]) i) (hsuf : ctx'.suffix = pos i)
    (hq : Flw P s0 q0) (hsq : q0.count b ≤ q.count b) (hex : ex → q0.count b = q.count b)
    (hinc : ctx'.incoming = ((min 1000 (q.count b) : Nat) : Int)) (hic : Ic' (q.count b)) :
    InfoOk P' ex Ic' pos ctx' (s0 ++ [b]) := by
  have hne : s0 ++ [b] ≠ s0 := by
    intro he
    have := congrArg List.length he
    simp at this
  obtain ⟨q1, k1, k2⟩ := flw_child hsys hq hcl
  refine ⟨⟨i, ?_, hsuf⟩, q.count b, q1, (ha.flw_ne hne _).mpr k1, by omega, fun he => by rw [k2, hex he], hinc, hic⟩
  rw [ha.lastOcc_ne hne]
  exact ⟨hcl i hlast.1, fun i' hi' => hlast.2 i' (hsys.occ hi')⟩

/-- a branching context reads a bit -/
theorem descend_ok (hL : LutsOk luts) (hW : W ≤ 2 ^ 31) (hj : j < 8) {t : Tree} {ctx : Ctx} {c : Costs}
    (hw : WinOk t.window x sh W lo (n + 1) (8 * n + j + 1)) (hk : lo + k < n)
    (hT : TreeOk t (Known x lo n (8 * n + j) (n - k)) D ex Pc luts.costs (pos sh W) (max 1 (W - 1)) N str cnt)
    (hloc : LocOk (Known x lo n (8 * n + j) (n - k)) D N str ctx (cs x n (8 * n + j) k))
    (hset : Settled (Known x lo n (8 * n + j) (n - k)) D str ctx)
    (hbr : Br (Known x lo n (8 * n + j) (n - k)) D (cs x n (8 * n + j) k))
    (hpc : ∀ s q c, s ≠ cs x n (8 * n + j) k → Pc s q c → Pc' s q c)
    (hc : ∀ q c0, Pc (cs x n (8 * n + j) k) q c0 →
      (ex → Flw (Known x lo n (8 * n + j) (n - k)) (cs x n (8 * n + j) k) q) →
      Pc' (cs x n (8 * n + j) k) (q ++ [x (8 * n + j)]) c ∧ Ic' (q.count (x (8 * n + j)))) :
    ∃ t' ctx' N', descend luts t ctx k (7 - j) c = some (t', ctx') ∧ t'.window = t.window ∧
      TreeOk t' (Known x lo n (8 * n + j) (n - k + 1)) D ex Pc' luts.costs (pos sh W) (max 1 (W - 1)) N' str cnt ∧
      Calm (Known x lo n (8 * n + j) (n - k)) (Known x lo n (8 * n + j) (n - k + 1)) D N N' str str ∧
      LocOk (Known x lo n (8 * n + j) (n - k + 1)) D N' str ctx' (cs x n (8 * n + j + 1) k) ∧
      Settled (Known x lo n (8 * n + j) (n - k + 1)) D str ctx' ∧
      InfoOk (Known x lo n (8 * n + j) (n - k + 1)) ex Ic' (pos sh W) ctx' (cs x n (8 * n + j + 1) k) ∧
      ∀ p, RootText N p → RootText N' p := by
  have hsys := known_sys (x := x) (lo := lo) (n := n) (L := 8 * n + j) (lim := n - k)
  have hcl := fun i => known_closed (x := x) (lo := lo) (n := n) (L := 8 * n + j) (k := k) (i := i) (by omega) (by omega)
  have ha := known_add (x := x) (lo := lo) (n := n) (L := 8 * n + j) (lim := n - k) (by omega) (by omega) (by omega)
  rw [cs_succ (by omega)]
  change AddEv _ _ (cs x n (8 * n + j) k) _ _ at ha
  generalize hs0 : cs x n (8 * n + j) k = s0 at *
  generalize hPP : Known x lo n (8 * n + j) (n - k) = P at *
  generalize hPP' : Known x lo n (8 * n + j) (n - k + 1) = P' at *
  generalize hb : x (8 * n + j) = b at *
  obtain ⟨nd, hnd, -⟩ := id hloc
  obtain ⟨-, hd⟩ := hloc.depth hT.inv hset hnd
  obtain ⟨hnl, hstr⟩ := hd hbr
  have hn := hT.inv.node _ nd hnd
  have hval := hn.valid
  have hcap : max 1 (W - 1) ≤ 2 ^ 31 := by omega
  have hbs : ∀ s, Br P' D s ↔ Br P D s := ha.br_same (Or.inl hbr)
  have hposlt : ∀ i, pos sh W i < 2 ^ 31 := fun i => lt_of_lt_of_le (hw.lt i) hW
  have hstat := hn.stat
  rw [hstr] at hstat
  obtain ⟨nd', e1, hst', hch, hdep, htx⟩ := hstat.update hL ha (fun q c0 h1 h2 => (hc q c0 h1 h2).1)
  obtain ⟨ns1, e2, r2⟩ := rep_set hT.rep hnd (Or.inr hval) nd'
  have hval' := valid_of_child hch hval
  have hcur := hw.cursor (by omega)
  have hbit : winGetBit t.window t.window.cursor (7 - j) = some b := by
    rw [hcur, hw.getBit (by omega) (le_refl _) hj (by omega), hb]
  have hsub : indexSubtract t.window t.window.cursor k = some (pos sh W (n - k)) := by
    rw [hcur, hw.sub (by omega) (le_refl _)]
  -- counts
  obtain ⟨q, q0, c0, g1, g2, g3, -, -, g6, -, g4, g5⟩ := hstat
  have hic := (hc q c0 g6 (fun he => g3 he ▸ g1)).2
  have hcount : ((nd.count b : Nat) : Int) = ((min 1000 (q.count b) : Nat) : Int) := by
    unfold Node.count
    cases b
    · simp only [Bool.false_eq_true, if_false]; rw [g4]
    · simp only [if_true]; rw [g5]
  have hsq : q0.count b ≤ q.count b := g2.sublist.count_le b
  have hsqe : ex → q0.count b = q.count b := fun he => by rw [g3 he]
  have hchild := hn.child b
  rw [hstr] at hchild
  obtain ⟨i, hlast, hcases⟩ := hchild
  unfold descend
  rw [check_pos hnl, ob_some, hbit, ob_some, rep_get hT.rep hnd (Or.inr hval), ob_some, e1, ob_some, e2, ob_some,
    hch b]
  unfold descendChild
  dsimp only
  rcases hcases with ⟨hno, hce⟩ | ⟨w, nw, hw1, hwn, hce, hle, htxt⟩
  · -- a leaf
    obtain ⟨ns2, e3, r3⟩ := rep_set r2 (v := ctx.node) (nd := nd') (put_self _ _ _) (Or.inr hval')
      (nd'.setChild b ((pos sh W (n - k) : Nat) : Int))
    rw [put_put] at r3
    rw [hce, if_pos (by simp [childIsWindow]), childToWindow_eq _ (hposlt _), ob_some, hsub, ob_some,
      childOfWindow_eq (hposlt _), ob_some, rep_get r2 (put_self _ _ _) (Or.inr hval'), ob_some, e3, ob_some]
    have hI := hT.inv.descendLeaf (v := ctx.node) (nd := nd)
      (nd' := nd'.setChild b ((pos sh W (n - k) : Nat) : Int)) (b := b) (i0 := n - k) (by rw [hstr]; exact ha)
      (by rw [hstr]; exact hpc) hnd (by rw [hstr]; exact hno) (by rw [child_setChild_not, hch]) (by rw [child_setChild])
      (by rw [setChild_depth, hdep]) (by rw [setChild_text, htx]) (by rw [hstr]; exact hst'.setChild _ _)
    refine ⟨_, _, _, rfl, rfl, ⟨hT.proper, r3, hI⟩, ⟨hbs, ?_, rfl⟩, ?_, ?_, ?_,
      fun p hp => hp.keep hnd (by rw [setChild_text, htx])⟩
    · intro v nv hv
      by_cases he : v = ctx.node
      · rw [he, put_self]; exact ⟨_, rfl⟩
      · rw [put_ne _ _ he]; exact ⟨nv, hv⟩
    · refine ⟨_, put_self _ _ _, Or.inr ⟨rfl, b, rfl, ?_, ?_⟩⟩
      · dsimp only; rw [hstr]
      · intro r hr hp; dsimp only at hp; rw [hstr] at hp; exact hp
    · intro _ c' hc'
      dsimp only at hc' ⊢
      rw [Option.some.injEq] at hc'
      subst hc'
      rw [hstr]
      exact noBr_congr hbs hno
    · exact InfoOk.next (ctx := ctx) hsys ha hcl hlast rfl g1 hsq hsqe hcount hic
  · -- a node
    have hwc : w < 2 ^ 31 := lt_of_lt_of_le (rep_some hT.rep hwn).2 hcap
    have hwne : w ≠ ctx.node := by
      rintro rfl
      rw [hstr] at hle
      exact least_ne hle
    obtain ⟨ns2, e3, r3⟩ := rep_set r2 (v := w) (nd := nw) (by rw [put_ne _ _ hwne, hwn]) (Or.inl hw1)
      { nw with textStart := wrapU32 (pos sh W (n - k)) }
    have hwin : childIsWindow (-(w : Int) - 1) = false := by simp [childIsWindow]; omega
    rw [hce, if_neg (by rw [hwin]; simp), childToNode_eq _ hwc, ob_some,
      rep_get r2 (by rw [put_ne _ _ hwne, hwn]) (Or.inl hw1), ob_some, hsub, ob_some, e3, ob_some]
    rw [wrapU32_eq (by have := hposlt (n - k); omega)] at r3
    have hI := hT.inv.descendNode (v := ctx.node) (w := w) (nd := nd) (nd' := nd') (nw := nw) (b := b) (i0 := n - k)
      (by rw [hstr]; exact ha) (by rw [hstr]; exact hpc) hnd hw1 hwn hce (by rw [hstr]; exact hle) hch hdep htx (by rw [hstr]; exact hst')
      (hposlt _)
    refine ⟨_, _, _, rfl, rfl, ⟨hT.proper, r3, hI⟩, ⟨hbs, ?_, rfl⟩, ?_, ?_, ?_,
      fun p hp => (hp.keep hnd htx).put (fun h0 => by omega)⟩
    · intro v nv hv
      by_cases he : v = w
      · rw [he, put_self]; exact ⟨_, rfl⟩
      · rw [put_ne _ _ he]
        by_cases he : v = ctx.node
        · rw [he, put_self]; exact ⟨_, rfl⟩
        · rw [put_ne _ _ he]; exact ⟨nv, hv⟩
    · refine ⟨_, put_self _ _ _, Or.inl ⟨hnl, least_congr hbs hle⟩⟩
    · intro h; dsimp only at h; rw [hnl] at h; simp at h
    · exact InfoOk.next (ctx := ctx) hsys ha hcl hlast htxt g1 hsq hsqe hcount hic

/-- a context that has been followed by one bit only reads it again -/
theorem skip_ok (hk : lo + k < n) {ctx : Ctx} {ps : Nat → Nat}
    (hI : TInv (Known x lo n (8 * n + j) (n - k)) D ex Pc table ps N str)
    (hloc : LocOk (Known x lo n (8 * n + j) (n - k)) D N str ctx (cs x n (8 * n + j) k))
    (hset : Settled (Known x lo n (8 * n + j) (n - k)) D str ctx)
    (hinfo : InfoOk (Known x lo n (8 * n + j) (n - k)) ex Ic ps ctx (cs x n (8 * n + j) k))
    (hno : ∀ i, ¬ Known x lo n (8 * n + j) (n - k) (cs x n (8 * n + j) k ++ [!x (8 * n + j)]) i)
    (hpc : ∀ s q c, s ≠ cs x n (8 * n + j) k → Pc s q c → Pc' s q c) (hic : ∀ C, Ic C → Ic' C) :
    TInv (Known x lo n (8 * n + j) (n - k + 1)) D ex Pc' table ps N str ∧
    Calm (Known x lo n (8 * n + j) (n - k)) (Known x lo n (8 * n + j) (n - k + 1)) D N N str str ∧
    LocOk (Known x lo n (8 * n + j) (n - k + 1)) D N str ctx (cs x n (8 * n + j + 1) k) ∧
    Settled (Known x lo n (8 * n + j) (n - k + 1)) D str ctx ∧
    InfoOk (Known x lo n (8 * n + j) (n - k + 1)) ex Ic' ps ctx (cs x n (8 * n + j + 1) k) := by
  have hsys := known_sys (x := x) (lo := lo) (n := n) (L := 8 * n + j) (lim := n - k)
  have hcl := fun i => known_closed (x := x) (lo := lo) (n := n) (L := 8 * n + j) (k := k) (i := i) (by omega) (by omega)
  have ha := known_add (x := x) (lo := lo) (n := n) (L := 8 * n + j) (lim := n - k) (by omega) (by omega) (by omega)
  rw [cs_succ (by omega)]
  change AddEv _ _ (cs x n (8 * n + j) k) _ _ at ha
  generalize hs0 : cs x n (8 * n + j) k = s0 at *
  generalize hPP : Known x lo n (8 * n + j) (n - k) = P at *
  generalize hPP' : Known x lo n (8 * n + j) (n - k + 1) = P' at *
  generalize hb : x (8 * n + j) = b at *
  have hbs : ∀ s, Br P' D s ↔ Br P D s := ha.br_same (Or.inr (Or.inr hno))
  have hnbr : ¬ Br P D s0 := by
    intro h
    obtain ⟨i, hi⟩ := h.2 (!b)
    exact hno i hi
  have hbit : ∀ c i, P (s0 ++ [c]) i → c = b := by
    intro c i hi
    rcases bool_eq_or b c with rfl | rfl
    · rfl
    · exact absurd hi (hno i)
  refine ⟨(hI.skip hbs ?_).weaken (fun s q c hs h => hpc s q c (by rintro rfl; exact hnbr ((hbs _).mp hs)) h), ⟨hbs, fun v nd hv => ⟨nd, hv⟩, rfl⟩, ?_, hset.same hbs, ?_⟩
  · intro s hs c i
    exact ha.iff_ne (by rintro rfl; exact hnbr hs) c i
  · obtain ⟨nd, h1, h2⟩ := hloc
    refine ⟨nd, h1, ?_⟩
    rcases h2 with ⟨h2, h3⟩ | ⟨h2, c, h3, h4, h5⟩
    · refine Or.inl ⟨h2, (hbs _).mpr h3.1, ?_, fun r hr hp => h3.2.2 r ((hbs r).mp hr) (prefix_of_snoc hp)⟩
      obtain ⟨c, hc⟩ := snoc_of_prefix h3.2.1 (by intro he; exact hnbr (by rw [he]; exact h3.1))
      obtain ⟨i, hi⟩ := h3.1.occ
      rw [← hbit c i (hsys.pre (hsys.occ hi) hc)]
      exact hc
    · refine Or.inr ⟨h2, c, h3, h4.trans (List.prefix_append _ _), ?_⟩
      intro r hr hp
      exact absurd hp (hset h2 c h3 r ((hbs r).mp hr))
  · obtain ⟨⟨i, hlast, hsuf⟩, C, q0, hq, hle, hex, hinc, hicc⟩ := hinfo
    have hall : q0 = List.replicate q0.length b := by
      apply List.eq_replicate_of_mem
      intro c hc
      obtain ⟨i, hi⟩ := flw_mem hq hc
      exact hbit c i hi
    have hcount : q0.count b = q0.length := by
      rw [hall, List.count_replicate_self, List.length_replicate]
    have hc2 : (List.replicate C b).count b = C := List.count_replicate_self
    refine InfoOk.next (ctx := ctx) (q := List.replicate C b) (i := i) hsys ha hcl ?_ hsuf hq (by omega)
      (fun he => by rw [hcount, hc2, hex he]) (by rw [hc2]; exact hinc) (by rw [hc2]; exact hic C hicc)
    obtain ⟨⟨c, hc⟩, hl⟩ := hlast
    obtain rfl := hbit c i hc
    exact ⟨hc, fun i' hi' => hl i' ⟨_, hi'⟩⟩

theorem i32AsU16_eq {m : Nat} (h : m ≤ 1000) : i32AsU16 ((m : Nat) : Int) = m := by
  unfold i32AsU16
  omega

/-- the node made by a split -/
theorem setup_ok (hL : LutsOk luts) (hk : k ≤ 8191) (hj : j < 8) {t : Tree} {ctx : Ctx} {s0 : Str}
    {b : Bool} {i0 ts : Nat} {ps : Nat → Nat} (hbit : winGetBit t.window t.window.cursor (7 - j) = some b)
    (hlen : s0.length = 8 * k + j) (ha : AddEv P P' s0 b i0) (hb : ∀ i, ¬ P (s0 ++ [b]) i)
    (hinfo : InfoOk P ex Ic ps ctx s0) (hPc : ∀ C, 1 ≤ C → Ic C → ∃ c, Pc' s0 (List.replicate C (!b) ++ [b]) c)
    (hts : ts < 2 ^ 31) :
    ∃ nd, setupSplitEdge luts t ctx k (7 - j) ts = some nd ∧ StatOk P' ex Pc' luts.costs s0 nd ∧
      nd.depth = s0.length ∧ nd.textStart = ts := by
  obtain ⟨⟨i, ⟨⟨c, hc⟩, -⟩, -⟩, C, q0, hq, hle, hex, hinc, hic⟩ := hinfo
  have hbq : b ∉ q0 := by
    intro hm
    obtain ⟨i, hi⟩ := flw_mem hq hm
    exact hb i hi
  have hq1 : 1 ≤ q0.length := by
    obtain ⟨l, -, h2, h3⟩ := hq
    have hm : i ∈ l := (h2 i).mpr ⟨c, hc⟩
    rw [← h3.length_eq]
    exact List.length_pos_of_mem hm
  obtain ⟨est, cost, runs, recent, e1, e2, e3, e4, e5, hst⟩ :=
    StatOk.new hL (hPc C (by omega) hic) hq hle hex (by omega) hbq ha
  unfold setupSplitEdge
  rw [check_pos (by rw [hinc]; omega), ob_some, hinc, i32AsU16_eq (by omega), hbit, ob_some]
  rw [show min 1000 (min 1000 C) = min 1000 C by omega, e1, ob_some, e2, ob_some, e3, ob_some, e4, ob_some,
    depthOf_eq hk hj, ob_some]
  unfold nodeNew
  have h1 : (if b = true then min 1000 C else 1) < 2 ^ 16 := by split <;> omega
  have h2 : (if b = true then 1 else min 1000 C) < 2 ^ 16 := by split <;> omega
  rw [check_pos hts, ob_some, check_pos (by omega), ob_some, check_pos h1, ob_some, check_pos h2, ob_some,
    check_pos e5, ob_some]
  refine ⟨_, rfl, hst _ rfl rfl rfl rfl rfl rfl, ?_, ?_⟩
  · dsimp only
    rw [hlen]
    unfold wrapU16
    omega
  · dsimp only
    exact wrapU32_eq (by omega)

/-- there is room for one more node -/
theorem room {cap : Nat} {ns : Nodes} (hr : Rep cap ns N cnt) {ps : Nat → Nat}
    (hI : TInv P D ex Pc table ps N str) {s0 : Str} {b : Bool} {i0 : Nat} (ha : AddEv P P' s0 b i0)
    (hsys : Sys P') (hD : s0.length ≤ D) (hex : ∃ i, P (s0 ++ [!b]) i) (hnbr : ¬ Br P D s0)
    (hrange : ∀ t i, P' t i → lo ≤ i ∧ i ≤ n) : cnt + 2 ≤ n - lo := by
  obtain ⟨l, h1, h2, h3, -⟩ := rep_list hr
  have hc := br_count (D := D) hsys hrange (s0 :: l.map str) (by
    rw [List.nodup_cons]
    constructor
    · intro hm
      obtain ⟨v, hv, he⟩ := List.mem_map.mp hm
      obtain ⟨nd, hnd⟩ := h3 v hv
      exact hnbr (by rw [← he]; exact (hI.node v nd hnd).br)
    · refine List.Nodup.map_on ?_ h1
      intro a ha b hb he
      obtain ⟨na, hna⟩ := h3 a ha
      obtain ⟨nb, hnb⟩ := h3 b hb
      exact hI.inj a b _ _ hna hnb he) (by
    intro s hs
    rcases List.mem_cons.mp hs with rfl | hs
    · exact (ha.br_split hD hex _).mpr (Or.inr rfl)
    · obtain ⟨v, hv, rfl⟩ := List.mem_map.mp hs
      obtain ⟨nd, hnd⟩ := h3 v hv
      exact ha.br_mono (hI.node v nd hnd).br)
  rw [List.length_cons, List.length_map, h2] at hc
  omega

/-- a context branches for the first time -/
theorem split_ok (hL : LutsOk luts) (hW : W ≤ 2 ^ 31) (hj : j < 8) (hkD : 8 * k + j ≤ D)
    (hk8 : k ≤ 8191) {t : Tree} {ctx : Ctx}
    (hw : WinOk t.window x sh W lo (n + 1) (8 * n + j + 1)) (hk : lo + k < n)
    (hT : TreeOk t (Known x lo n (8 * n + j) (n - k)) D ex Pc luts.costs (pos sh W) (max 1 (W - 1)) N str cnt)
    (hloc : LocOk (Known x lo n (8 * n + j) (n - k)) D N str ctx (cs x n (8 * n + j) k))
    (hset : Settled (Known x lo n (8 * n + j) (n - k)) D str ctx)
    (hinfo : InfoOk (Known x lo n (8 * n + j) (n - k)) ex Ic (pos sh W) ctx (cs x n (8 * n + j) k))
    (hno : ∀ i, ¬ Known x lo n (8 * n + j) (n - k) (cs x n (8 * n + j) k ++ [x (8 * n + j)]) i)
    (hpc : ∀ s q c, s ≠ cs x n (8 * n + j) k → Pc s q c → Pc' s q c)
    (hPc : ∀ C, 1 ≤ C → Ic C → ∃ c, Pc' (cs x n (8 * n + j) k) (List.replicate C (!x (8 * n + j)) ++ [x (8 * n + j)]) c) :
    ∃ t' N' str' cnt', splitEdge luts t ctx k (7 - j) = some t' ∧ t'.window = t.window ∧
      TreeOk t' (Known x lo n (8 * n + j) (n - k + 1)) D ex Pc' luts.costs (pos sh W) (max 1 (W - 1)) N' str' cnt' ∧
      Lower (Known x lo n (8 * n + j) (n - k)) (Known x lo n (8 * n + j) (n - k + 1)) D N N' str str'
        (cs x n (8 * n + j) k) ∧
      ∀ p, RootText N p → RootText N' p := by
  have hsys := known_sys (x := x) (lo := lo) (n := n) (L := 8 * n + j) (lim := n - k)
  have hsys' := known_sys (x := x) (lo := lo) (n := n) (L := 8 * n + j) (lim := n - k + 1)
  have ha := known_add (x := x) (lo := lo) (n := n) (L := 8 * n + j) (lim := n - k) (by omega) (by omega) (by omega)
  have hrange : ∀ t i, Known x lo n (8 * n + j) (n - k + 1) t i → lo ≤ i ∧ i ≤ n := fun t i h => ⟨h.1, h.2.1⟩
  have hlen : (cs x n (8 * n + j) k).length = 8 * k + j := by rw [cs_length]; omega
  change AddEv _ _ (cs x n (8 * n + j) k) _ _ at ha
  generalize hs0 : cs x n (8 * n + j) k = s0 at *
  generalize hPP : Known x lo n (8 * n + j) (n - k) = P at *
  generalize hPP' : Known x lo n (8 * n + j) (n - k + 1) = P' at *
  generalize hb : x (8 * n + j) = b at *
  have hD : s0.length ≤ D := by omega
  have hbit : ∀ c i, P (s0 ++ [c]) i → c = !b := by
    intro c i hi
    rcases bool_eq_or b c with rfl | rfl
    · exact absurd hi (hno i)
    · rfl
  obtain ⟨is, hlast, hsuf⟩ := hinfo.1
  have hex : ∃ i, P (s0 ++ [!b]) i := by
    obtain ⟨⟨c, hc⟩, -⟩ := hlast
    rw [← hbit c is hc]
    exact ⟨is, hc⟩
  have hnbr : ¬ Br P D s0 := by
    intro h
    obtain ⟨i, hi⟩ := h.2 b
    exact hno i hi
  have hroom := room hT.rep hT.inv ha hsys' hD hex hnbr hrange
  have hsize := hw.size
  have hsle := hw.inv.size_le
  have hmax := hw.max
  have hcap : max 1 (W - 1) ≤ 2 ^ 31 := by omega
  have hposlt : ∀ i, pos sh W i < 2 ^ 31 := fun i => lt_of_lt_of_le (hw.lt i) hW
  have hcur := hw.cursor (by omega)
  have hget : winGetBit t.window t.window.cursor (7 - j) = some b := by
    rw [hcur, hw.getBit (by omega) (le_refl _) hj (by omega), hb]
  have hsub : indexSubtract t.window t.window.cursor k = some (pos sh W (n - k)) := by
    rw [hcur, hw.sub (by omega) (le_refl _)]
  obtain ⟨nd, hnd, hcases⟩ := id hloc
  have hn := hT.inv.node _ nd hnd
  have hval := hn.valid
  unfold splitEdge
  rw [hget, ob_some]
  rcases hcases with ⟨hnl, hle⟩ | ⟨hin, c, hdir, hpre, -⟩
  · -- above a node
    rw [if_pos hnl, rep_get hT.rep hnd (Or.inr hval), ob_some]
    obtain ⟨nd1, f1, f2, f3, f4⟩ := setup_ok hL hk8 hj hget hlen ha hno hinfo hPc hn.text
    obtain ⟨ns1, u, e1, hu1, -, hu, r1⟩ := rep_add hT.rep hcap (by omega)
      { nd with textStart := wrapU32 ctx.suffix }
    have hvu : ctx.node ≠ u := by intro he; rw [he, hu] at hnd; simp at hnd
    obtain ⟨ns2, e2, r2⟩ := rep_update r1 (v := ctx.node) (nd := nd) (by rw [put_ne _ _ hvu, hnd])
      ((nd1.setChild b ((pos sh W (n - k) : Nat) : Int)).setChild (!b) (-(u : Int) - 1))
    rw [f1, ob_some, hsub, ob_some, childOfWindow_eq (hposlt _), ob_some, e1, ob_some]
    dsimp only
    rw [e2, ob_some]
    rw [hsuf, wrapU32_eq (by have := hposlt is; omega)] at r2
    have hI := hT.inv.splitEdge (v := ctx.node) (u := u) (nd := nd)
      (nd1 := (nd1.setChild b ((pos sh W (n - k) : Nat) : Int)).setChild (!b) (-(u : Int) - 1)) (is := is)
      hsys ha hpc hD hnd hle (by intro he; exact hnbr (by rw [he]; exact hn.br)) hno hlast hu hu1
      ((f2.setChild _ _).setChild _ _) (by rw [setChild_depth, setChild_depth, f3])
      (by rw [setChild_text, setChild_text, f4]) (by rw [child_setChild_not', child_setChild])
      (by rw [child_setChild]) (hposlt _)
    exact ⟨_, _, _, _, rfl, rfl, ⟨hT.proper, r2, hI⟩, fun ctx' s hs _ h => h.edge hT.inv ha hD hnd hle hex hu hs,
      fun p hp => (hp.put (fun h0 => by omega)).keep (nd := nd) (by rw [put_ne _ _ hvu, hnd])
        (by rw [setChild_text, setChild_text, f4])⟩
  · -- in a leaf
    have hnb := hset hin c hdir
    obtain ⟨il, hl, hcc⟩ := hn.child c
    have hce : nd.child c = ((pos sh W il : Nat) : Int) := by
      rcases hcc with ⟨-, h⟩ | ⟨w, nw, -, -, -, h, -⟩
      · exact h
      · exact absurd h.2.1 (hnb _ h.1)
    obtain ⟨nd1, f1, f2, f3, f4⟩ := setup_ok hL hk8 hj hget hlen ha hno hinfo hPc (hposlt il)
    obtain ⟨ns1, u, e1, hu1, -, hu, r1⟩ := rep_add hT.rep hcap (by omega)
      ((nd1.setChild b ((pos sh W (n - k) : Nat) : Int)).setChild (!b) ((pos sh W is : Nat) : Int))
    have hvu : ctx.node ≠ u := by intro he; rw [he, hu] at hnd; simp at hnd
    obtain ⟨ns2, e2, r2⟩ := rep_update r1 (v := ctx.node) (nd := nd) (by rw [put_ne _ _ hvu, hnd])
      (nd.setChild c (-(u : Int) - 1))
    rw [if_neg (by rw [hin]; simp), rep_get hT.rep hnd (Or.inr hval), ob_some, hdir, ob_some, hce,
      childToWindow_eq _ (hposlt _), ob_some, f1, ob_some, hsub, ob_some, childOfWindow_eq (hposlt _), ob_some,
      hsuf, childOfWindow_eq (hposlt _), ob_some, e1, ob_some]
    dsimp only
    rw [e2, ob_some]
    have hI := hT.inv.splitLeaf (v := ctx.node) (u := u) (nd := nd)
      (nd1 := (nd1.setChild b ((pos sh W (n - k) : Nat) : Int)).setChild (!b) ((pos sh W is : Nat) : Int)) (is := is)
      (il := il) hsys ha hpc hD hnd hpre hnb hno hlast hu hu1 hl ((f2.setChild _ _).setChild _ _)
      (by rw [setChild_depth, setChild_depth, f3]) (by rw [setChild_text, setChild_text, f4])
      (by rw [child_setChild_not', child_setChild]) (by rw [child_setChild]) (hposlt _)
    exact ⟨_, _, _, _, rfl, rfl, ⟨hT.proper, r2, hI⟩,
      fun ctx' s hs ho h => h.leaf hT.inv hsys ha hD hnd hpre hnb hex hu hs ho,
      fun p hp => (hp.put (fun h0 => by omega)).keep (nd := nd) (by rw [put_ne _ _ hvu, hnd]) (setChild_text _ _ _)⟩

/-- a context whose leaf has been split is corrected -/
theorem correct_ok {t : Tree} {ctx : Ctx} {s : Str} {ps : Nat → Nat} {cap : Nat} (hcap : cap ≤ 2 ^ 31)
    (hT : TreeOk t P D ex Pc table ps cap N str cnt) (hloc : LocOk P D N str ctx s) :
    ∃ ctx', correctCtx t ctx = some ctx' ∧ LocOk P D N str ctx' s ∧ Settled P D str ctx' ∧
      ctx'.suffix = ctx.suffix ∧ ctx'.incoming = ctx.incoming := by
  unfold correctCtx
  obtain ⟨nd, hnd, hcases⟩ := id hloc
  have hn := hT.inv.node _ nd hnd
  rcases hcases with ⟨hnl, hle⟩ | ⟨hin, c, hdir, hpre, hall⟩
  · rw [if_neg (by rw [hnl]; simp)]
    exact ⟨ctx, rfl, hloc, fun h => by rw [hnl] at h; simp at h, rfl, rfl⟩
  · rw [if_pos hin, rep_get hT.rep hnd (Or.inr hn.valid), ob_some, hdir, ob_some]
    obtain ⟨i, hl, ⟨hno, hce⟩ | ⟨w, nw, hw1, hwn, hce, hle, -⟩⟩ := hn.child c
    · rw [hce, if_pos (by simp [childIsWindow])]
      refine ⟨ctx, rfl, hloc, ?_, rfl, rfl⟩
      intro _ c' hc'
      rw [hdir, Option.some.injEq] at hc'
      rw [← hc']; exact hno
    · have hwc : w < 2 ^ 31 := lt_of_lt_of_le (rep_some hT.rep hwn).2 hcap
      have hwin : childIsWindow (-(w : Int) - 1) = false := by simp [childIsWindow]; omega
      rw [hce, if_neg (by rw [hwin]; simp), childToNode_eq _ hwc, ob_some]
      refine ⟨_, rfl, ⟨nw, hwn, Or.inl ⟨rfl, hle.1, hall _ hle.1 hle.2.1, ?_⟩⟩, ?_, rfl, rfl⟩
      · intro r hr hp
        exact hle.2.2 r hr (hpre.trans hp)
      · intro h; simp at h

/-- One context reads one bit. -/
theorem extendCtx_ok (hL : LutsOk luts) (hW : W ≤ 2 ^ 31) (hj : j < 8) (hkD : 8 * k + j ≤ D)
    (hk8 : k ≤ 8191) {s : Loop} {ctx : Ctx} {costs : List Costs}
    (hw : WinOk s.tree.window x sh W lo (n + 1) (8 * n + j + 1)) (hk : lo + k < n)
    (hT : TreeOk s.tree (Known x lo n (8 * n + j) (n - k)) D ex Pc luts.costs (pos sh W) (max 1 (W - 1)) N str cnt)
    (hloc : LocOk (Known x lo n (8 * n + j) (n - k)) D N str ctx (cs x n (8 * n + j) k))
    (hset : Settled (Known x lo n (8 * n + j) (n - k)) D str ctx)
    (hinfo : InfoOk (Known x lo n (8 * n + j) (n - k)) ex Ic (pos sh W) ctx (cs x n (8 * n + j) k))
    (hcost : k < costs.length ↔ Br (Known x lo n (8 * n + j) (n - k)) D (cs x n (8 * n + j) k))
    (hpc : ∀ s q c, s ≠ cs x n (8 * n + j) k → Pc s q c → Pc' s q c)
    (hcs : ∀ c, costs[k]? = some c → ∀ q c0, Pc (cs x n (8 * n + j) k) q c0 →
      (ex → Flw (Known x lo n (8 * n + j) (n - k)) (cs x n (8 * n + j) k) q) →
      Pc' (cs x n (8 * n + j) k) (q ++ [x (8 * n + j)]) c ∧ Ic' (q.count (x (8 * n + j))))
    (hic : (∀ i, ¬ Known x lo n (8 * n + j) (n - k) (cs x n (8 * n + j) k ++ [!x (8 * n + j)]) i) →
      ∀ C, Ic C → Ic' C)
    (hPc : (∀ i, ¬ Known x lo n (8 * n + j) (n - k) (cs x n (8 * n + j) k ++ [x (8 * n + j)]) i) →
      ∀ C, 1 ≤ C → Ic C → ∃ c, Pc' (cs x n (8 * n + j) k) (List.replicate C (!x (8 * n + j)) ++ [x (8 * n + j)]) c)
    (hcnt : (∀ i, ¬ Known x lo n (8 * n + j) (n - k) (cs x n (8 * n + j) k ++ [x (8 * n + j)]) i) →
      s.count = k + 1) :
    ∃ t' ctx' count' N' str' cnt',
      extendCtx luts costs (7 - j) k ctx s = some ⟨t', s.ctxs.set k ctx', count'⟩ ∧
      t'.window = s.tree.window ∧ (∀ p, RootText N p → RootText N' p) ∧
      TreeOk t' (Known x lo n (8 * n + j) (n - k + 1)) D ex Pc' luts.costs (pos sh W) (max 1 (W - 1)) N' str' cnt' ∧
      Lower (Known x lo n (8 * n + j) (n - k)) (Known x lo n (8 * n + j) (n - k + 1)) D N N' str str'
        (cs x n (8 * n + j) k) ∧
      ((count' = s.count ∧
        Calm (Known x lo n (8 * n + j) (n - k)) (Known x lo n (8 * n + j) (n - k + 1)) D N N' str str' ∧
        LocOk (Known x lo n (8 * n + j) (n - k + 1)) D N' str' ctx' (cs x n (8 * n + j + 1) k) ∧
        Settled (Known x lo n (8 * n + j) (n - k + 1)) D str' ctx' ∧
        InfoOk (Known x lo n (8 * n + j) (n - k + 1)) ex Ic' (pos sh W) ctx' (cs x n (8 * n + j + 1) k)) ∨
       (count' = k ∧ s.count = k + 1 ∧
        ∀ i, ¬ Known x lo n (8 * n + j) (n - k) (cs x n (8 * n + j) k ++ [x (8 * n + j)]) i)) := by
  obtain ⟨nd, hnd, -⟩ := id hloc
  have hn := hT.inv.node _ nd hnd
  have hlen : (cs x n (8 * n + j) k).length = 8 * k + j := by rw [cs_length]; omega
  obtain ⟨hd1, hd2⟩ := hloc.depth hT.inv hset hnd
  rw [hlen] at hd1
  unfold extendCtx
  rw [rep_get hT.rep hnd (Or.inr hn.valid), ob_some, depthOf_eq hk8 hj, ob_some]
  by_cases hbr : Br (Known x lo n (8 * n + j) (n - k)) D (cs x n (8 * n + j) k)
  · have hkc := hcost.mpr hbr
    obtain ⟨t', ctx', N', e, hwt, hT', hcalm, hloc', hset', hinfo', hrt⟩ := descend_ok hL hW hj hw hk hT hloc hset hbr hpc
      (hcs _ (List.getElem?_eq_getElem hkc))
    rw [if_pos (hd1.mpr hbr), check_pos (hd2 hbr).1, ob_some, List.getElem?_eq_getElem hkc, ob_some, e, ob_some]
    exact ⟨t', ctx', s.count, N', str, cnt, rfl, hwt, hrt, hT', hcalm.lower _, Or.inl ⟨rfl, hcalm, hloc', hset', hinfo'⟩⟩
  · obtain ⟨i, hlast, hsuf⟩ := hinfo.1
    obtain ⟨hi1, hi2⟩ := known_before (by omega) (by omega) (le_refl _) hlast.1
    have hocc := known_occ.mp hlast.1
    rw [hlen] at hocc
    have hnext : Known x lo n (8 * n + j) (n - k) (cs x n (8 * n + j) k ++ [x (8 * (i + k) + j)]) i := by
      refine ⟨hi1, by omega, seg_snoc_iff.mpr ⟨?_, ?_⟩, ?_⟩
      · rw [hlen]; exact hocc.2.2.1
      · rw [hlen]; congr 1; omega
      · rw [List.length_append, hlen, List.length_singleton]; omega
    have hcur := hw.cursor (by omega)
    have hadd : indexAdd s.tree.window ctx.suffix k = some (pos sh W (i + k)) := by
      rw [hsuf, hw.add hi1 (by omega)]
    have hdiff : bytesDifferOn s.tree.window (pos sh W (i + k)) s.tree.window.cursor (7 - j) =
        some (x (8 * (i + k) + j) != x (8 * n + j)) := by
      rw [hcur, hw.differ (by omega) (by omega) (by omega) (le_refl _) hj (by omega) (by omega)]
    rw [if_neg (fun h => hbr (hd1.mp h)), check_pos (by
      by_contra hlt
      exact hbr (hcost.mp (by omega))), ob_some, hadd, ob_some, hdiff, ob_some]
    by_cases hx : x (8 * (i + k) + j) = x (8 * n + j)
    · -- the same bit again
      rw [hx]
      rw [hx] at hnext
      rw [bne_self_eq_false, if_neg (by simp)]
      have hno : ∀ i, ¬ Known x lo n (8 * n + j) (n - k) (cs x n (8 * n + j) k ++ [!x (8 * n + j)]) i := by
        intro i' hi'
        apply hbr
        refine ⟨by omega, ?_⟩
        intro c
        rcases bool_eq_or (x (8 * n + j)) c with rfl | rfl
        · exact ⟨i, hnext⟩
        · exact ⟨i', hi'⟩
      obtain ⟨hI, hcalm, hloc', hset', hinfo'⟩ := skip_ok hk hT.inv hloc hset hinfo hno hpc (hic hno)
      exact ⟨_, ctx, s.count, N, str, cnt, rfl, rfl, fun _ h => h, ⟨hT.proper, hT.rep, hI⟩, hcalm.lower _,
        Or.inl ⟨rfl, hcalm, hloc', hset', hinfo'⟩⟩
    · -- a new bit
      rw [if_pos (by simpa using hx)]
      have hx' : x (8 * (i + k) + j) = !x (8 * n + j) := by
        rcases bool_eq_or (x (8 * n + j)) (x (8 * (i + k) + j)) with h | h
        · exact absurd h hx
        · exact h
      rw [hx'] at hnext
      have hno : ∀ i, ¬ Known x lo n (8 * n + j) (n - k) (cs x n (8 * n + j) k ++ [x (8 * n + j)]) i := by
        intro i' hi'
        apply hbr
        refine ⟨by omega, ?_⟩
        intro c
        rcases bool_eq_or (x (8 * n + j)) c with rfl | rfl
        · exact ⟨i', hi'⟩
        · exact ⟨i, hnext⟩
      obtain ⟨t', N', str', cnt', e, hwt, hT', hlow, hrt⟩ := split_ok hL hW hj hkD hk8 hw hk hT hloc hset hinfo hno hpc
        (hPc hno)
      have hc := hcnt hno
      have hchk : ctx.inLeaf = true ∨ nd.depth ≥ k * 8 := by
        obtain ⟨nd', h1, h2⟩ := hloc
        rw [hnd, Option.some.injEq] at h1
        subst h1
        rcases h2 with ⟨-, h3⟩ | ⟨h2, -⟩
        · right
          have := h3.2.1.length_le
          rw [hlen] at this
          rw [hn.depth]; omega
        · exact Or.inl h2
      rw [usize_eq (by omega), ob_some, check_pos hchk, ob_some, e, ob_some, subU_eq (by omega), ob_some,
        check_pos (by omega), ob_some]
      exact ⟨t', ctx, k, N', str', cnt', rfl, hwt, hrt, hT', hlow, Or.inr ⟨rfl, hc, hno⟩⟩

end step

end Verif.Tree
