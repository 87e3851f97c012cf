import Verif.Tree.Traverse
import Verif.Tree.Feed
import Verif.Window.EndProps

/-!
# The integrity checks pass on a tree in order
-/

namespace Verif.Tree

open Verif Verif.History Verif.Window

variable {P : Str → Nat → Prop} {D : Nat} {ex : Prop} {Pc : Str → List Bool → Costs → Prop} {Ic : Nat → Nat → Prop} {table : List Nat}
  {ps : Nat → Nat} {N : Live} {str : Nat → Str} {cap cnt : Nat} {t : Tree} {ctxs : List Ctx} {luts : Luts}
  {x : Nat → Bool} {sh W lo n L maxOrder e : Nat} {w : Win}

/-- comparing two places where the same string has been read -/
theorem WinOk.compare (h : WinOk w x sh W lo (n + 1) L) {i i' : Nat} {s : Str} (h1 : lo ≤ i) (h1' : lo ≤ i')
    (hs : seg x i s.length = s) (hs' : seg x i' s.length = s) (hL : 8 * i + s.length ≤ L)
    (hL' : 8 * i' + s.length ≤ L) (hn : i + s.length / 8 ≤ n) (hn' : i' + s.length / 8 ≤ n) :
    comparePrefix w (pos sh W i) (pos sh W i') (7 - s.length % 8) (s.length / 8) = some true := by
  have hsz := h.size
  obtain ⟨r, e, hr⟩ := C25_compare h.inv (a := i - lo) (b := i' - lo) (n := s.length / 8) (bi := 7 - s.length % 8)
    (by omega) (by omega) (by omega)
  rw [h.posOf h1, h.posOf h1'] at e
  rw [e, Option.some.injEq, hr, prefixEq_bits h.inv (by omega) (by omega) (by omega)]
  intro k hk
  have hb : ∀ {i : Nat}, lo ≤ i → seg x i s.length = s → 8 * i + s.length ≤ L → i + s.length / 8 ≤ n →
      some (bitAt (contents w) (8 * (i - lo) + k)) = s[k]? := by
    intro i hi hsi hLi hni
    have := h.bits (i + k / 8) (k % 8) (by omega) (by omega) (by omega) (by omega)
    rw [show 8 * (i + k / 8 - lo) + k % 8 = 8 * (i - lo) + k by omega,
      show 8 * (i + k / 8) + k % 8 = 8 * i + k by omega] at this
    rw [this, ← hsi]
    unfold seg
    rw [List.getElem?_map, List.getElem?_range (by omega)]
    rfl
  have := (hb h1 hs hL hn).trans (hb h1' hs' hL' hn').symm
  rwa [Option.some.injEq] at this

/-- comparing two places where the same whole bytes have been read, up to the last byte -/
theorem WinOk.compare_end (h : WinOk w x sh W lo (n + 1) L) {i i' : Nat} {s : Str} (h1 : lo ≤ i) (h1' : lo ≤ i')
    (hs : seg x i s.length = s) (hs' : seg x i' s.length = s) (hL : 8 * i + s.length ≤ L)
    (hL' : 8 * i' + s.length ≤ L) (hn : i + s.length / 8 ≤ n + 1) (hn' : i' + s.length / 8 ≤ n + 1)
    (h8 : s.length % 8 = 0) (h0 : 1 ≤ s.length / 8) :
    comparePrefix w (pos sh W i) (pos sh W i') (7 - s.length % 8) (s.length / 8) = some true := by
  have hsz := h.size
  obtain ⟨r, e, hr⟩ := C25_compare_bytes h.inv (a := i - lo) (b := i' - lo) h0 (by omega) (by omega)
  rw [h.posOf h1, h.posOf h1'] at e
  rw [h8, e, Option.some.injEq, hr]
  intro j hj
  have hget : ∀ k < w.size, (contents w)[k]? = some ((contents w).getD k 0) := by
    intro k hk
    rw [List.getD_eq_getElem?_getD, List.getElem?_eq_getElem (by rw [contents_length]; exact hk)]
    rfl
  rw [hget _ (by omega), hget _ (by omega), Option.some.injEq,
    byte_eq_iff (contents_bytes h.inv _) (contents_bytes h.inv _)]
  intro t ht
  have hb : ∀ {i : Nat}, lo ≤ i → seg x i s.length = s → 8 * i + s.length ≤ L → i + s.length / 8 ≤ n + 1 →
      some (bitAt (contents w) (8 * (i - lo) + (8 * j + t))) = s[8 * j + t]? := by
    intro i hi hsi hLi hni
    have := h.bits (i + j) t (by omega) (by omega) (by omega) (by omega)
    rw [show 8 * (i + j - lo) + t = 8 * (i - lo) + (8 * j + t) by omega,
      show 8 * (i + j) + t = 8 * i + (8 * j + t) by omega] at this
    rw [this, ← hsi]
    unfold seg
    rw [List.getElem?_map, List.getElem?_range (by omega)]
    rfl
  have := (hb h1 hs hL hn).trans (hb h1' hs' hL' hn').symm
  rwa [Option.some.injEq, show 8 * (i - lo) + (8 * j + t) = 8 * (i - lo + j) + t by omega,
    show 8 * (i' - lo) + (8 * j + t) = 8 * (i' - lo + j) + t by omega, bitAt_byte _ _ _ ht,
    bitAt_byte _ _ _ ht] at this

/-- a whole number of bytes can be dropped from a branching string -/
theorem br_drop (hL : L ≤ 8 * n + 8) : ∀ (k : Nat) {s : Str}, Br (Known x lo n L 0) D s → 8 * k ≤ s.length →
    Br (Known x lo n L 0) D (s.drop (8 * k)) := by
  intro k
  induction k with
  | zero => intro s h _; exact h
  | succ k ih =>
    intro s h hk
    have h8 : Br (Known x lo n L 0) D (s.drop 8) := by
      refine ⟨by rw [List.length_drop]; have := h.1; omega, fun b => ?_⟩
      obtain ⟨i, h1, h2, h3, h4⟩ := h.2 b
      rw [seg_snoc_iff] at h3
      rw [List.length_append, List.length_singleton] at h4
      refine ⟨i + 1, by omega, by omega, ?_, ?_⟩
      · rw [seg_snoc_iff]
        have hd := seg_drop (x := x) i (s.length - 8)
        rw [show s.length - 8 + 8 = s.length by omega, h3.1] at hd
        rw [List.length_drop]
        refine ⟨hd.symm, ?_⟩
        rw [show 8 * (i + 1) + (s.length - 8) = 8 * i + s.length by omega]
        exact h3.2
      · rw [List.length_append, List.length_drop, List.length_singleton]; omega
    have := ih h8 (by rw [List.length_drop]; omega)
    rwa [List.drop_drop, show 8 + 8 * k = 8 * (k + 1) by omega] at this

/-- every node but the root is a child -/
theorem TInv.parent (h : TInv P D ex Pc table ps N str) {v : Nat} {nd : Node} (hv : N v = some nd) :
    ∀ (k : Nat) {u : Nat} {nu : Node}, N u = some nu → str u <+: str v → u ≠ v → (str v).length ≤ (str u).length + k →
      ∃ p b i, (∃ np, N p = some np) ∧ Last P (str p ++ [b]) i ∧ Least P D (str p ++ [b]) (str v) ∧ nd.textStart = ps i := by
  intro k
  induction k with
  | zero =>
    intro u nu hu hp hne hk
    exact absurd (h.inj _ _ _ _ hu hv (hp.eq_of_length (by have := hp.length_le; omega))) hne
  | succ k ih =>
    intro u nu hu hp hne hk
    have hs : str u ≠ str v := fun he => hne (h.inj _ _ _ _ hu hv he)
    obtain ⟨c, hc⟩ := snoc_of_prefix hp hs
    obtain ⟨i, hi, ⟨hn, -⟩ | ⟨w, nw, hw1, hw, -, hl, ht⟩⟩ := (h.node u nu hu).child c
    · exact absurd hc (hn _ (h.node v nd hv).br)
    · by_cases he : w = v
      · subst he
        rw [hv, Option.some.injEq] at hw
        subst hw
        exact ⟨u, c, i, ⟨nu, hu⟩, hi, hl, ht⟩
      · have := snoc_len hl.2.1
        exact ih hw (hl.2.2 _ (h.node v nd hv).br hc) he (by omega)

/-- the string of a node has been read where the check takes its text from -/
theorem text_known (hI : TInv (Known x lo n (8 * (n + e)) 0) (8 * maxOrder + 7) ex Pc table (pos sh W) N str)
    (hC : Contexts (Known x lo n (8 * (n + e)) 0) x (8 * maxOrder + 7) maxOrder ex Ic (pos sh W) N str lo n (8 * (n + e)) ctxs)
    (he : e ≤ 1) (h0 : (∃ ctx ∈ ctxs, ctx.node = 0) ∨ Known x lo n (8 * (n + e)) 0 (str 0) n) {v : Nat} {nd : Node} (hv : N v = some nd) :
    ∃ i, Known x lo n (8 * (n + e)) 0 (str v) i ∧ (contextSuffix ctxs v).getD nd.textStart = pos sh W i := by
  have hsys := known_sys (x := x) (lo := lo) (n := n) (L := 8 * (n + e)) (lim := 0)
  have hbv := (hI.node v nd hv).br
  unfold contextSuffix
  cases hf : ctxs.reverse.find? fun ctx => decide (ctx.node = v) with
  | some ctx =>
    have hmem := List.mem_reverse.mp (List.mem_of_find?_eq_some hf)
    have hnode : ctx.node = v := by simpa using List.find?_some hf
    obtain ⟨m, hm⟩ := List.mem_iff_getElem?.mp hmem
    obtain ⟨⟨i, ⟨⟨b, hb⟩, -⟩, hsuf⟩, -⟩ := hC.info m ctx hm
    refine ⟨i, ?_, hsuf⟩
    obtain ⟨nd', h1, ⟨-, hl⟩ | ⟨-, c, -, hp, -⟩⟩ := hC.loc m ctx hm
    · rw [hnode] at hl
      have hmn : lo + m < n := by
        have := hC.size
        have := (List.getElem?_eq_some_iff.mp hm).1
        omega
      have hlen : (cs x n (8 * (n + e)) m).length = 8 * (m + e) := by rw [cs_length]; omega
      have hocc : Known x lo n (8 * (n + e)) 0 (cs x n (8 * (n + e)) m) i := hsys.pre hb (List.prefix_append _ _)
      obtain ⟨k1, k2, k3, k4⟩ := hb
      rw [List.length_append, hlen, List.length_singleton] at k4
      have hu : Known x lo n (8 * (n + e)) 0 (seg x i (8 * (n + e - i))) i :=
        ⟨k1, k2, by rw [seg_length], by rw [seg_length]; omega⟩
      rcases hsys.least_cmp hl hu (by
          have := hsys.det hocc hu (by rw [hlen, seg_length]; omega)
          exact this) with hp | hp
      · exfalso
        have hk := hp.length_le
        rw [seg_length] at hk
        have hbr := br_drop (by omega) (n - m - i) hl.1 (by omega)
        have hpre : cs x n (8 * (n + e)) m <+: (str v).drop (8 * (n - m - i)) := by
          obtain ⟨r, hr⟩ := hp
          refine ⟨r, ?_⟩
          rw [← hr, List.drop_append, seg_length, show 8 * (n - m - i) - 8 * (n + e - i) = 0 by omega, List.drop_zero]
          congr 1
          unfold cs
          apply List.ext_getElem
          · simp; omega
          · intro q hq1 hq2
            simp only [seg, List.getElem_drop, List.getElem_map, List.getElem_range]
            congr 1; omega
        have := (hl.2.2 _ hbr hpre).length_le
        rw [List.length_drop] at this
        omega
      · exact hsys.pre hu hp
    · rw [hnode] at hp
      exact hsys.pre hb ((prefix_of_snoc hp).trans (List.prefix_append _ _))
  | none =>
    rw [List.find?_eq_none] at hf
    have hno : ∀ ctx ∈ ctxs, ctx.node ≠ v := by
      intro ctx hctx he
      exact hf ctx (List.mem_reverse.mpr hctx) (by simpa using he)
    obtain ⟨n0, hn0⟩ := hI.root
    by_cases hv0 : 0 = v
    · subst hv0
      rcases h0 with ⟨ctx, k1, k2⟩ | h0
      · exact absurd k2 (hno ctx k1)
      · obtain ⟨nr, k1, k2⟩ := hC.root
        rw [hv, Option.some.injEq] at k1
        exact ⟨n, h0, by rw [k1]; exact k2⟩
    obtain ⟨p, b, i, -, hlast, hl, ht⟩ := hI.parent hv (str v).length hn0 (hI.rootle _ hbv) hv0 (by omega)
    refine ⟨i, ?_, ht⟩
    have hknown := hlast.1
    obtain ⟨k1, k2, k3, k4⟩ := hlast.1
    rw [List.length_append, List.length_singleton] at k4
    have hu : Known x lo n (8 * (n + e)) 0 (seg x i (8 * (n + e - i))) i :=
      ⟨k1, k2, by rw [seg_length], by rw [seg_length]; omega⟩
    have hpu := hsys.det hknown hu (by rw [List.length_append, List.length_singleton, seg_length]; omega)
    rcases hsys.least_cmp hl hu hpu with hp | hp
    · by_cases he : seg x i (8 * (n + e - i)) = str v
      · rw [← he]; exact hu
      · exfalso
        obtain ⟨c, hc⟩ := snoc_of_prefix hp he
        have hclen := snoc_len hc
        rw [seg_length] at hclen
        have hcs : cs x n (8 * (n + e)) (n - i) = seg x i (8 * (n + e - i)) := by
          unfold cs
          rw [show n - (n - i) = i by omega, show 8 * (n + e) - 8 * i = 8 * (n + e - i) by omega]
        have hD := hbv.1
        have hml : n - i < ctxs.length := by
          by_contra hge
          obtain ⟨i', hi'⟩ := hbv.2 true
          refine hC.none (n - i) (by omega) (by omega) (by omega) i' ⟨c, ?_⟩
          rw [hcs]
          exact hsys.pre hi' (hc.trans (List.prefix_append _ _))
        have hget := List.getElem?_eq_getElem hml
        obtain ⟨nd', g1, ⟨-, g2⟩ | ⟨g2, c', g3, g4, -⟩⟩ := hC.loc _ _ hget
        · rw [hcs] at g2
          have hl' : Least (Known x lo n (8 * (n + e)) 0) (8 * maxOrder + 7) (seg x i (8 * (n + e - i))) (str v) :=
            ⟨hbv, hp, fun r hr hpr => hl.2.2 r hr (hpu.trans hpr)⟩
          have heq := prefix_antisymm (hl'.2.2 _ g2.1 g2.2.1) (g2.2.2 _ hl'.1 hl'.2.1)
          exact hno _ (List.getElem_mem hml) (hI.inj _ _ _ _ g1 hv heq.symm)
        · rw [hcs] at g4
          exact hC.set _ _ hget g2 c' g3 _ hbv (g4.trans hp)
    · exact hsys.pre hu hp

/-- the check of the contexts passes -/
theorem ctxsCheck_ok (hW : W ≤ 2 ^ 31) (hw : WinOk t.window x sh W lo (n + 1) (8 * (n + e)))
    (hT : TreeOk t (Known x lo n (8 * (n + e)) 0) (8 * maxOrder + 7) ex Pc table (pos sh W) (max 1 (W - 1)) N str cnt)
    (hC : Contexts (Known x lo n (8 * (n + e)) 0) x (8 * maxOrder + 7) maxOrder ex Ic (pos sh W) N str lo n (8 * (n + e)) ctxs)
    (he : e ≤ 1) (h0 : (∃ ctx ∈ ctxs, ctx.node = 0) ∨ Known x lo n (8 * (n + e)) 0 (str 0) n) : ctxsCheck t ctxs = some () := by
  unfold ctxsCheck
  rw [if_pos hT.proper]
  obtain ⟨u, done, e, -⟩ := traverse_root (f := compareChild t ctxs) (I := fun _ _ => True) (acc := ()) (by omega) hT (by
    intro done v nd b acc hv _ _
    refine ⟨(), ?_, trivial⟩
    have hno := hT.inv.node v nd hv
    obtain ⟨i, ⟨h1, h2, h3, h4⟩, htext⟩ := text_known hT.inv hC he h0 hv
    unfold compareChild
    dsimp only
    rw [htext, hno.depth]
    have key : ∀ i', Last (Known x lo n (8 * (n + e)) 0) (str v ++ [b]) i' → comparePrefix t.window (pos sh W i) (pos sh W i')
        (7 - (str v).length % 8) ((str v).length / 8) = some true := by
      rintro i' ⟨⟨g1, g2, g3, g4⟩, -⟩
      rw [seg_snoc_iff] at g3
      rw [List.length_append, List.length_singleton] at g4
      by_cases hend : i + (str v).length / 8 ≤ n
      · exact hw.compare h1 g1 h3 g3.1 (by omega) (by omega) hend (by omega)
      · exact hw.compare_end h1 g1 h3 g3.1 (by omega) (by omega) (by omega) (by omega) (by omega) (by omega)
    obtain ⟨i', hi', ⟨-, hc⟩ | ⟨w, nw, hw1, hw', hc, hl, ht⟩⟩ := hno.child b
    · rw [hc, if_neg (by rw [childIsNode_leaf]; simp), childToWindow_eq _ (by have := hw.lt i'; omega), ob_some,
        key i' hi', ob_some, check_pos rfl]
    · have := (rep_some hT.rep hw').2
      rw [hc, if_pos (childIsNode_node _), childToNode_eq _ (by omega), ob_some,
        rep_get hT.rep hw' (Or.inl hw1), ob_some, ht, key i' hi', ob_some, check_pos rfl]) trivial
  exact e

/-- the suffix walks stop at the root, whose text is the current byte -/
theorem checkSuffixes_root {t : Tree} {nd : Node} (hw : WinOk t.window x sh W lo (n + 1) L) (hn : lo ≤ n)
    (hM : maxOrder ≤ 8191) (hroot : t.proper = true → nodesGet t.nodes 0 = some nd ∧ nd.textStart = t.window.cursor ∧
      nd.depth ≤ 8 * maxOrder + 7) : ∀ (l : List Nat), (∀ s ∈ l, ∃ i, lo ≤ i ∧ i ≤ n ∧ s = pos sh W i) →
    checkSuffixes t maxOrder l = some () := by
  intro l
  induction l with
  | nil => intro _; rfl
  | cons s l ih =>
    intro hl
    rw [checkSuffixes, ih (fun s hs => hl s (by simp [hs]))]
    by_cases hp : t.proper = true
    · obtain ⟨h1, h2, h3⟩ := hroot hp
      rw [if_pos hp]
      obtain ⟨i, hi1, hi2, rfl⟩ := hl s (by simp)
      have hle : indexIsSmallerOrEqual t.window (pos sh W i) (pos sh W n) = some true := by
        unfold indexIsSmallerOrEqual
        rw [hw.smaller hn (le_refl _) hi1 hi2, ob_some, decide_eq_false (by omega)]
        rfl
      obtain ⟨f, hf⟩ : ∃ f, t.nodes.items.length = f + 1 := by
        cases hc : t.nodes.items with
        | nil => unfold nodesGet at h1; rw [hc] at h1; simp at h1
        | cons a l => exact ⟨l.length, rfl⟩
      rw [hf]
      unfold checkSuffix
      rw [h1, ob_some, usize_eq (by omega), ob_some, usize_eq (by omega), ob_some, check_pos (by omega), ob_some, h2,
        hw.cursor hn, hle, ob_some, check_pos rfl, ob_some, hw.diff hn (le_refl _) (le_refl _), ob_some,
        if_pos (by omega), Nat.sub_self]
      have hcmp : comparePrefix t.window (pos sh W i) (pos sh W n) 7 0 = some true := by
        have hsz := hw.size
        obtain ⟨r, e, hr⟩ := C25_compare hw.inv (a := i - lo) (b := n - lo) (n := 0) (bi := 7)
          (by omega) (by omega) (by omega)
        rw [hw.posOf hi1, hw.posOf hn] at e
        rw [e, Option.some.injEq, hr]
        exact ⟨fun j hj => by omega, fun k h1 h2 => by omega⟩
      rw [hcmp, ob_some, check_pos rfl, ob_some]
    · rw [if_neg hp, ob_some]

/-- the check of the tree passes -/
theorem treeCheck_ok (hW : W ≤ 2 ^ 31) (hM : maxOrder ≤ 8191) (hw : WinOk t.window x sh W lo (n + 1) L) (hn : lo ≤ n)
    (hL : L ≤ 8 * n + 8)
    (hcases : ProperOk luts x Pc Ic sh W maxOrder ex lo n L t ctxs ∨ t.proper = false)
    (hroot : t.proper = true → ∃ nd, nodesGet t.nodes 0 = some nd ∧ nd.textStart = t.window.cursor) :
    treeCheck t maxOrder = some () := by
  have hsz := hw.size
  have hinv := hw.inv
  have hdiff : indexDiff t.window t.window.cursor t.window.start = some (n - lo) := by
    rw [hw.cursor hn, hw.start]
    exact hw.diff (le_refl _) hn (le_refl _)
  have hsuf : checkSuffixes t maxOrder ((List.range t.window.size).map (posOf t.window)) = some () := by
    have hl : ∀ s ∈ (List.range t.window.size).map (posOf t.window), ∃ i, lo ≤ i ∧ i ≤ n ∧ s = pos sh W i := by
      intro s hs
      obtain ⟨k, hk, rfl⟩ := List.mem_map.mp hs
      rw [List.mem_range] at hk
      refine ⟨lo + k, by omega, by omega, ?_⟩
      rw [← hw.posOf (by omega)]
      congr 1; omega
    rcases hcases with ⟨N, str, cnt, hT, hC⟩ | hp
    · obtain ⟨nd, h1, h2⟩ := hroot hT.proper
      obtain ⟨n0, hn0⟩ := hT.inv.root
      have hno := hT.inv.node 0 n0 hn0
      rw [rep_get hT.rep hn0 (Or.inr hno.valid), Option.some.injEq] at h1
      subst h1
      have hg := rep_get hT.rep hn0 (Or.inr hno.valid)
      exact checkSuffixes_root hw hn hM (fun _ => ⟨hg, h2, by rw [hno.depth]; exact hno.br.1⟩) _ hl
    · exact checkSuffixes_root (nd := nodeInvalid) hw hn hM (fun h => by rw [hp] at h; simp at h) _ hl
  unfold treeCheck
  have hfst : checkWindow t.window = some () := by
    unfold checkWindow
    by_cases hf : t.window.size = t.window.max
    · rw [if_pos hf]
    · rw [if_neg hf, hdiff, ob_some, usize_eq (by have := hinv.max_lt; have := hinv.size_le; omega), ob_some,
        check_pos (by omega)]
  rw [hfst, ob_some, C26_suffixes hinv (by omega), ob_some, hsuf, ob_some]
  unfold checkLeaves
  rcases hcases with ⟨N, str, cnt, hT, hC⟩ | hp
  · rw [if_pos hT.proper]
    have hsys := known_sys (x := x) (lo := lo) (n := n) (L := L) (lim := 0)
    obtain ⟨counters, done, e, ⟨-, h2⟩, -⟩ := traverse_root (f := countLeaf t)
      (acc := List.replicate t.window.size 0)
      (I := fun done counters => counters.length = n + 1 - lo ∧ ∀ (o : Nat) k, counters[o]? = some k → k ≤ 1 ∧
        (k = 1 → ∃ p nd, p ∈ done ∧ N p.1 = some nd ∧ nd.child p.2 = (pos sh W (lo + o) : Int) ))
      (by omega) hT (by
        rintro done v nd b counters hv hnew ⟨hlen, hI⟩
        have hno := hT.inv.node v nd hv
        unfold countLeaf
        dsimp only
        obtain ⟨i', ⟨hi', hi''⟩, ⟨hnb, hc⟩ | ⟨w, nw, hw1, hw', hc, hl, ht⟩⟩ := hno.child b
        · obtain ⟨g1, g2, -⟩ := id hi'
          rw [if_neg (by rw [hc, childIsNode_leaf]; simp), hc, childToWindow_eq _ (by have := hw.lt i'; omega), ob_some,
            hw.start, hw.diff (le_refl _) g1 g2, ob_some, List.getElem?_eq_getElem (by omega), ob_some]
          have hz := hI (i' - lo) _ (List.getElem?_eq_getElem (by omega))
          have hzero : counters[i' - lo]'(by omega) = 0 := by
            by_contra hne
            obtain ⟨p, np, k1, k2, k3⟩ := hz.2 (by have := hz.1; omega)
            rw [show lo + (i' - lo) = i' by omega] at k3
            have hnp := hT.inv.node p.1 np k2
            obtain ⟨j, ⟨hj, hj'⟩, ⟨hnb', hcj⟩ | ⟨w, nw, hw1, -, hcj, -⟩⟩ := hnp.child p.2
            · have hji : j = i' := by
                rw [hcj] at k3
                have hj2 := hj
                obtain ⟨f1, f2, -⟩ := hj2
                exact hw.inj f1 f2 g1 g2 (by omega)
              subst hji
              have hpv : p = (v, b) := by
                rcases hsys.cmp hj hi' with hp | hp
                · by_cases he : str p.1 ++ [p.2] = str v ++ [b]
                  · have := List.append_inj' he rfl
                    have h1 := hT.inv.inj _ _ _ _ k2 hv this.1
                    have h2 : p.2 = b := by simpa using this.2
                    exact Prod.ext h1 h2
                  · exfalso
                    obtain ⟨c, hc⟩ := snoc_of_prefix hp he
                    have hlen2 := snoc_len hc
                    refine hnb' _ hno.br (List.prefix_of_prefix_length_le hp (List.prefix_append _ _) ?_)
                    simp at hlen2 ⊢; omega
                · by_cases he : str v ++ [b] = str p.1 ++ [p.2]
                  · have := List.append_inj' he.symm rfl
                    have h1 := hT.inv.inj _ _ _ _ k2 hv this.1
                    have h2 : p.2 = b := by simpa using this.2
                    exact Prod.ext h1 h2
                  · exfalso
                    obtain ⟨c, hc⟩ := snoc_of_prefix hp he
                    have hlen2 := snoc_len hc
                    refine hnb _ hnp.br (List.prefix_of_prefix_length_le hp (List.prefix_append _ _) ?_)
                    simp at hlen2 ⊢; omega
              exact hnew (hpv ▸ k1)
            · rw [hcj] at k3; omega
          rw [hzero, check_pos (by omega), ob_some]
          refine ⟨_, rfl, by rw [List.length_set, hlen], ?_⟩
          intro o k ho
          by_cases heo : o = i' - lo
          · subst heo
            rw [List.getElem?_set_self (by omega), Option.some.injEq] at ho
            refine ⟨by omega, fun _ => ⟨(v, b), nd, by simp, hv, ?_⟩⟩
            rw [show lo + (i' - lo) = i' by omega]
            exact hc
          · rw [List.getElem?_set_ne (fun h => heo h.symm)] at ho
            obtain ⟨f1, f2⟩ := hI o k ho
            refine ⟨f1, fun hk => ?_⟩
            obtain ⟨p, np, k1, k2, k3⟩ := f2 hk
            exact ⟨p, np, by simp [k1], k2, k3⟩
        · rw [hc, if_pos (childIsNode_node _)]
          refine ⟨counters, rfl, hlen, ?_⟩
          intro o k ho
          obtain ⟨f1, f2⟩ := hI o k ho
          refine ⟨f1, fun hk => ?_⟩
          obtain ⟨p, np, k1, k2, k3⟩ := f2 hk
          exact ⟨p, np, by simp [k1], k2, k3⟩)
      ⟨by rw [List.length_replicate, hsz], by
        intro o k ho
        have hk : k = 0 := List.eq_of_mem_replicate (List.mem_of_getElem? ho)
        subst hk
        exact ⟨by omega, by omega⟩⟩
    rw [e, ob_some, check_pos]
    intro k hk
    obtain ⟨o, ho⟩ := List.mem_iff_getElem?.mp hk
    exact (h2 o k ho).1
  · rw [if_neg (by rw [hp]; simp)]

/-- after the start of a byte the text of the root is the current byte -/
theorem shift_root {t t' : Tree} {ctxs ctxs' : List Ctx} (h : shift maxOrder t ctxs = some (t', ctxs'))
    (hp : t'.proper = true) : (∃ nd, t'.nodes.items[0]? = some nd ∧ nd.textStart = wrapU32 t'.window.cursor) ∧
      ∃ ctx, ctxs'[0]? = some ctx ∧ ctx.node = 0 := by
  unfold shift at h
  by_cases hpr : t.proper = true
  · rw [if_pos hpr] at h
    cases h1 : nodesGet t.nodes 0 with
    | none => rw [h1, ob_none] at h; simp at h
    | some root =>
      rw [h1, ob_some] at h
      cases h2 : nodesSet t.nodes 0 { root with textStart := wrapU32 t.window.cursor } with
      | none => rw [h2, ob_none] at h; simp at h
      | some ns =>
        rw [h2, ob_some] at h
        cases h3 : u16 (root.leftCount + root.rightCount) with
        | none => rw [h3, ob_none] at h; simp at h
        | some sum =>
          rw [h3, ob_some] at h
          cases h4 : indexDecrement t.window t.window.cursor with
          | none => rw [h4, ob_none] at h; simp at h
          | some s =>
            rw [h4, ob_some] at h
            obtain ⟨rfl, rfl⟩ := Prod.mk.inj (Option.some.inj h)
            refine ⟨⟨{ root with textStart := wrapU32 t.window.cursor }, ?_, rfl⟩, _, rfl, rfl⟩
            unfold nodesSet at h2
            rw [h1, ob_some] at h2
            obtain rfl := Option.some.inj h2
            have hlt : 0 < t.nodes.items.length := by
              unfold nodesGet at h1
              cases hi : t.nodes.items[0]? with
              | none => rw [hi, ob_none] at h1; simp at h1
              | some a => exact (List.getElem?_eq_some_iff.mp hi).1
            exact List.getElem?_set_self hlt
  · rw [if_neg hpr] at h
    cases h1 : check (ctxs.length = 0) with
    | none => rw [h1, ob_none] at h; simp at h
    | some _ =>
      rw [h1, ob_some] at h
      obtain ⟨rfl, rfl⟩ := Prod.mk.inj (Option.some.inj h)
      exact absurd hp hpr

theorem srcStart_root {s s' : Src} (h : srcStart s = some s') (hp : s'.tree.proper = true) :
    (∃ nd, s'.tree.nodes.items[0]? = some nd ∧ nd.textStart = wrapU32 s'.tree.window.cursor) ∧
      ∃ ctx, s'.ctxs[0]? = some ctx ∧ ctx.node = 0 := by
  unfold srcStart at h
  cases h0 : check (s.bitIndex = -1) with
  | none => rw [h0, ob_none] at h; simp at h
  | some _ =>
    rw [h0, ob_some] at h
    cases h1 : treeStart s.tree s.ctxs with
    | none => rw [h1, ob_none] at h; simp at h
    | some r =>
      rw [h1, ob_some] at h
      obtain ⟨t1, c1⟩ := r
      dsimp only at h
      cases h2 : shift s.maxOrder t1 c1 with
      | none => rw [h2, ob_none] at h; simp at h
      | some r =>
        rw [h2, ob_some] at h
        obtain ⟨t2, c2⟩ := r
        dsimp only at h
        obtain rfl := Option.some.inj h
        exact shift_root h2 hp

/-- the check passes after the start of a byte -/
theorem srcCheck_ok (hW : W ≤ 2 ^ 31) (hM : maxOrder ≤ 8191) {s0 s : Src} (h0 : srcStart s0 = some s)
    (h : SrcOk luts x Pc sh W maxOrder n 0 s) : srcCheck s = some () := by
  obtain ⟨ho, hb, hst⟩ := h
  have hw := hst.win
  have hle := hst.le
  have hcl : s.tree.window.cursor < 2 ^ 32 := by rw [hw.cursor hle]; have := hw.lt n; omega
  unfold srcCheck
  rw [check_pos (by omega), ob_some, ho]
  have hroot : s.tree.proper = true → ∃ nd, nodesGet s.tree.nodes 0 = some nd ∧ nd.textStart = s.tree.window.cursor := by
    intro hp
    obtain ⟨⟨nd, h1, h2⟩, -⟩ := srcStart_root h0 hp
    rcases hst.cases with ⟨N, str, cnt, hT, hC⟩ | ⟨hf, -⟩
    · obtain ⟨n0, hn0⟩ := hT.inv.root
      have hg := rep_get hT.rep hn0 (Or.inr (hT.inv.node 0 n0 hn0).valid)
      have hi := (rep_some hT.rep hn0).1
      rw [h1, Option.some.injEq] at hi
      subst hi
      exact ⟨nd, hg, by rw [h2]; unfold wrapU32; exact Nat.mod_eq_of_lt hcl⟩
    · rw [hf] at hp; simp at hp
  have hctx : ctxsCheck s.tree s.ctxs = some () := by
    rcases hst.cases with ⟨N, str, cnt, hT, hC⟩ | ⟨hf, -⟩
    · obtain ⟨-, ctx, k1, k2⟩ := srcStart_root h0 hT.proper
      exact ctxsCheck_ok (e := 0) hW hw hT hC (by omega) (Or.inl ⟨ctx, List.mem_of_getElem? k1, k2⟩)
    · unfold ctxsCheck
      rw [if_neg (by rw [hf]; simp)]
  rw [hctx, ob_some]
  refine treeCheck_ok (luts := luts) (Pc := Pc) (Ic := fun _ _ => True) (ex := n + 1 - W = 0) (ctxs := s.ctxs) hW hM hw hle (by omega) ?_ hroot
  rcases hst.cases with hp | ⟨hf, -⟩
  · exact Or.inl hp
  · exact Or.inr hf

end Verif.Tree
