import Verif.Tree.State

/-!
# The oldest suffix
-/

namespace Verif.Tree

open Verif Verif.History Verif.Window

variable {P P' : Str → Nat → Prop} {D : Nat} {ex ex' : Prop} {Pc : Str → List Bool → Costs → Prop} {table : List Nat}
  {N N' : Live} {str str' : Nat → Str} {luts : Luts} {ps : Nat → Nat}
  {x : Nat → Bool} {sh W lo n j m maxOrder cnt : Nat}

/-- only the last edge on the way of the oldest suffix may have been read by it alone -/
theorem only_lo (hI : TInv P D ex Pc table ps N str) (hsys : Sys P) {v : Nat} {nd : Node} {dir : Bool}
    (hv : N v = some nd) (hlo : P (str v ++ [dir]) lo) (hno : NoBr P D (str v ++ [dir])) {s : Str} {c : Bool}
    (hs : Br P D s) (hc : P (s ++ [c]) lo) (honly : ∀ i, P (s ++ [c]) i → i = lo) : s = str v ∧ c = dir := by
  rcases Nat.lt_trichotomy s.length (str v).length with hl | hl | hl
  · have h1 : s ++ [c] <+: str v ++ [dir] := hsys.det hc hlo (by simp; omega)
    have h2 := snoc_of_lt h1 (List.prefix_append _ _) hl
    have hbr := (hI.node v nd hv).br
    obtain ⟨i0, hi0⟩ := hbr.2 true
    obtain ⟨i1, hi1⟩ := hbr.2 false
    have e0 := honly i0 (hsys.pre hi0 (h2.trans (List.prefix_append _ _)))
    have e1 := honly i1 (hsys.pre hi1 (h2.trans (List.prefix_append _ _)))
    rw [e0] at hi0
    rw [e1] at hi1
    have := hsys.bit hi0 hi1
    simp at this
  · have h1 : s ++ [c] = str v ++ [dir] := (hsys.det hc hlo (by simp; omega)).eq_of_length (by simp; omega)
    have := List.append_inj' h1 rfl
    exact ⟨this.1, by simpa using this.2⟩
  · have h1 : str v ++ [dir] <+: s ++ [c] := hsys.det hlo hc (by simp; omega)
    exact absurd (snoc_of_lt h1 (List.prefix_append _ _) hl) (hno s hs)

/-- the edge above a node -/
def ParentOk (P : Str → Nat → Prop) (D : Nat) (N : Live) (str : Nat → Str) (parent : Option (Nat × Bool)) (v : Nat) :
    Prop :=
  (v = 0 ∧ parent = none) ∨
    (1 ≤ v ∧ ∃ p d np, parent = some (p, d) ∧ N p = some np ∧ np.child d = -(v : Int) - 1 ∧
      Least P D (str p ++ [d]) (str v))

/-- the leaf on the way of the oldest suffix -/
def FoundOk (P : Str → Nat → Prop) (D : Nat) (N : Live) (str : Nat → Str) (ps : Nat → Nat) (lo : Nat) (f : Found) :
    Prop :=
  ∃ nd i, N f.node = some nd ∧ P (str f.node ++ [f.dir]) lo ∧ NoBr P D (str f.node ++ [f.dir]) ∧
    Last P (str f.node ++ [f.dir]) i ∧ f.leaf = ps i ∧ f.sibling = nd.child (!f.dir) ∧
    ParentOk P D N str f.parent f.node

/-- the oldest suffix has read all that comes after what it has read -/
theorem oldest_occ {t s : Str} (h : Least (Known x lo n (8 * n + 8) 0) D t s)
    (ht : Known x lo n (8 * n + 8) 0 t lo) : Occ (Known x lo n (8 * n + 8) 0) s lo := by
  obtain ⟨i, hi⟩ := h.1.occ
  have hi' := known_occ.mp hi
  have hsys := known_sys (x := x) (lo := lo) (n := n) (L := 8 * n + 8) (lim := 0)
  have hu : Known x lo n (8 * n + 8) 0 (seg x lo s.length) lo :=
    ⟨le_refl _, by omega, by rw [seg_length], by rw [seg_length]; omega⟩
  have hle := h.2.1.length_le
  have hp : t <+: seg x lo s.length := by
    rw [← ht.2.2.1]; exact seg_prefix _ hle
  have he : seg x lo s.length = s := by
    rcases hsys.least_cmp h hu hp with h1 | h1
    · exact h1.eq_of_length (by simp)
    · exact (h1.eq_of_length (by simp)).symm
  rw [known_occ]
  exact ⟨le_refl _, by omega, he, by omega⟩

theorem walk_ok (hW : W ≤ 2 ^ 31) {t : Tree} (hw : WinOk t.window x sh W lo (n + 1) (8 * n + 8))
    (hT : TreeOk t (Known x lo n (8 * n + 8) 0) D ex Pc table (pos sh W) (max 1 (W - 1)) N str cnt) :
    ∀ (fuel : Nat) (parent : Option (Nat × Bool)) (v : Nat) (nd : Node), N v = some nd →
      D + 1 ≤ fuel + (str v).length → Occ (Known x lo n (8 * n + 8) 0) (str v) lo →
      ParentOk (Known x lo n (8 * n + 8) 0) D N str parent v →
      ∃ f, walk t fuel parent v = some f ∧ FoundOk (Known x lo n (8 * n + 8) 0) D N str (pos sh W) lo f
  | 0, parent, v, nd, hv, hfuel, _, _ => by
    have := (hT.inv.node v nd hv).br.1
    omega
  | fuel + 1, parent, v, nd, hv, hfuel, hocc, hpar => by
    have hn := hT.inv.node v nd hv
    have hposlt : ∀ i, pos sh W i < 2 ^ 31 := fun i => lt_of_lt_of_le (hw.lt i) hW
    have ho := known_occ.mp hocc
    rw [walk, rep_get hT.rep hv (Or.inr hn.valid), ob_some, hn.depth, hw.start, hw.add (le_refl _) (by omega), ob_some,
      hw.getBit (by omega) (by omega) (by omega) (by omega), ob_some]
    dsimp only
    have hbit : 8 * (lo + (str v).length / 8) + (str v).length % 8 = 8 * lo + (str v).length := by omega
    rw [hbit]
    generalize hb : x (8 * lo + (str v).length) = b
    have hP : Known x lo n (8 * n + 8) 0 (str v ++ [b]) lo := by
      refine ⟨le_refl _, by omega, seg_snoc_iff.mpr ⟨ho.2.2.1, hb⟩, ?_⟩
      rw [List.length_append, List.length_singleton]; omega
    obtain ⟨i, hl, ⟨hno, hce⟩ | ⟨w, nw, hw1, hwn, hce, hle, -⟩⟩ := hn.child b
    · have hwin : childIsNode ((pos sh W i : Nat) : Int) = false := by simp [childIsNode]
      rw [hce, if_neg (by rw [hwin]; simp), childToWindow_eq _ (hposlt _), ob_some]
      exact ⟨_, rfl, nd, i, hv, hP, hno, hl, rfl, rfl, hpar⟩
    · have hwc : w < 2 ^ 31 := lt_of_lt_of_le (rep_some hT.rep hwn).2 (by omega)
      have hwin : childIsNode (-(w : Int) - 1) = true := by simp [childIsNode]; omega
      rw [hce, if_pos hwin, childToNode_eq _ hwc, ob_some]
      have hlen := snoc_len hle.2.1
      exact walk_ok hW hw hT fuel (some (v, b)) w nw hwn (by omega) (oldest_occ hle hP)
        (Or.inr ⟨hw1, v, b, nd, rfl, hv, hce, hle⟩)

/-- the walk from the root -/
theorem walk_root (hW : W ≤ 2 ^ 31) (hD : D ≤ 65535) {t : Tree} (hw : WinOk t.window x sh W lo (n + 1) (8 * n + 8))
    (hT : TreeOk t (Known x lo n (8 * n + 8) 0) D ex Pc table (pos sh W) (max 1 (W - 1)) N str cnt) (hle : lo ≤ n) :
    ∃ f, walk t 65536 none 0 = some f ∧ FoundOk (Known x lo n (8 * n + 8) 0) D N str (pos sh W) lo f := by
  obtain ⟨nd, hnd⟩ := hT.inv.root
  have hd := root_depth hT.inv
  refine walk_ok hW hw hT 65536 none 0 nd hnd (by omega) ?_ (Or.inl ⟨rfl, rfl⟩)
  rw [known_occ]
  refine ⟨le_refl _, hle, ?_, by omega⟩
  rw [root_seg hT.inv (le_refl _) (by omega) (le_refl _) hle, List.take_length]

/-! ## What forgetting the oldest suffix changes -/

theorem NoBr.drop (hd : Drop P P' lo) {s : Str} (h : NoBr P D s) : NoBr P' D s := fun r hr => h r (hd.br hr)

theorem StatOk.drop (hd : Drop P P' lo) (hex : ex' → False) {s : Str} {nd : Node} (h : StatOk P ex Pc table s nd) :
    StatOk P' ex' Pc table s nd := by
  obtain ⟨q, q0, c, h1, h2, -, h4⟩ := h
  obtain ⟨q', k1, k2⟩ := hd.flw h1
  exact ⟨q, q', c, k1, k2.trans h2, fun he => (hex he).elim, h4⟩

theorem InfoOk.drop (hd : Drop P P' lo) (hex : ex' → False) {s : Str} {ctx : Ctx} {I : Nat → Prop}
    (h : InfoOk P ex I ps ctx s) (hne : ∀ i, LastOcc P s i → i ≠ lo) : InfoOk P' ex' I ps ctx s := by
  obtain ⟨⟨i, h1, h2⟩, C, q0, h3, h4, -, h5⟩ := h
  obtain ⟨q', k1, k2⟩ := hd.flw h3
  have := k2.length_le
  exact ⟨⟨i, hd.lastOcc h1 (hne i h1), h2⟩, C, q', k1, by omega, fun he => (hex he).elim, h5⟩

section

variable (hI : TInv P D ex Pc table ps N str) (hsys : Sys P) (hd : Drop P P' lo) {v : Nat} {nd : Node} {dir : Bool}
  (hv : N v = some nd) (hlo : P (str v ++ [dir]) lo) (hno : NoBr P D (str v ++ [dir]))

include hI hsys hd hv hlo hno

/-- when the leaf has been read later, all stays -/
theorem drop_br_same (hlater : ∃ i, P (str v ++ [dir]) i ∧ i ≠ lo) (s : Str) : Br P' D s ↔ Br P D s := by
  refine ⟨hd.br, fun h => ⟨h.1, ?_⟩⟩
  intro c
  by_contra hne
  have honly : ∀ i, P (s ++ [c]) i → i = lo := by
    intro i hi
    by_contra hl
    exact hne ⟨i, (hd.iff _ _).mpr ⟨hi, hl⟩⟩
  obtain ⟨i, hi⟩ := h.2 c
  have := honly i hi
  subst this
  obtain ⟨rfl, rfl⟩ := only_lo hI hsys hv hlo hno h hi honly
  obtain ⟨i', h1, h2⟩ := hlater
  exact h2 (honly i' h1)

/-- otherwise the node branches no more -/
theorem drop_br_less (honly : ∀ i, P (str v ++ [dir]) i → i = lo) (s : Str) : Br P' D s ↔ Br P D s ∧ s ≠ str v := by
  constructor
  · intro h
    refine ⟨hd.br h, ?_⟩
    rintro rfl
    obtain ⟨i, hi⟩ := h.2 dir
    have := (hd.iff _ _).mp hi
    exact this.2 (honly i this.1)
  · rintro ⟨h, hne⟩
    refine ⟨h.1, ?_⟩
    intro c
    by_contra hnone
    have hon : ∀ i, P (s ++ [c]) i → i = lo := by
      intro i hi
      by_contra hl
      exact hnone ⟨i, (hd.iff _ _).mpr ⟨hi, hl⟩⟩
    obtain ⟨i, hi⟩ := h.2 c
    have := hon i hi
    subst this
    exact hne (only_lo hI hsys hv hlo hno h hi hon).1

/-- last places of edges survive, except for the leaf -/
theorem drop_last {s : Str} {c : Bool} {i : Nat} (hs : Br P D s)
    (hne : s ≠ str v ∨ c ≠ dir ∨ ∃ i, P (str v ++ [dir]) i ∧ i ≠ lo) (hl : Last P (s ++ [c]) i) :
    Last P' (s ++ [c]) i := by
  apply hd.last hl
  rintro rfl
  have hon : ∀ i', P (s ++ [c]) i' → i' = i := by
    intro i' hi'
    have h1 := hl.2 i' hi'
    have h2 := hd.ge _ _ hi'
    omega
  obtain ⟨rfl, rfl⟩ := only_lo hI hsys hv hlo hno hs hl.1 hon
  rcases hne with h | h | ⟨i', h1, h2⟩
  · exact h rfl
  · exact h rfl
  · exact h2 (hon i' h1)

/-- forgetting a suffix whose leaf has been read later -/
theorem TInv.dropSame (hex : ex' → False) (hlater : ∃ i, P (str v ++ [dir]) i ∧ i ≠ lo) :
    TInv P' D ex' Pc table ps N str := by
  have hbr := drop_br_same hI hsys hd hv hlo hno hlater
  refine ⟨hI.root, ?_, fun s hs => hI.full s ((hbr s).mp hs), hI.inj, fun s hs => hI.rootle s ((hbr s).mp hs)⟩
  intro u nu hu
  have hn := hI.node u nu hu
  refine ⟨(hbr _).mpr hn.br, hn.depth, hn.text, hn.stat.drop hd hex, ?_⟩
  intro b
  refine (hn.child b).transfer ?_ (fun h => h.drop hd) ?_
  · intro i hi
    exact drop_last hI hsys hd hv hlo hno hn.br (Or.inr (Or.inr hlater)) hi
  · intro w nw _ hw hl
    exact ⟨nw, hw, rfl, least_congr hbr hl⟩

/-- removing a node other than the root -/
theorem TInv.remove (hex : ex' → False) (honly : ∀ i, P (str v ++ [dir]) i → i = lo) {p : Nat} {np np' : Node}
    {d : Bool} (hv1 : 1 ≤ v) (hp : N p = some np) (hle : Least P D (str p ++ [d]) (str v))
    (h1 : N' v = none) (h2 : N' p = some np') (h2c : np'.child (!d) = np.child (!d)) (h2d : np'.depth = np.depth)
    (h2t : np'.textStart = np.textStart) (h2s : StatOk P ex Pc table (str p) np')
    (h2n : ChildOk P' D ps N' str (str p ++ [d]) (np'.child d))
    (h3 : ∀ u nu, u ≠ v → u ≠ p → N u = some nu → ∃ nu', N' u = some nu' ∧ (∀ c, nu'.child c = nu.child c) ∧
      nu'.depth = nu.depth ∧ nu'.textStart < 2 ^ 31 ∧ StatOk P ex Pc table (str u) nu' ∧
      (nu'.textStart = nu.textStart ∨ Least P D (str v ++ [!dir]) (str u)))
    (h4 : ∀ u, N u = none → N' u = none) : TInv P' D ex' Pc table ps N' str := by
  have hbr := drop_br_less hI hsys hd hv hlo hno honly
  have hpv : p ≠ v := by rintro rfl; exact least_ne hle
  have hback : ∀ u nu, N' u = some nu → u ≠ v ∧ ∃ nu', N u = some nu' := by
    intro u nu hu
    refine ⟨by rintro rfl; rw [h1] at hu; simp at hu, ?_⟩
    cases hN : N u with
    | none => rw [h4 u hN] at hu; simp at hu
    | some nu' => exact ⟨nu', rfl⟩
  have hsv : ∀ u nu, N u = some nu → u ≠ v → str u ≠ str v := fun u nu hu hne he => hne (hI.inj u v _ _ hu hv he)
  -- edges other than the one to the node
  have hedge : ∀ u nu c, N u = some nu → u ≠ v → (u = p → c = !d) →
      ChildOk P' D ps N' str (str u ++ [c]) (nu.child c) := by
    intro u nu c hu huv hupd
    have hn := hI.node u nu hu
    refine (hn.child c).transfer ?_ (fun h => h.drop hd) ?_
    · intro i hi
      exact drop_last hI hsys hd hv hlo hno hn.br (Or.inl (hsv u nu hu huv)) hi
    · intro w nw hw1 hw hl
      have hwv : w ≠ v := by
        rintro rfl
        obtain ⟨e1, e2⟩ := least_parent (hI.node p np hp).br hn.br hle hl
        have hup := hI.inj u p _ _ hu hp e1.symm
        rw [hupd hup] at e2
        cases d <;> simp at e2
      have hL' : Least P' D (str u ++ [c]) (str w) :=
        ⟨(hbr _).mpr ⟨hl.1, hsv w nw hw hwv⟩, hl.2.1, fun r hr => hl.2.2 r (hd.br hr)⟩
      by_cases hwp : w = p
      · subst hwp
        rw [hp, Option.some.injEq] at hw
        subst hw
        exact ⟨np', h2, h2t, hL'⟩
      · obtain ⟨nw', k1, -, -, -, -, k5⟩ := h3 w nw hwv hwp hw
        refine ⟨nw', k1, ?_, hL'⟩
        rcases k5 with k5 | k5
        · exact k5
        · have := (least_parent hn.br (hI.node v nd hv).br hl k5).1
          exact absurd this (hsv u nu hu huv)
  have hnode : ∀ u nu, N' u = some nu → NodeOk P' D ex' Pc table ps N' str u nu := by
    intro u nu hu
    obtain ⟨huv, nu0, hu0⟩ := hback u nu hu
    have hn := hI.node u nu0 hu0
    have hb : Br P' D (str u) := (hbr _).mpr ⟨hn.br, hsv u nu0 hu0 huv⟩
    by_cases hup : u = p
    · subst hup
      rw [hp, Option.some.injEq] at hu0
      subst hu0
      rw [h2, Option.some.injEq] at hu
      subst hu
      refine ⟨hb, by rw [h2d, hn.depth], by rw [h2t]; exact hn.text, h2s.drop hd hex, ?_⟩
      intro c
      rcases bool_eq_or d c with rfl | rfl
      · exact h2n
      · rw [h2c]
        exact hedge u np _ hp huv (fun _ => rfl)
    · obtain ⟨nu', k1, k2, k3, k4, k5, -⟩ := h3 u nu0 huv hup hu0
      rw [k1, Option.some.injEq] at hu
      subst hu
      refine ⟨hb, by rw [k3, hn.depth], k4, k5.drop hd hex, ?_⟩
      intro c
      rw [k2]
      exact hedge u nu0 c hu0 huv (fun h => absurd h hup)
  refine ⟨?_, hnode, ?_, ?_, fun s hs => hI.rootle s (hd.br hs)⟩
  · obtain ⟨n0, hn0⟩ := hI.root
    by_cases hp0 : 0 = p
    · exact ⟨np', by rw [hp0]; exact h2⟩
    · obtain ⟨nu', k1, -⟩ := h3 0 n0 (by omega) hp0 hn0
      exact ⟨nu', k1⟩
  · intro s hs
    obtain ⟨hs1, hs2⟩ := (hbr s).mp hs
    obtain ⟨u, nu, hu, rfl⟩ := hI.full s hs1
    have huv : u ≠ v := by rintro rfl; exact hs2 rfl
    by_cases hup : u = p
    · subst hup; exact ⟨u, np', h2, rfl⟩
    · obtain ⟨nu', k1, -⟩ := h3 u nu huv hup hu
      exact ⟨u, nu', k1, rfl⟩
  · intro u w nu nw hu hw he
    obtain ⟨-, nu0, hu0⟩ := hback u nu hu
    obtain ⟨-, nw0, hw0⟩ := hback w nw hw
    exact hI.inj u w nu0 nw0 hu0 hw0 he

/-- what is below the removed node in the other direction -/
theorem drop_least (honly : ∀ i, P (str v ++ [dir]) i → i = lo) {t s : Str} (ht : Least P D t (str v))
    (hs : Least P D (str v ++ [!dir]) s) : Least P' D t s := by
  have hbr := drop_br_less hI hsys hd hv hlo hno honly
  refine ⟨(hbr _).mpr ⟨hs.1, by rintro rfl; exact least_ne hs⟩, ht.2.1.trans (prefix_of_snoc hs.2.1), ?_⟩
  intro r hr hp
  obtain ⟨hr1, hr2⟩ := (hbr r).mp hr
  have h1 := ht.2.2 r hr1 hp
  obtain ⟨c, hc⟩ := snoc_of_prefix h1 (fun he => hr2 he.symm)
  rcases bool_eq_or dir c with rfl | rfl
  · exact absurd hc (hno r hr1)
  · exact hs.2.2 r hr1 hc

theorem drop_noBr (honly : ∀ i, P (str v ++ [dir]) i → i = lo) {t : Str} (ht : Least P D t (str v))
    (hs : NoBr P D (str v ++ [!dir])) : NoBr P' D t := by
  have hbr := drop_br_less hI hsys hd hv hlo hno honly
  intro r hr hp
  obtain ⟨hr1, hr2⟩ := (hbr r).mp hr
  have h1 := ht.2.2 r hr1 hp
  obtain ⟨c, hc⟩ := snoc_of_prefix h1 (fun he => hr2 he.symm)
  rcases bool_eq_or dir c with rfl | rfl
  · exact absurd hc (hno r hr1)
  · exact absurd hc (hs r hr1)

/-- removing the root in favour of its other child -/
theorem TInv.removeRoot (hex : ex' → False) (honly : ∀ i, P (str v ++ [dir]) i → i = lo) (h0 : v = 0) {w : Nat}
    {nw : Node} (hw1 : 1 ≤ w) (hw : N w = some nw) (hle : Least P D (str v ++ [!dir]) (str w)) {p : Nat}
    (hp : p < 2 ^ 31) :
    TInv P' D ex' Pc table ps ((N.put 0 (some { nw with textStart := p })).put w none) (setStr str 0 (str w)) := by
  subst h0
  have hbr := drop_br_less hI hsys hd hv hlo hno honly
  have hle' := drop_least hI hsys hd hv hlo hno honly (t := [])
    ⟨(hI.node 0 nd hv).br, List.nil_prefix, fun r hr _ => hI.rootle r hr⟩ hle
  have hsv : ∀ u nu, N u = some nu → u ≠ 0 → str u ≠ str 0 := fun u nu hu hne he => hne (hI.inj u 0 _ _ hu hv he)
  have hget0 : ((N.put 0 (some { nw with textStart := p })).put w none) 0 = some { nw with textStart := p } := by
    rw [put_ne _ _ (by omega), put_self]
  have hgetw : ((N.put 0 (some { nw with textStart := p })).put w none) w = none := put_self _ _ _
  have hget : ∀ u, u ≠ 0 → u ≠ w → ((N.put 0 (some { nw with textStart := p })).put w none) u = N u := by
    intro u h1 h2
    rw [put_ne _ _ h2, put_ne _ _ h1]
  generalize hN' : (N.put 0 (some { nw with textStart := p })).put w none = N' at *
  have hedge : ∀ u nu c, N u = some nu → u ≠ 0 →
      ChildOk P' D ps N' (setStr str 0 (str w)) (str u ++ [c]) (nu.child c) := by
    intro u nu c hu hu0
    have hn := hI.node u nu hu
    refine (hn.child c).transfer ?_ (fun h => h.drop hd) ?_
    · intro i hi
      exact drop_last hI hsys hd hv hlo hno hn.br (Or.inl (hsv u nu hu hu0)) hi
    · intro w' nw' hw1' hw' hl
      have hww : w' ≠ w := by
        rintro rfl
        have := (least_parent hn.br (hI.node 0 nd hv).br hl hle).1
        exact hsv u nu hu hu0 this
      refine ⟨nw', by rw [hget w' (by omega) hww]; exact hw', rfl, ?_⟩
      rw [setStr_ne _ _ (by omega)]
      exact ⟨(hbr _).mpr ⟨hl.1, hsv w' nw' hw' (by omega)⟩, hl.2.1, fun r hr => hl.2.2 r (hd.br hr)⟩
  refine ⟨⟨_, hget0⟩, ?_, ?_, ?_, ?_⟩
  · intro u nu hu
    by_cases hu0 : u = 0
    · subst hu0
      rw [hget0, Option.some.injEq] at hu
      subst hu
      have hn := hI.node w nw hw
      refine ⟨?_, ?_, hp, ?_, ?_⟩
      · rw [setStr_self]; exact hle'.1
      · rw [setStr_self]; exact hn.depth
      · rw [setStr_self]; exact (hn.stat.text p).drop hd hex
      · intro c
        rw [setStr_self]
        exact hedge w nw c hw (by omega)
    · have huw : u ≠ w := by rintro rfl; rw [hgetw] at hu; simp at hu
      rw [hget u hu0 huw] at hu
      have hn := hI.node u nu hu
      refine ⟨?_, ?_, hn.text, ?_, ?_⟩
      · rw [setStr_ne _ _ hu0]; exact (hbr _).mpr ⟨hn.br, hsv u nu hu hu0⟩
      · rw [setStr_ne _ _ hu0]; exact hn.depth
      · rw [setStr_ne _ _ hu0]; exact hn.stat.drop hd hex
      · intro c
        rw [setStr_ne _ _ hu0]
        exact hedge u nu c hu hu0
  · intro s hs
    obtain ⟨hs1, hs2⟩ := (hbr s).mp hs
    obtain ⟨u, nu, hu, rfl⟩ := hI.full s hs1
    have hu0 : u ≠ 0 := by rintro rfl; exact hs2 rfl
    by_cases huw : u = w
    · subst huw; exact ⟨0, _, hget0, setStr_self _ _ _⟩
    · exact ⟨u, nu, by rw [hget u hu0 huw]; exact hu, setStr_ne _ _ hu0⟩
  · have key : ∀ u nu, u ≠ 0 → N' u = some nu → N u = some nu ∧ u ≠ w := by
      intro u nu hu0 hu
      have huw : u ≠ w := by rintro rfl; rw [hgetw] at hu; simp at hu
      rw [hget u hu0 huw] at hu
      exact ⟨hu, huw⟩
    intro u u' nu nu' hu hu' he
    by_cases h1 : u = 0
    · by_cases h2 : u' = 0
      · rw [h1, h2]
      · obtain ⟨k1, k2⟩ := key u' nu' h2 hu'
        rw [h1, setStr_self, setStr_ne _ _ h2] at he
        exact absurd (hI.inj w u' _ _ hw k1 he).symm k2
    · obtain ⟨k1, k2⟩ := key u nu h1 hu
      rw [setStr_ne _ _ h1] at he
      by_cases h2 : u' = 0
      · rw [h2, setStr_self] at he
        exact absurd (hI.inj u w _ _ k1 hw he) k2
      · obtain ⟨k3, k4⟩ := key u' nu' h2 hu'
        rw [setStr_ne _ _ h2] at he
        exact hI.inj u u' _ _ k1 k3 he
  · intro s hs
    rw [setStr_self]
    exact hle'.2.2 s hs List.nil_prefix

end

end Verif.Tree
