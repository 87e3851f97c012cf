import Verif.Tree.Flat
import Mathlib.Data.Bool.Count

/-!
# Reading a bit and starting a byte
-/

namespace Verif.Tree

open Verif Verif.History Verif.Window

variable {P P' : Str → Nat → Prop} {D : Nat} {ex : Prop} {Pc Pc' : Str → List Bool → Costs → Prop}
  {Ic Ic' : Nat → Nat → Prop} {table : List Nat}
  {N N' : Live} {str str' : Nat → Str} {luts : Luts}
  {x : Nat → Bool} {sh W lo n j m maxOrder cnt : Nat}

/-- a tree of branching contexts, and the active contexts, when bytes `lo, …, n` are in the window and the first `L`
bits are known -/
def ProperOk (luts : Luts) (x : Nat → Bool) (Pc : Str → List Bool → Costs → Prop)
    (Ic : Nat → Nat → Prop) (sh W maxOrder : Nat) (ex : Prop) (lo n L : Nat) (t : Tree) (ctxs : List Ctx) : Prop :=
  ∃ N str cnt,
    TreeOk t (Known x lo n L 0) (8 * maxOrder + 7) ex Pc luts.costs (pos sh W) (max 1 (W - 1)) N str cnt ∧
    Contexts (Known x lo n L 0) x (8 * maxOrder + 7) maxOrder ex Ic (pos sh W) N str lo n L ctxs

/-- no tree yet, or no more -/
def FlatOk (x : Nat → Bool) (W : Nat) (lo n L : Nat) (t : Tree) (ctxs : List Ctx) : Prop :=
  t.proper = false ∧ ctxs = [] ∧ Flat x lo n L ∧
    ∃ N, Rep (max 1 (W - 1)) t.nodes N 0 ∧ (∃ nd, N 0 = some nd ∧ nodeIsValid nd = false) ∧ ∀ v, 1 ≤ v → N v = none

/-- the state within a byte -/
structure StateOk (luts : Luts) (x : Nat → Bool) (Pc : Str → List Bool → Costs → Prop)
    (Ic : Nat → Nat → Prop) (sh W maxOrder : Nat) (ex : Prop) (lo n L : Nat) (t : Tree) (ctxs : List Ctx) : Prop where
  win : WinOk t.window x sh W lo (n + 1) L
  le : lo ≤ n
  cases : ProperOk luts x Pc Ic sh W maxOrder ex lo n L t ctxs ∨ FlatOk x W lo n L t ctxs

theorem known_next_eq (hj : j < 8) : Known x lo n (8 * n + j) (n + 1) = Known x lo n (8 * n + (j + 1)) 0 := by
  funext s i
  exact propext (known_next (by omega) s i).symm

/-- Reading a bit without a tree. -/
theorem extend_flat (hL : LutsOk luts) (hW : W ≤ 2 ^ 31) (hM : maxOrder ≤ 8191) (hj : j < 8)
    {t : Tree} {ctxs : List Ctx} (hw : WinOk t.window x sh W lo (n + 1) (8 * n + j)) (hle : lo ≤ n)
    (hflat : ∀ m, Flat x lo n (8 * n + j) → x (8 * (n - 1) + j) ≠ x (8 * n + j) → lo + 1 ≤ n →
      m ≤ min maxOrder (n - 1 - lo) →
      ∃ c, Pc' (cs x n (8 * n + j) m) (List.replicate (n - m - lo) (!x (8 * n + j)) ++ [x (8 * n + j)]) c)
    (h : FlatOk x W lo n (8 * n + j) t ctxs) (costs : List Costs) :
    ∃ t' ctxs', extend luts t ctxs costs (x (8 * n + j)) (7 - j) maxOrder = some (t', ctxs') ∧
      StateOk luts x Pc' Ic' sh W maxOrder ex lo n (8 * n + (j + 1)) t' ctxs' := by
  obtain ⟨hpr, rfl, hf, N, hR, h0, hno⟩ := h
  obtain ⟨w', e1, hw'⟩ := hw.setBit hle rfl hj
  unfold extend
  rw [e1, ob_some]
  dsimp only
  rw [if_neg (by rw [hpr]; simp), check_pos (show ([] : List Ctx).length = 0 from rfl), ob_some]
  have hsize := hw'.size
  have hdiff : degenerateDiffers w' (7 - j) = some (decide (lo + 1 ≤ n ∧ x (8 * (n - 1) + j) ≠ x (8 * n + j))) := by
    unfold degenerateDiffers
    by_cases hs : lo + 1 ≤ n
    · unfold indexDecrement
      rw [if_pos (by omega), hw'.cursor hle, hw'.sub (by omega) (le_refl _), ob_some,
        hw'.differ (by omega) (by omega) hle (le_refl _) hj (by omega) (by omega)]
      congr 1
      generalize x (8 * (n - 1) + j) = a
      generalize x (8 * n + j) = b
      cases a <;> cases b <;> simp [hs]
    · rw [if_neg (by omega)]
      congr 1
      simp [hs]
  rw [hdiff, ob_some]
  by_cases hd : lo + 1 ≤ n ∧ x (8 * (n - 1) + j) ≠ x (8 * n + j)
  · rw [if_pos (by simpa using hd)]
    obtain ⟨hn, hd⟩ := hd
    unfold splitDegenerate
    have hget : winGetBit w' w'.cursor (7 - j) = some (x (8 * n + j)) := by
      rw [hw'.cursor hle, hw'.getBit hle (le_refl _) hj (by omega)]
    obtain ⟨ns', N', str', e2, hR', hI, hrt⟩ := degenerateOrders_ok (ex := ex) (maxOrder := maxOrder) hf hj hd hn hL hW
      (fun m hm => hflat m hf hd hn hm)
      (t := { t with window := w' }) hw' rfl hM rfl (min maxOrder (n - 1 - lo)) (last := none) (N := N)
      (ns := t.nodes) (str := fun _ => []) (le_refl _) (by rw [Nat.sub_self]; exact hR)
      ⟨h0.imp fun _ h => h.1, fun v nd hv hN => by rw [hno v hv] at hN; simp at hN, fun m h1 h2 => by omega,
        fun v w nv nw hv _ hN => by rw [hno v hv] at hN; simp at hN, Or.inl ⟨rfl, rfl⟩⟩
    dsimp only
    rw [hget, ob_some, show min maxOrder (w'.size - 2) = min maxOrder (n - 1 - lo) by omega, e2, ob_some, ob_some]
    refine ⟨_, _, rfl, hw', hle, Or.inl ⟨N', str', _, ⟨rfl, hR', ?_⟩, ?_⟩⟩
    · rw [← known_next_eq hj]; exact hI
    · refine ⟨by simp, by simpa using hle, ?_, ?_, ?_, ?_, hrt⟩
      · intro m ctx h; simp at h
      · intro m ctx h; simp at h
      · intro m ctx h; simp at h
      · intro m _ _ hmn i hi
        rw [← known_next_eq hj, show 8 * n + (j + 1) = 8 * n + j + 1 by omega] at hi
        have hb := known_before' (by omega) (by omega) hi
        rw [cs_succ (by omega)] at hi
        have hk := (hf.new_iff hj hd hn hmn i).mp (known_sys.occ hi)
        omega
  · rw [if_neg (by simpa using hd)]
    refine ⟨_, _, rfl, hw', hle, Or.inr ⟨hpr, rfl, ?_, N, hR, h0, hno⟩⟩
    intro i d h1 h2 h3 h4
    by_cases he : 8 * i + d < 8 * n + j
    · exact hf i d h1 h2 h3 he
    · obtain ⟨rfl, rfl⟩ : i = n ∧ d = j := by omega
      by_cases hs : lo + 1 ≤ i
      · have h5 : x (8 * (i - 1) + d) = x (8 * i + d) := by
          by_contra hne; exact hd ⟨hs, hne⟩
        rw [← h5]
        exact hf (i - 1) d (by omega) (by omega) h3 (by omega)
      · obtain rfl : lo = i := by omega
        rfl

/-- Reading a bit. -/
theorem extend_ok (hL : LutsOk luts) (hW : W ≤ 2 ^ 31) (hM : maxOrder ≤ 8191) (hj : j < 8)
    {t : Tree} {ctxs : List Ctx} (h : StateOk luts x Pc Ic sh W maxOrder ex lo n (8 * n + j) t ctxs)
    {costs : List Costs} (hst : t.proper = true → BitStep (Known x lo n (8 * n + j) 0) ex Pc Pc' Ic Ic' x n j ctxs.length costs)
    (hflat : ∀ m, Flat x lo n (8 * n + j) → x (8 * (n - 1) + j) ≠ x (8 * n + j) → lo + 1 ≤ n →
      m ≤ min maxOrder (n - 1 - lo) →
      ∃ c, Pc' (cs x n (8 * n + j) m) (List.replicate (n - m - lo) (!x (8 * n + j)) ++ [x (8 * n + j)]) c)
    (hcost : ∀ m, m < ctxs.length → (m < costs.length ↔
      Br (Known x lo n (8 * n + j) 0) (8 * maxOrder + 7) (cs x n (8 * n + j) m))) :
    ∃ t' ctxs', extend luts t ctxs costs (x (8 * n + j)) (7 - j) maxOrder = some (t', ctxs') ∧
      StateOk luts x Pc' Ic' sh W maxOrder ex lo n (8 * n + (j + 1)) t' ctxs' := by
  obtain ⟨hw, hle, ⟨N, str, cnt, hT, hC⟩ | hf⟩ := h
  · obtain ⟨t', ctxs', N', str', cnt', e, k1, k2, k3⟩ := extend_proper hL hW hM hj hw (hst hT.proper) hT hC hcost
    exact ⟨t', ctxs', e, k1, hle, Or.inl ⟨N', str', cnt', k2, k3⟩⟩
  · exact extend_flat hL hW hM hj hw hle hflat hf costs

/-! ## Starting a byte -/

/-- the text position of the root does not matter -/
theorem TInv.rootText {ps : Nat → Nat} (h : TInv P D ex Pc table ps N str) {nd : Node} (h0 : N 0 = some nd) {p : Nat}
    (hp : p < 2 ^ 31) : TInv P D ex Pc table ps (N.put 0 (some { nd with textStart := p })) str := by
  have hlive : ∀ v nv, (N.put 0 (some { nd with textStart := p })) v = some nv → ∃ nv', N v = some nv' := by
    intro v nv hv
    by_cases he : v = 0
    · rw [he]; exact ⟨nd, h0⟩
    · rw [put_ne _ _ he] at hv; exact ⟨nv, hv⟩
  refine ⟨⟨_, put_self _ _ _⟩, ?_, ?_, ?_, h.rootle⟩
  · intro v nv hv
    have key : ∀ nv', N v = some nv' → (∀ b, nv.child b = nv'.child b) → nv.depth = nv'.depth →
        nv.textStart < 2 ^ 31 → StatOk P ex Pc table (str v) nv →
        NodeOk P D ex Pc table ps (N.put 0 (some { nd with textStart := p })) str v nv := by
      intro nv' hv' hc hd ht hs
      have hn := h.node v nv' hv'
      refine ⟨hn.br, by rw [hd, hn.depth], ht, hs, ?_⟩
      intro b
      rw [hc]
      refine (hn.child b).transfer (fun i hi => hi) id ?_
      intro w nw hw1 hw hl
      exact ⟨nw, by rw [put_ne _ _ (by omega)]; exact hw, rfl, hl⟩
    by_cases he : v = 0
    · subst he
      rw [put_self, Option.some.injEq] at hv
      subst hv
      exact key nd h0 (fun b => rfl) rfl hp ((h.node 0 nd h0).stat.text p)
    · have hv' := hv
      rw [put_ne _ _ he] at hv'
      exact key nv hv' (fun b => rfl) rfl (h.node v nv hv').text (h.node v nv hv').stat
  · intro s hs
    obtain ⟨v, nv, h1, h2⟩ := h.full s hs
    by_cases he : v = 0
    · exact ⟨0, _, put_self _ _ _, by rw [← he]; exact h2⟩
    · exact ⟨v, nv, by rw [put_ne _ _ he]; exact h1, h2⟩
  · intro v w nv nw hv hw he
    obtain ⟨nv', hv'⟩ := hlive v nv hv
    obtain ⟨nw', hw'⟩ := hlive w nw hw
    exact h.inj v w nv' nw' hv' hw' he

/-- every complete byte starts as the root does -/
theorem root_seg {ps : Nat → Nat} (h : TInv (Known x lo n (8 * n + 8) 0) D ex Pc table ps N str) {d i : Nat}
    (hd : d ≤ (str 0).length) (h8 : d ≤ 8) (h1 : lo ≤ i) (h2 : i ≤ n) : seg x i d = (str 0).take d := by
  obtain ⟨nd, hnd⟩ := h.root
  have hbr := (h.node 0 nd hnd).br
  obtain ⟨i0, hi0⟩ := hbr.occ
  have hsys := known_sys (x := x) (lo := lo) (n := n) (L := 8 * n + 8) (lim := 0)
  have hP : Known x lo n (8 * n + 8) 0 (seg x i d) i := ⟨h1, h2, by rw [seg_length], by rw [seg_length]; omega⟩
  have hr : (str 0).take d = seg x i d := by
    have hlen : ((str 0).take d).length = d := by rw [List.length_take]; omega
    rcases hsys.part (D := D) (hsys.occ hi0) hP List.nil_prefix List.nil_prefix (by have := hbr.1; omega) with
      hp | hp | ⟨r, k1, -, k2, k3, k4, k5⟩
    · exact List.IsPrefix.eq_of_length ((List.take_prefix d _).trans hp) (by rw [hlen, seg_length])
    · exact (List.prefix_of_prefix_length_le (List.take_prefix d _) hp (by rw [hlen, seg_length])).eq_of_length
        (by rw [hlen, seg_length])
    · have := (h.rootle r k1).length_le
      omega
  exact hr.symm

/-- the root is within the first byte -/
theorem root_depth {ps : Nat → Nat} (h : TInv (Known x lo n (8 * n + 8) 0) D ex Pc table ps N str) :
    (str 0).length ≤ 7 := by
  by_contra hgt
  obtain ⟨nd, hnd⟩ := h.root
  have hbr := (h.node 0 nd hnd).br
  have key : ∀ c i, Known x lo n (8 * n + 8) 0 (str 0 ++ [c]) i → c = x (8 * n + (str 0).length % 8) := by
    rintro c i ⟨h1, h2, h3, h4⟩
    rw [seg_snoc_iff] at h3
    rw [List.length_append, List.length_singleton] at h4
    have e1 := root_seg h (d := 8) (i := i + (str 0).length / 8) (by omega) (le_refl _) (by omega) (by omega)
    have e2 := root_seg h (d := 8) (i := n) (by omega) (le_refl _) (by omega) (le_refl _)
    have e3 := congrArg (fun l => l[(str 0).length % 8]?) (e1.trans e2.symm)
    unfold seg at e3
    rw [List.getElem?_map, List.getElem?_map, List.getElem?_range (by omega), Option.map_some, Option.map_some,
      Option.some.injEq] at e3
    rw [← h3.2, ← e3]
    congr 1; omega
  obtain ⟨i, hi⟩ := hbr.2 true
  obtain ⟨i', hi'⟩ := hbr.2 false
  have := (key _ _ hi).trans (key _ _ hi').symm
  simp at this

theorem cs_shift {L : Nat} : cs x (n + 1) L (m + 1) = cs x n L m := by
  unfold cs
  rw [show n + 1 - (m + 1) = n - m by omega]

/-- how the start of a byte changes what is known of the counts of the contexts -/
structure ByteStep (P : Str → Nat → Prop) (D : Nat) (Pc : Str → List Bool → Costs → Prop)
    (Ic Ic' : Nat → Nat → Prop) : Prop where
  zero : ∀ s q c, Br P D s → (∀ r, Br P D r → s <+: r) → Pc s q c → Ic' 0 q.length
  succ : (∃ s, Br P D s) → ∀ m C, Ic m C → Ic' (m + 1) C

theorem ByteStep.any : ByteStep P D Pc (fun _ _ => True) (fun _ _ => True) :=
  ⟨fun _ _ _ _ _ _ => trivial, fun _ _ _ _ => trivial⟩

/-- the new context of order zero and the others -/
theorem shift_proper (hW : W ≤ 2 ^ 31) {t : Tree} {ctxs : List Ctx}
    (hw : WinOk t.window x sh W lo (n + 2) (8 * n + 8)) (hle : lo ≤ n)
    (hby : ByteStep (Known x lo n (8 * n + 8) 0) (8 * maxOrder + 7) Pc Ic Ic')
    (h : ProperOk luts x Pc Ic sh W maxOrder ex lo n (8 * n + 8) t ctxs) :
    ∃ t' ctxs', shift maxOrder t ctxs = some (t', ctxs') ∧ t'.window = t.window ∧
      ProperOk luts x Pc Ic' sh W maxOrder ex lo (n + 1) (8 * (n + 1)) t' ctxs' := by
  obtain ⟨N, str, cnt, hT, hC⟩ := h
  have hposlt : ∀ i, pos sh W i < 2 ^ 31 := fun i => lt_of_lt_of_le (hw.lt i) hW
  obtain ⟨nd, hnd⟩ := hT.inv.root
  have hn := hT.inv.node 0 nd hnd
  have hval := hn.valid
  have hcur := hw.cursor (by omega)
  have hlen := hC.len
  have hsize := hC.size
  obtain ⟨q, q0, c, g1, g2, g3, g4, g5, g6, g7, g8, g9⟩ := hn.stat
  have hqlen : q.count false + q.count true = q.length := by
    rw [List.count_false_add_count_true]
  obtain ⟨ns1, e1, hR⟩ := rep_set hT.rep hnd (Or.inr hval) { nd with textStart := wrapU32 (pos sh W (n + 1)) }
  rw [wrapU32_eq (by have := hposlt (n + 1); omega)] at hR
  unfold shift
  rw [if_pos hT.proper]
  dsimp only
  have hsum : u16 (nd.leftCount + nd.rightCount) = some (nd.leftCount + nd.rightCount) := u16_eq (by omega)
  unfold indexDecrement
  rw [rep_get hT.rep hnd (Or.inr hval), ob_some, hcur, e1, ob_some, hsum, ob_some,
    hw.sub (by omega) (le_refl _), ob_some, show n + 1 - 1 = n by omega]
  -- nothing else changes
  have hK : ∀ s c i, Known x lo (n + 1) (8 * (n + 1)) 0 (s ++ [c]) i ↔ Known x lo n (8 * n + 8) 0 (s ++ [c]) i := by
    intro s c i
    rw [show 8 * (n + 1) = 8 * n + 8 by omega]
    exact known_byte s c i
  have hocc : ∀ s i, Occ (Known x lo (n + 1) (8 * (n + 1)) 0) s i ↔ Occ (Known x lo n (8 * n + 8) 0) s i := by
    intro s i; unfold Occ; simp only [hK]
  have hlast : ∀ s i, LastOcc (Known x lo (n + 1) (8 * (n + 1)) 0) s i ↔ LastOcc (Known x lo n (8 * n + 8) 0) s i := by
    intro s i; unfold LastOcc; simp only [hocc]
  have hflw : ∀ s q, Flw (Known x lo (n + 1) (8 * (n + 1)) 0) s q ↔ Flw (Known x lo n (8 * n + 8) 0) s q := by
    intro s q; unfold Flw; simp only [hocc, hK]
  have hbr : ∀ s, Br (Known x lo (n + 1) (8 * (n + 1)) 0) (8 * maxOrder + 7) s ↔
      Br (Known x lo n (8 * n + 8) 0) (8 * maxOrder + 7) s := by
    intro s; unfold Br; simp only [hK]
  have hI := (hT.inv.rootText hnd (hposlt (n + 1))).skip hbr (fun s _ c i => hK s c i)
  have hlive : ∀ v nv, N v = some nv → ∃ nv', (N.put 0 (some { nd with textStart := pos sh W (n + 1) })) v = some nv' := by
    intro v nv hv
    by_cases he : v = 0
    · rw [he]; exact ⟨_, put_self _ _ _⟩
    · rw [put_ne _ _ he]; exact ⟨nv, hv⟩
  -- the list of contexts
  generalize hcs : (if maxOrder + 1 = ctxs.length then ctxs.dropLast else ctxs) = cl
  have hcl : cl.length ≤ maxOrder ∧ cl.length ≤ ctxs.length ∧ (cl.length < ctxs.length → cl.length = maxOrder) ∧
      ∀ m, m < cl.length → cl[m]? = ctxs[m]? := by
    rw [← hcs]
    split
    · rename_i hfull
      rw [List.length_dropLast]
      refine ⟨by omega, by omega, by omega, ?_⟩
      intro m hm
      rw [List.dropLast_eq_take, List.getElem?_take, if_pos (by omega)]
    · exact ⟨by omega, by omega, by omega, fun m _ => rfl⟩
  obtain ⟨c1, c2, c3, c4⟩ := hcl
  have hget : ∀ (m : Nat) ctx, cl[m]? = some ctx → ctxs[m]? = some ctx := by
    intro m ctx hm
    have hlt : m < cl.length := by
      by_contra hge
      rw [List.getElem?_eq_none (by omega)] at hm; simp at hm
    rw [← c4 m hlt]; exact hm
  refine ⟨_, _, rfl, rfl, _, str, cnt, ⟨hT.proper, hR, hI⟩, ?_⟩
  refine ⟨by rw [List.length_cons]; omega, by rw [List.length_cons]; omega, ?_, ?_, ?_, ?_, _, put_self _ _ _, rfl⟩
  · intro m ctx hctx
    cases m with
    | zero =>
      rw [List.getElem?_cons_zero, Option.some.injEq] at hctx
      subst hctx
      refine ⟨_, put_self _ _ _, Or.inl ⟨rfl, (hbr _).mpr hn.br, ?_, ?_⟩⟩
      · unfold cs
        rw [show 8 * (n + 1) - 8 * (n + 1 - 0) = 0 by omega]
        exact List.nil_prefix
      · intro r hr _
        exact hT.inv.rootle r ((hbr r).mp hr)
    | succ m =>
      rw [List.getElem?_cons_succ] at hctx
      rw [cs_shift, show 8 * (n + 1) = 8 * n + 8 by omega]
      have := hC.loc m ctx (hget m ctx hctx)
      exact this.same hbr hlive
  · intro m ctx hctx
    cases m with
    | zero =>
      rw [List.getElem?_cons_zero, Option.some.injEq] at hctx
      subst hctx
      intro h; simp at h
    | succ m =>
      rw [List.getElem?_cons_succ] at hctx
      exact (hC.set m ctx (hget m ctx hctx)).same hbr
  · intro m ctx hctx
    cases m with
    | zero =>
      rw [List.getElem?_cons_zero, Option.some.injEq] at hctx
      subst hctx
      have hd7 := root_depth hT.inv
      have hnil : cs x (n + 1) (8 * (n + 1)) 0 = [] := by
        unfold cs
        rw [show 8 * (n + 1) - 8 * (n + 1 - 0) = 0 by omega]
        rfl
      rw [hnil]
      have ho : ∀ i, Occ (Known x lo n (8 * n + 8) 0) [] i ↔ lo ≤ i ∧ i ≤ n := by
        intro i
        rw [known_occ]
        constructor
        · rintro ⟨k1, k2, -, k4⟩; exact ⟨k1, k2⟩
        · rintro ⟨k1, k2⟩; exact ⟨k1, k2, rfl, by simp; omega⟩
      have ho' : ∀ i, Occ (Known x lo n (8 * n + 8) 0) (str 0) i ↔ lo ≤ i ∧ i ≤ n := by
        intro i
        rw [known_occ]
        constructor
        · rintro ⟨k1, k2, -, k4⟩; exact ⟨k1, k2⟩
        · rintro ⟨k1, k2⟩
          refine ⟨k1, k2, ?_, by omega⟩
          rw [root_seg hT.inv (le_refl _) (by omega) k1 k2, List.take_length]
      refine ⟨⟨n, (hlast _ _).mpr ⟨(ho n).mpr ⟨hle, le_refl _⟩, fun i hi => ((ho i).mp hi).2⟩, rfl⟩, q.length, ?_⟩
      obtain ⟨l, l1, l2, l3⟩ := g1
      obtain ⟨q1, k1, k2⟩ := flw_exists (P := Known x lo n (8 * n + 8) 0) (s := []) l1
        (fun i => by rw [l2, ho, ho'])
      have hl0 := l3.length_eq
      have hsl := g2.length_le
      refine ⟨q1, (hflw _ _).mpr k1, by omega, ?_, ?_⟩
      · intro he
        rw [k2, hl0, g3 he]
      · refine ⟨?_, hby.zero _ q c hn.br hT.inv.rootle g6⟩
        dsimp only
        rw [g8, g9]
        congr 1
        omega
    | succ m =>
      rw [List.getElem?_cons_succ] at hctx
      rw [cs_shift]
      obtain ⟨⟨i, h1, h2⟩, C, q1, h3, h4, h5, h6, h7⟩ := hC.info m ctx (hget m ctx hctx)
      rw [show 8 * n + 8 = 8 * (n + 1) by omega] at h1 h3
      refine ⟨⟨i, ?_, h2⟩, C, q1, ?_, h4, h5, h6, hby.succ ⟨_, hn.br⟩ m C h7⟩
      · rw [hlast]; exact h1
      · rw [hflw]; exact h3
  · intro m hm hmo hmn i hi
    rw [List.length_cons] at hm
    obtain ⟨m', rfl⟩ : ∃ m', m = m' + 1 := ⟨m - 1, by omega⟩
    rw [hocc, cs_shift, show 8 * (n + 1) = 8 * n + 8 by omega] at hi
    exact hC.none m' (by omega) (by omega) (by omega) i hi

/-- Starting a byte when the window is not full. -/
theorem start_ok (hW : W ≤ 2 ^ 31) {t : Tree} {ctxs : List Ctx}
    (hw : WinOk t.window x sh W lo (n + 1) (8 * n + 8))
    (hcases : ProperOk luts x Pc Ic sh W maxOrder ex lo n (8 * n + 8) t ctxs ∨ FlatOk x W lo n (8 * n + 8) t ctxs)
    (hby : ByteStep (Known x lo n (8 * n + 8) 0) (8 * maxOrder + 7) Pc Ic Ic') (hroom : n + 1 - lo < W) :
    ∃ w t' ctxs', advanceCursor t.window = some w ∧
      shift maxOrder { t with window := w } ctxs = some (t', ctxs') ∧
      StateOk luts x Pc Ic' sh W maxOrder ex lo (n + 1) (8 * (n + 1)) t' ctxs' := by
  have hle := hw.le
  obtain ⟨w', e, hw'⟩ := hw.advance hroom (by omega)
  refine ⟨w', ?_⟩
  rcases hcases with ⟨N, str, cnt, hT, hC⟩ | ⟨h1, rfl, h3, N, h4⟩
  · obtain ⟨t', ctxs', e1, e2, e3⟩ := shift_proper hW (t := { t with window := w' }) (luts := luts) (Pc := Pc)
      hw' (by have := hC.size; omega) hby ⟨N, str, cnt, ⟨hT.proper, hT.rep, hT.inv⟩, hC⟩
    exact ⟨t', ctxs', e, e1, by rw [e2]; exact hw', hle, Or.inl e3⟩
  · refine ⟨{ t with window := w' }, [], e, ?_, hw', hle, Or.inr ⟨h1, rfl, ?_, N, h4⟩⟩
    · unfold shift
      rw [if_neg (by rw [h1]; simp), check_pos (show ([] : List Ctx).length = 0 from rfl), ob_some]
    · intro i d k1 k2 k3 k4
      exact h3 i d k1 (by omega) k3 (by omega)

end Verif.Tree
