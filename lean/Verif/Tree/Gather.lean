import Verif.Tree.Remove
import Verif.Tree.Spec

/-!
# The states reported by the tree
-/

namespace Verif.Tree

open Verif Verif.History Verif.Window

variable {P P' : Str → Nat → Prop} {D : Nat} {ex : Prop} {Pc : Str → List Bool → Costs → Prop}
  {Ic : Nat → Nat → Prop} {table : List Nat}
  {N : Live} {str : Nat → Str} {luts : Luts} {ps : Nat → Nat}
  {x : Nat → Bool} {sh W lo n j m maxOrder cnt : Nat}

theorem specState_dist {q : List Bool} {c c' : Costs} {e r u d : Nat}
    (h : specState table 0 q c = some (.node 0 e r u c')) : specState table d q c = some (.node d e r u c') := by
  unfold specState at h ⊢
  by_cases h1 : q = []
  · rw [if_pos h1] at h; simp at h
  · rw [if_neg h1] at h ⊢
    by_cases h2 : leadRun q = q.length
    · rw [if_pos h2] at h; simp at h
    · rw [if_neg h2] at h ⊢
      obtain ⟨e1, he⟩ := replay_some (capRun q)
      rw [he, ob_some] at h ⊢
      cases ht : Log2.costForNewNode table (min (leadRun q) 1000) with
      | none => rw [ht, ob_none] at h; simp at h
      | some t =>
        rw [ht, ob_some, Option.some.injEq, CtxState.node.injEq] at h
        obtain ⟨-, h3, h4, h5, h6⟩ := h
        rw [ob_some, h3, h4, h5, h6]

/-- what one state says -/
def StateIs (P : Str → Nat → Prop) (Pc : Str → List Bool → Costs → Prop) (table : List Nat) (ex : Prop) (s : Str) (m : Nat) (n : Nat)
    (st : CtxState) : Prop :=
  ∃ i q0, LastOcc P s i ∧ Flw P s q0 ∧ WindowState (Pc s) table ex (n - m - i) q0 st

/-- what is known of the count that a state reports -/
def CountIs (I : Nat → Prop) (st : CtxState) : Prop := ∀ d c b, st = .edge d c b → ∃ C, I C ∧ c = min 1000 C

/-- one context -/
theorem gatherOne_ok (hM : maxOrder ≤ 8191) (hj : j < 8) {t : Tree} {ctx : Ctx}
    (hw : WinOk t.window x sh W lo (n + 1) (8 * n + j))
    (hT : TreeOk t (Known x lo n (8 * n + j) 0) (8 * maxOrder + 7) ex Pc table (pos sh W) (max 1 (W - 1)) N str cnt)
    (hm : m ≤ maxOrder) (hmn : lo + m < n)
    (hloc : LocOk (Known x lo n (8 * n + j) 0) (8 * maxOrder + 7) N str ctx (cs x n (8 * n + j) m))
    (hset : Settled (Known x lo n (8 * n + j) 0) (8 * maxOrder + 7) str ctx)
    (hinfo : InfoOk (Known x lo n (8 * n + j) 0) ex (Ic m) (pos sh W) ctx (cs x n (8 * n + j) m)) :
    ∃ s, gatherOne t (7 - j) m ctx = some (some s) ∧
      StateIs (Known x lo n (8 * n + j) 0) Pc table ex (cs x n (8 * n + j) m) m n s ∧ CountIs (Ic m) s := by
  have hsys := known_sys (x := x) (lo := lo) (n := n) (L := 8 * n + j) (lim := 0)
  obtain ⟨nd, hnd, hcase⟩ := hloc
  have hn := hT.inv.node _ nd hnd
  obtain ⟨⟨i, hi, hsuf⟩, C, q0, hq0, hC1, hC2, hinc, hic⟩ := hinfo
  have hlen : (cs x n (8 * n + j) m).length = 8 * m + j := cs_length_eq (by omega)
  have hir := known_occ.mp hi.1
  rw [hlen] at hir
  obtain ⟨g1, g2, g3, g4⟩ := hir
  -- at a node exactly if branching
  have hdepth : nd.depth = 8 * m + j ↔ Br (Known x lo n (8 * n + j) 0) (8 * maxOrder + 7) (cs x n (8 * n + j) m) := by
    rw [hn.depth]
    rcases hcase with ⟨-, hle⟩ | ⟨h1, c, h2, h3, -⟩
    · constructor
      · intro he
        rw [hle.2.1.eq_of_length (by rw [hlen, he])]; exact hle.1
      · intro hb
        have h1 := (hle.2.2 _ hb (List.prefix_refl _)).length_le
        have h2 := hle.2.1.length_le
        omega
    · constructor
      · intro he
        have := snoc_len h3
        omega
      · intro hb
        exact absurd h3 (hset h1 c h2 _ hb)
  unfold gatherOne
  rw [rep_get hT.rep hnd (Or.inr hn.valid), ob_some, hw.cursor (by omega), hw.sub (by omega) (le_refl _), ob_some, hsuf,
    hw.smaller g1 (by omega) (by omega) (by omega), ob_some, check_pos (by rw [decide_eq_true_eq]; omega), ob_some,
    hw.diff g1 (by omega) (by omega), ob_some, depthOf_eq (by omega) hj, ob_some]
  by_cases hd : nd.depth = 8 * m + j
  · rw [if_pos hd]
    have hb := hdepth.mp hd
    have hstr : str ctx.node = cs x n (8 * n + j) m := by
      rcases hcase with ⟨-, hle⟩ | ⟨h1, c, h2, h3, -⟩
      · exact (hle.2.1.eq_of_length (by rw [hlen, ← hd, hn.depth])).symm
      · have := snoc_len h3
        have h4 := hn.depth
        omega
    have hst := hn.stat
    rw [hstr] at hst
    obtain ⟨q, q1, c, k1, k2, k3, k4, k5, k6, k7, -, -⟩ := hst
    obtain ⟨i1, hi1⟩ := hb.2 true
    obtain ⟨i0, hi0⟩ := hb.2 false
    exact ⟨_, rfl, ⟨i, q1, hi, k1, Or.inl ⟨flw_mem' hsys k1 hi1, flw_mem' hsys k1 hi0, q, c, k6, k2, k3,
      specState_dist k7⟩⟩, fun _ _ _ he => by simp at he⟩
  · rw [if_neg hd]
    have hnb := mt hdepth.mpr hd
    obtain ⟨b, hb⟩ := hi.1
    have hbq := flw_mem' hsys hq0 hb
    have hpos : 1 ≤ q0.length := List.length_pos_of_mem hbq
    rw [check_pos (by rw [hinc]; omega), ob_some, if_pos (by rw [hinc]; omega), hw.add g1 (by omega), ob_some,
      hw.getBit (by omega) (by omega) hj (by omega), ob_some, hinc, i32AsU16_eq (by omega)]
    have hbx : b = x (8 * (i + m) + j) := by
      have h3 := (seg_snoc_iff.mp hb.2.2.1).2
      rw [← h3, hlen]
      congr 1; omega
    refine ⟨_, rfl, ⟨i, q0, hi, hq0, Or.inr ⟨b, C, fun he => by rw [he] at hpos; simp at hpos, ?_, hC1, hC2, by rw [hbx]⟩⟩,
      fun d c b' he => ⟨C, hic, by rw [CtxState.edge.injEq] at he; exact he.2.1.symm⟩⟩
    intro y hy
    by_contra hne
    apply hnb
    refine ⟨by rw [hlen]; omega, ?_⟩
    intro c
    rcases bool_eq_or b c with rfl | rfl
    · exact ⟨i, hb⟩
    · have : y = !b := by
        rcases bool_eq_or b y with h | h
        · exact absurd h hne
        · exact h
      rw [← this]
      exact flw_mem hq0 hy

theorem gatherProper_ok {t : Tree} {bi : Nat} {Q : Nat → CtxState → Prop} : ∀ (l : List Ctx) (k : Nat),
    (∀ (m : Nat) ctx, l[m]? = some ctx → ∃ s, gatherOne t bi (k + m) ctx = some (some s) ∧ Q (k + m) s) →
    ∃ states, gatherProper t bi k l = some states ∧ states.length = l.length ∧
      ∀ (m : Nat) s, states[m]? = some s → Q (k + m) s
  | [], k, _ => ⟨[], rfl, rfl, fun m s h => by simp at h⟩
  | ctx :: l, k, h => by
    obtain ⟨s, e, hs⟩ := h 0 ctx (by simp)
    obtain ⟨states, e1, h1, h2⟩ := gatherProper_ok l (k + 1) (Q := Q) (by
      intro m c hm
      obtain ⟨s', e', hs'⟩ := h (m + 1) c (by simpa using hm)
      rw [show k + 1 + m = k + (m + 1) by omega]
      exact ⟨s', e', hs'⟩)
    refine ⟨s :: states, ?_, by rw [List.length_cons, List.length_cons, h1], ?_⟩
    · rw [gatherProper]
      rw [Nat.add_zero] at e
      rw [e, ob_some, e1, ob_some]
      rfl
    · intro m s' hm
      cases m with
      | zero =>
        rw [List.getElem?_cons_zero, Option.some.injEq] at hm
        subst hm
        exact hs
      | succ m =>
        rw [List.getElem?_cons_succ] at hm
        rw [show k + (m + 1) = k + 1 + m by omega]
        exact h2 m s' hm

theorem mapM_range {β : Type} (f : Nat → Option β) (Q : Nat → β → Prop) : ∀ (r : Nat),
    (∀ m, m < r → ∃ s, f m = some s ∧ Q m s) →
    ∃ states, (List.range r).mapM f = some states ∧ states.length = r ∧ ∀ (m : Nat) s, states[m]? = some s → Q m s := by
  intro r
  induction r with
  | zero => intro _; exact ⟨[], rfl, rfl, fun m s h => by simp at h⟩
  | succ r ih =>
    intro h
    obtain ⟨states, e, h1, h2⟩ := ih (fun m hm => h m (by omega))
    obtain ⟨s, e', hs⟩ := h r (by omega)
    refine ⟨states ++ [s], ?_, by rw [List.length_append, h1]; rfl, ?_⟩
    · rw [List.range_succ, List.mapM_append, e]
      change ((List.mapM f [r]) >>= fun ys => _) = _
      rw [List.mapM_cons, e']
      rfl
    · intro m s' hm
      rcases Nat.lt_or_ge m states.length with hlt | hge
      · rw [List.getElem?_append_left hlt] at hm
        exact h2 m s' hm
      · have hm' := (List.getElem?_eq_some_iff.mp hm).1
        rw [List.length_append, List.length_singleton] at hm'
        have : m = states.length := by omega
        subst this
        rw [List.getElem?_append_right (le_refl _), Nat.sub_self, List.getElem?_cons_zero, Option.some.injEq] at hm
        subst hm
        rw [h1]; exact hs

/-- The states reported. -/
theorem gather_ok (hM : maxOrder ≤ 8191) (hj : j < 8) {t : Tree} {ctxs : List Ctx}
    (h : StateOk luts x Pc Ic sh W maxOrder ex lo n (8 * n + j) t ctxs)
    (hflat : Flat x lo n (8 * n + j) → ∀ m, m ≤ maxOrder → lo + m < n → Ic m (n - m - lo)) :
    ∃ states, gatherStates t ctxs (7 - j) maxOrder = some states ∧
      (∀ m, m < states.length ↔ m ≤ maxOrder ∧ lo + m ≤ n ∧
        ∃ i, Occ (Known x lo n (8 * n + j) 0) (cs x n (8 * n + j) m) i) ∧
      (t.proper = true → states.length = ctxs.length) ∧
      ∀ (m : Nat) s, states[m]? = some s →
        StateIs (Known x lo n (8 * n + j) 0) Pc luts.costs ex (cs x n (8 * n + j) m) m n s ∧ CountIs (Ic m) s := by
  obtain ⟨hw, hle, ⟨N, str, cnt, hT, hC⟩ | ⟨hpr, rfl, hf, -⟩⟩ := h
  · have hsize := hC.size
    have hlen := hC.len
    obtain ⟨states, e, h1, h2⟩ := gatherProper_ok (t := t) (bi := 7 - j)
      (Q := fun m s => StateIs (Known x lo n (8 * n + j) 0) Pc luts.costs ex (cs x n (8 * n + j) m) m n s ∧
        CountIs (Ic m) s) ctxs 0 (by
        intro m ctx hm
        have hlt : m < ctxs.length := by
          by_contra hge
          rw [List.getElem?_eq_none (by omega)] at hm; simp at hm
        rw [Nat.zero_add]
        exact gatherOne_ok hM hj hw hT (by omega) (by omega) (hC.loc m ctx hm) (hC.set m ctx hm) (hC.info m ctx hm))
    have hne : t.window.cursor ≠ t.window.start := by
      rw [hw.cursor hle, hw.start]
      intro he
      have he2 := hw.inj hle (le_refl _) (le_refl _) hle he
      obtain ⟨nd, hnd⟩ := hT.inv.root
      have hb := (hT.inv.node 0 nd hnd).br
      obtain ⟨i1, hi1⟩ := hb.2 true
      obtain ⟨i0, hi0⟩ := hb.2 false
      have a1 := hi1.1
      have a2 := hi1.2.1
      have a3 := hi0.1
      have a4 := hi0.2.1
      have : i1 = i0 := by omega
      subst this
      have := known_sys.bit hi1 hi0
      simp at this
    unfold gatherStates
    rw [if_pos hT.proper, check_pos hne, ob_some, e]
    refine ⟨states, rfl, ?_, fun _ => h1, fun m s hs => by simpa using h2 m s hs⟩
    intro m
    rw [h1]
    constructor
    · intro hm
      obtain ⟨⟨i, hi, -⟩, -⟩ := hC.info m _ (List.getElem?_eq_getElem hm)
      exact ⟨by omega, by omega, i, hi.1⟩
    · rintro ⟨k1, k2, i, hi⟩
      by_contra hge
      exact hC.none m (by omega) k1 k2 i hi
  · have hsz := hw.size
    have hcslen : ∀ m, m ≤ n → (cs x n (8 * n + j) m).length = 8 * m + j := fun m hm => cs_length_eq hm
    have hocc : ∀ m, lo + m ≤ n → ∀ i, Occ (Known x lo n (8 * n + j) 0) (cs x n (8 * n + j) m) i ↔ lo ≤ i ∧ i < n - m := by
      intro m hm i
      rw [known_occ, hcslen m (by omega)]
      constructor
      · rintro ⟨k1, k2, k3, k4⟩; omega
      · rintro ⟨k1, k2⟩
        refine ⟨k1, by omega, ?_, by omega⟩
        unfold cs
        rw [show 8 * n + j - 8 * (n - m) = 8 * m + j by omega]
        exact hf.segEq (by omega) k1 (by omega) (by omega) (by omega)
    obtain ⟨states, e, h1, h2⟩ := mapM_range (gatherDegenerateOne t (7 - j))
      (fun m s => StateIs (Known x lo n (8 * n + j) 0) Pc luts.costs ex (cs x n (8 * n + j) m) m n s ∧
        CountIs (Ic m) s)
      (min (maxOrder + 1) (n - lo)) (by
        intro m hm
        unfold gatherDegenerateOne
        rw [subU_eq (by omega), ob_some, subU_eq (by omega), ob_some, hw.start,
          hw.getBit (le_refl _) hle hj (by omega), ob_some]
        obtain ⟨q, hq, hql⟩ := flw_exists (P := Known x lo n (8 * n + j) 0) (s := cs x n (8 * n + j) m)
          (l := List.range' lo (n - m - lo)) List.pairwise_lt_range' (by
            intro i
            rw [List.mem_range'_1, hocc m (by omega)]
            omega)
        rw [List.length_range'] at hql
        refine ⟨_, rfl, ⟨n - m - 1, q, ⟨(hocc m (by omega) _).mpr ⟨by omega, by omega⟩, fun i hi => ?_⟩, hq,
          Or.inr ⟨x (8 * lo + j), n - m - lo, ?_, ?_, by omega, fun _ => hql, ?_⟩⟩,
          fun d c b he => ⟨n - m - lo, hflat hf m (by omega) (by omega), by
            rw [CtxState.edge.injEq] at he
            rw [← he.2.1]
            congr 1; omega⟩⟩
        · have := (hocc m (by omega) i).mp hi
          omega
        · rintro rfl
          rw [List.length_nil] at hql
          omega
        · intro y hy
          obtain ⟨i, hi⟩ := flw_mem hq hy
          have a1 := (hocc m (by omega) i).mp ⟨y, hi⟩
          rw [← (seg_snoc_iff.mp hi.2.2.1).2, hcslen m (by omega),
            show 8 * i + (8 * m + j) = 8 * (i + m) + j by omega]
          exact hf (i + m) j (by omega) (by omega) hj (by omega)
        · congr 1
          · omega
          · congr 1; omega)
    unfold gatherStates
    rw [if_neg (by rw [hpr]; simp), check_pos (show ([] : List Ctx).length = 0 from rfl), ob_some,
      subU_eq (by omega), ob_some, show t.window.size - 1 = n - lo by omega, e]
    refine ⟨states, rfl, ?_, (by rw [hpr]; simp), h2⟩
    intro m
    rw [h1]
    constructor
    · intro hm
      exact ⟨by omega, by omega, lo, (hocc m (by omega) lo).mpr ⟨le_refl _, by omega⟩⟩
    · rintro ⟨k1, k2, i, hi⟩
      have := (hocc m k2 i).mp hi
      omega

end Verif.Tree
