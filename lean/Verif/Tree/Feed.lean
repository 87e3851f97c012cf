import Verif.Tree.Gather

/-!
# Feeding bits to the tree
-/

namespace Verif.Tree

open Verif Verif.History Verif.Window

variable {P : Str → Nat → Prop} {D : Nat} {ex : Prop} {Pc Pc' : Str → List Bool → Costs → Prop}
  {Ic Ic' : Nat → Nat → Prop} {table : List Nat}
  {N : Live} {str : Nat → Str} {luts : Luts}
  {x : Nat → Bool} {sh W lo n j k m maxOrder cnt : Nat}

/-! ## The history within the window -/

/-- the bits following a string are determined -/
theorem flw_unique (hs : Sys P) {s : Str} {q q' : List Bool} (h : Flw P s q) (h' : Flw P s q') : q = q' := by
  obtain ⟨l, h1, h2, h3⟩ := h
  obtain ⟨l', h1', h2', h3'⟩ := h'
  have hl : l = l' := by
    apply List.Perm.eq_of_pairwise (le := (· < ·)) (fun a b _ _ h1 h2 => absurd (Nat.lt_trans h1 h2) (Nat.lt_irrefl _)) h1 h1'
    rw [List.perm_ext_iff_of_nodup (h1.imp (fun h => Nat.ne_of_lt h)) (h1'.imp (fun h => Nat.ne_of_lt h))]
    intro i
    rw [h2, h2']
  subst hl
  clear h1 h2 h1' h2'
  induction h3 generalizing q' with
  | nil => cases h3'; rfl
  | cons a _ ih =>
    cases h3' with
    | cons a' h4 => rw [hs.bit a a', ih h4]

theorem seg_getD (d : Nat) {r : Nat} (h : r < d) : (seg x lo d).getD r false = x (8 * lo + r) := by
  rw [List.getD_eq_getElem?_getD, List.getElem?_eq_getElem (by simpa using h)]
  simp [seg]

theorem seg_slice {a d e : Nat} (h : 8 * a + d ≤ e) : ((seg x lo e).drop (8 * a)).take d = seg x (lo + a) d := by
  apply List.ext_getElem
  · simp; omega
  · intro t h1 h2
    simp only [seg, List.getElem_take, List.getElem_drop, List.getElem_map, List.getElem_range]
    congr 1; omega

section

variable (hle : lo ≤ n) (hj : j < 8)

include hle hj

theorem win_len : (seg x lo (8 * n + j - 8 * lo)).length / 8 = n - lo ∧
    ctxLen (seg x lo (8 * n + j - 8 * lo)) k = 8 * k + j := by
  unfold ctxLen
  rw [seg_length]
  omega

theorem win_context (hk : lo + k ≤ n) : context (seg x lo (8 * n + j - 8 * lo)) k = cs x n (8 * n + j) k := by
  unfold context
  rw [(win_len hle hj).2, seg_length,
    show 8 * n + j - 8 * lo - (8 * k + j) = 8 * (n - lo - k) by omega,
    show cs x n (8 * n + j) k = seg x (lo + (n - lo - k)) (8 * k + j) by
      unfold cs
      rw [show lo + (n - lo - k) = n - k by omega, show 8 * n + j - 8 * (n - k) = 8 * k + j by omega],
    ← seg_slice (x := x) (lo := lo) (a := n - lo - k) (d := 8 * k + j) (e := 8 * n + j - 8 * lo) (by omega),
    List.take_of_length_le]
  rw [List.length_drop, seg_length]
  omega

theorem win_occs (hk : lo + k ≤ n) (i : Nat) : i ∈ occs (seg x lo (8 * n + j - 8 * lo)) k ↔
    Occ (Known x lo n (8 * n + j) 0) (cs x n (8 * n + j) k) (lo + i) := by
  have hlen : (cs x n (8 * n + j) k).length = 8 * k + j := cs_length_eq (by omega)
  unfold occs
  rw [List.mem_filter, List.mem_range, decide_eq_true_eq, (win_len (k := k) hle hj).1, (win_len hle hj).2,
    win_context hle hj hk, known_occ, hlen]
  constructor
  · rintro ⟨h1, h2⟩
    rw [seg_slice (by omega)] at h2
    exact ⟨by omega, by omega, h2, by omega⟩
  · rintro ⟨h1, h2, h3, h4⟩
    refine ⟨by omega, ?_⟩
    rw [seg_slice (by omega)]
    exact h3

theorem win_none (hk : ¬ lo + k ≤ n) : occs (seg x lo (8 * n + j - 8 * lo)) k = [] := by
  unfold occs
  rw [(win_len (k := k) hle hj).1, show n - lo - k = 0 by omega]
  rfl

theorem win_sorted : (occs (seg x lo (8 * n + j - 8 * lo)) k).Pairwise (· < ·) := by
  unfold occs
  exact List.Pairwise.filter _ List.pairwise_lt_range

theorem win_flw (hk : lo + k ≤ n) :
    Flw (Known x lo n (8 * n + j) 0) (cs x n (8 * n + j) k) (following (seg x lo (8 * n + j - 8 * lo)) k) := by
  have hlen : (cs x n (8 * n + j) k).length = 8 * k + j := cs_length_eq (by omega)
  refine ⟨(occs (seg x lo (8 * n + j - 8 * lo)) k).map (lo + ·), ?_, ?_, ?_⟩
  · rw [List.pairwise_map]
    exact (win_sorted hle hj).imp (fun h => by omega)
  · intro i
    rw [List.mem_map]
    constructor
    · rintro ⟨a, ha, rfl⟩
      exact (win_occs hle hj hk a).mp ha
    · intro hi
      have h1 := (known_occ.mp hi).1
      refine ⟨i - lo, (win_occs hle hj hk _).mpr ?_, by omega⟩
      rw [show lo + (i - lo) = i by omega]; exact hi
  · unfold following
    rw [List.forall₂_map_left_iff, List.forall₂_map_right_iff]
    rw [List.forall₂_same]
    intro i hi
    have ho := (win_occs hle hj hk i).mp hi
    obtain ⟨b, hb⟩ := ho
    have hr := known_occ.mp ⟨b, hb⟩
    rw [hlen] at hr
    have hbit : nextBit (seg x lo (8 * n + j - 8 * lo)) k i = b := by
      unfold nextBit
      rw [(win_len hle hj).2, seg_getD _ (by omega), ← (seg_snoc_iff.mp hb.2.2.1).2, hlen]
      congr 1; omega
    rw [hbit]; exact hb

theorem win_last (hk : lo + k ≤ n) {i : Nat} (h : LastOcc (Known x lo n (8 * n + j) 0) (cs x n (8 * n + j) k) i) :
    lastDist (seg x lo (8 * n + j - 8 * lo)) k = n - k - i := by
  have hr := known_occ.mp h.1
  have hmem : i - lo ∈ occs (seg x lo (8 * n + j - 8 * lo)) k := by
    rw [win_occs hle hj hk, show lo + (i - lo) = i by omega]
    exact h.1
  have hne : occs (seg x lo (8 * n + j - 8 * lo)) k ≠ [] := List.ne_nil_of_mem hmem
  have hmem' := List.getLast_mem hne
  have h1 := h.2 _ ((win_occs hle hj hk _).mp hmem')
  have h2 : i - lo ≤ (occs (seg x lo (8 * n + j - 8 * lo)) k).getLast hne := by
    have hs := win_sorted (x := x) (k := k) hle hj
    generalize occs (seg x lo (8 * n + j - 8 * lo)) k = l at *
    obtain ⟨l', a, rfl⟩ : ∃ l' a, l = l' ++ [a] := ⟨l.dropLast, l.getLast hne, (List.dropLast_append_getLast hne).symm⟩
    rw [List.getLast_append_singleton]
    rcases List.mem_append.mp hmem with hm | hm
    · rw [List.pairwise_append] at hs
      exact Nat.le_of_lt (hs.2.2 _ hm a (by simp))
    · rw [List.mem_singleton] at hm
      omega
  unfold lastDist
  rw [(win_len (k := k) hle hj).1, List.getLastD_eq_getLast?, List.getLast?_eq_some_getLast hne, Option.getD_some]
  omega

end

theorem forall2_of_get {α β : Type} {R : α → β → Prop} : ∀ {l : List α} {l' : List β}, l.length = l'.length →
    (∀ (m : Nat) a b, l[m]? = some a → l'[m]? = some b → R a b) → List.Forall₂ R l l'
  | [], [], _, _ => List.Forall₂.nil
  | a :: l, b :: l', hl, h => List.Forall₂.cons (h 0 a b (by simp) (by simp))
      (forall2_of_get (by simpa using hl) (fun m a' b' h1 h2 => h (m + 1) a' b' (by simpa using h1) (by simpa using h2)))
  | [], _ :: _, hl, _ => by simp at hl
  | _ :: _, [], hl, _ => by simp at hl

/-- the states in terms of the history within the window -/
theorem gather_window (hle : lo ≤ n) (hj : j < 8) {states : List CtxState}
    (h1 : ∀ m, m < states.length ↔ m ≤ maxOrder ∧ lo + m ≤ n ∧
        ∃ i, Occ (Known x lo n (8 * n + j) 0) (cs x n (8 * n + j) m) i)
    (h2 : ∀ (m : Nat) s, states[m]? = some s →
        StateIs (Known x lo n (8 * n + j) 0) Pc table ex (cs x n (8 * n + j) m) m n s) :
    WindowGather Pc table ex maxOrder (seg x lo (8 * n + j - 8 * lo)) states := by
  obtain ⟨r, hr, er, hk⟩ := orders_range (seg x lo (8 * n + j - 8 * lo)) maxOrder
  have hiff : ∀ m, m < r ↔ m < states.length := by
    intro m
    rw [hk, h1]
    constructor
    · rintro ⟨a1, a2⟩
      have a3 : lo + m ≤ n := by
        by_contra hcon
        exact a2 (win_none hle hj hcon)
      obtain ⟨i, hi⟩ := List.exists_mem_of_ne_nil _ a2
      exact ⟨a1, a3, lo + i, (win_occs hle hj a3 i).mp hi⟩
    · rintro ⟨a1, a2, i, hi⟩
      refine ⟨a1, ?_⟩
      have a3 := (known_occ.mp hi).1
      exact List.ne_nil_of_mem ((win_occs hle hj a2 (i - lo)).mpr (by rw [show lo + (i - lo) = i by omega]; exact hi))
  have hlen : r = states.length := by
    rcases Nat.lt_trichotomy r states.length with h | h | h
    · have := (hiff r).mpr h; omega
    · exact h
    · have := (hiff states.length).mp h; omega
  unfold WindowGather
  rw [er]
  refine forall2_of_get (by rw [List.length_range, hlen]) ?_
  intro m a s ha hs
  have hlt := (List.getElem?_eq_some_iff.mp hs).1
  rw [List.getElem?_range (by omega), Option.some.injEq] at ha
  subst ha
  obtain ⟨i, q0, k1, k2, k3⟩ := h2 m s hs
  have hmn := ((h1 m).mp hlt).2.1
  rw [win_last hle hj hmn k1, ← flw_unique known_sys k2 (win_flw hle hj hmn), win_context hle hj hmn]
  exact k3

/-! ## Line up of cost trackers -/

theorem run_of_same {d : Nat} {b : Bool} {bits : List Bool} {c : Costs} (h : bits ≠ []) (hb : ∀ y ∈ bits, y = b) :
    specState table d bits c = some (.edge d (min bits.length 1000) b) := by
  obtain ⟨b0, l, rfl⟩ := List.exists_cons_of_ne_nil h
  have he : b0 :: l = List.replicate (l.length + 1) b := List.eq_replicate_of_mem hb
  have h0 : b0 = b := hb b0 (by simp)
  unfold specState
  rw [if_neg h, if_pos]
  · rw [h0]; rfl
  · unfold leadRun
    rw [he, headRun_replicate, List.length_replicate]

theorem WindowState.isNode {Pc : List Bool → Costs → Prop} {d : Nat} {bits : List Bool} {s : CtxState} (h : WindowState Pc table ex d bits s) :
    s.isNode = true ↔ true ∈ bits ∧ false ∈ bits := by
  rcases h with ⟨h1, h2, q, c, -, hq, -, hs⟩ | ⟨b, C, h1, h2, -, -, rfl⟩
  · rw [specState_isNode hs]
    exact ⟨fun _ => ⟨h1, h2⟩, fun _ => ⟨hq.subset h1, hq.subset h2⟩⟩
  · constructor
    · intro h; simp [CtxState.isNode] at h
    · rintro ⟨k1, k2⟩
      have a1 := h2 _ k1
      have a2 := h2 _ k2
      rw [← a2] at a1
      simp at a1

/-- if nothing has been forgotten the states are those of the reference -/
theorem WindowState.exact {Pc : List Bool → Costs → Prop} {d : Nat} {bits : List Bool} {s : CtxState}
    (h : WindowState Pc table ex d bits s) (hex : ex) (hPc : bits.length ≤ leadRun bits + 1 → ∃ c, Pc bits c) :
    ∃ c, Pc bits c ∧ specState table d bits c = some s := by
  rcases h with ⟨h1, h2, q, c, hc, -, hq, hs⟩ | ⟨b, C, h1, h2, -, h3, rfl⟩
  · exact ⟨c, by rw [hq hex]; exact hc, by rw [hq hex]; exact hs⟩
  · obtain ⟨c, hc⟩ := hPc (by
      obtain ⟨b0, l, rfl⟩ := List.exists_cons_of_ne_nil h1
      have he : b0 :: l = List.replicate (l.length + 1) b := List.eq_replicate_of_mem h2
      rw [he, leadRun, headRun_replicate, List.length_replicate]
      omega)
    exact ⟨c, hc, by rw [run_of_same h1 h2, h3 hex, Nat.min_comm]⟩

theorem WindowGather.exact {hist : List Bool} {states : List CtxState}
    (h : WindowGather Pc table ex maxOrder hist states) (hex : ex) (hPc : Fresh Pc) :
    GatherOk Pc table maxOrder hist states := by
  unfold GatherOk
  exact h.imp (fun k s hs => hs.exact hex (hPc _ _))

theorem WindowGather.get {hist : List Bool} {states : List CtxState} (h : WindowGather Pc table ex maxOrder hist states)
    {i : Nat} {s : CtxState} (hs : states[i]? = some s) : i ≤ maxOrder ∧ occs hist i ≠ [] ∧
      WindowState (Pc (context hist i)) table ex (lastDist hist i) (following hist i) s := by
  obtain ⟨r, hr, er, hk⟩ := orders_range hist maxOrder
  unfold WindowGather at h
  rw [er] at h
  have hlen := h.length_eq
  rw [List.length_range] at hlen
  obtain ⟨hi, hs⟩ := List.getElem?_eq_some_iff.mp hs
  have := h.get (i := i) (by rw [List.length_range]; omega) hi
  simp only [List.get_eq_getElem, List.getElem_range] at this
  rw [hs] at this
  exact ⟨((hk i).mp (by omega)).1, ((hk i).mp (by omega)).2, this⟩

theorem WindowGather.lt_length {hist : List Bool} {states : List CtxState}
    (h : WindowGather Pc table ex maxOrder hist states) (k : Nat) :
    k < states.length ↔ k ≤ maxOrder ∧ occs hist k ≠ [] := by
  obtain ⟨r, hr, er, hk⟩ := orders_range hist maxOrder
  unfold WindowGather at h
  rw [er] at h
  have hlen := h.length_eq
  rw [List.length_range] at hlen
  rw [← hlen, hk]

theorem WindowGather.antitone {hist : List Bool} {states : List CtxState}
    (h : WindowGather Pc table ex maxOrder hist states) {i : Nat} {s s' : CtxState}
    (hs : states[i]? = some s) (hs' : states[i + 1]? = some s') (hn : s'.isNode = true) : s.isNode = true := by
  rw [(h.get hs).2.2.isNode]
  rw [(h.get hs').2.2.isNode] at hn
  exact branching_succ hn

theorem WindowGather.costs_line_up {hist : List Bool} {states : List CtxState}
    (h : WindowGather Pc table ex maxOrder hist states) (k : Nat) :
    k < (states.filter CtxState.isNode).length ↔ k ≤ maxOrder ∧ Branching hist k := by
  constructor
  · intro hk
    have hlt : k < states.length := lt_of_lt_of_le hk (List.length_filter_le _ _)
    have hs : states[k]? = some states[k] := List.getElem?_eq_getElem hlt
    have := (prefix_count states (fun i s s' => h.antitone) k _ hs).mpr hk
    obtain ⟨h1, -, hc⟩ := h.get hs
    rw [hc.isNode] at this
    exact ⟨h1, this⟩
  · rintro ⟨h1, h2⟩
    have hlt := (h.lt_length k).mpr ⟨h1, branching_occs h2⟩
    have hs : states[k]? = some states[k] := List.getElem?_eq_getElem hlt
    rw [← prefix_count states (fun i s s' => h.antitone) k _ hs, (h.get hs).2.2.isNode]
    exact h2

/-! ## The source -/

/-- the cost trackers supplied with the bit `b` are allowed -/
def Allowed (Pc : Str → List Bool → Costs → Prop) (ex : Prop) (hist : List Bool) (b : Bool) (costs : List Costs) : Prop :=
  ∀ (m : Nat) c, costs[m]? = some c → ∀ q, (ex → q = following hist m) → Pc (context hist m) (q ++ [b]) c

theorem allowed_const {P : Costs → Prop} {hist : List Bool} {b : Bool} {costs : List Costs} (h : ∀ c ∈ costs, P c) :
    Allowed (fun _ _ c => P c) ex hist b costs := fun _ c hc _ _ => h c (List.mem_of_getElem? hc)

/-- the source within a byte -/
structure SrcIs (luts : Luts) (x : Nat → Bool) (Pc : Str → List Bool → Costs → Prop) (Ic : Nat → Nat → Prop)
    (sh W maxOrder n j : Nat) (s : Src) : Prop where
  order : s.maxOrder = maxOrder
  bit : s.bitIndex = 7 - (j : Int)
  state : StateOk luts x Pc Ic sh W maxOrder (n + 1 - W = 0) (n + 1 - W) n (8 * n + j) s.tree s.ctxs

/-- the source within a byte, when nothing is said of the counts -/
abbrev SrcOk (luts : Luts) (x : Nat → Bool) (Pc : Str → List Bool → Costs → Prop) (sh W maxOrder n j : Nat) (s : Src) :
    Prop :=
  SrcIs luts x Pc (fun _ _ => True) sh W maxOrder n j s

/-- the source before the first byte -/
structure SrcNew (x : Nat → Bool) (sh W maxOrder : Nat) (s : Src) : Prop where
  order : s.maxOrder = maxOrder
  bit : s.bitIndex = -1
  ctxs : s.ctxs = []
  proper : s.tree.proper = false
  win : WinOk s.tree.window x sh W 0 0 0
  pool : ∃ N, Rep (max 1 (W - 1)) s.tree.nodes N 0 ∧ (∃ nd, N 0 = some nd ∧ nodeIsValid nd = false) ∧ ∀ v, 1 ≤ v → N v = none

theorem srcNew_ok (hW : W ≤ 2 ^ 31) (hsh : sh < W) :
    ∃ s, srcNew W maxOrder sh = some s ∧ SrcNew x sh W maxOrder s := by
  obtain ⟨ns, e1, hR⟩ := rep_new (cap := max 1 (W - 1)) (by omega)
  obtain ⟨w, e2, hw⟩ := WinOk.new (x := x) (W := W) (sh := sh) (by omega) hsh
  unfold srcNew
  rw [check_pos (by omega), ob_some, check_pos hsh, ob_some, e1, ob_some, e2, ob_some]
  refine ⟨_, rfl, rfl, rfl, rfl, rfl, hw, _, hR, ⟨_, put_self _ _ _, rfl⟩, ?_⟩
  intro v hv
  rw [put_ne _ _ (by omega)]

theorem srcStart_first (hW0 : 0 < W) {s : Src} (h : SrcNew x sh W maxOrder s) :
    ∃ s', srcStart s = some s' ∧ SrcIs luts x Pc Ic sh W maxOrder 0 0 s' := by
  obtain ⟨t, ctxs, bi, mo⟩ := s
  obtain ⟨rfl, hb, hc, hp, hw, N, hR⟩ := h
  dsimp only at hb hc hp hw hR
  subst hc
  obtain ⟨w', e, hw'⟩ := hw.advance (by omega) (by omega)
  have hsz := hw.size
  have hmax := hw.max
  unfold srcStart treeStart makeRoom
  dsimp only
  rw [check_pos hb, ob_some, if_neg (by omega), ob_some]
  dsimp only
  rw [check_pos (by omega), ob_some, e, ob_some, ob_some]
  unfold shift
  dsimp only
  rw [if_neg (by rw [hp]; simp), check_pos (show ([] : List Ctx).length = 0 from rfl), ob_some, ob_some]
  refine ⟨_, rfl, rfl, rfl, ?_, by omega, ?_⟩
  · rw [show 0 + 1 - W = 0 by omega]; exact hw'
  · refine Or.inr ⟨hp, rfl, ?_, N, hR⟩
    intro i d _ _ _ h
    omega

/-- Starting a byte. -/
theorem srcStart_ok (hW : W ≤ 2 ^ 31) (hW0 : 0 < W) (hM : maxOrder ≤ 8191) {s : Src}
    (hby : ByteStep (Known x (n + 1 + 1 - W) n (8 * n + 8) 0) (8 * maxOrder + 7) Pc Ic Ic')
    (h : SrcIs luts x Pc Ic sh W maxOrder n 8 s) :
    ∃ s', srcStart s = some s' ∧ SrcIs luts x Pc Ic' sh W maxOrder (n + 1) 0 s' := by
  obtain ⟨t, ctxs, bi, mo⟩ := s
  obtain ⟨rfl, hb, hst⟩ := h
  dsimp only at hb hst
  have hsz := hst.win.size
  have hmax := hst.win.max
  have hle := hst.le
  unfold srcStart treeStart makeRoom
  dsimp only
  rw [check_pos (by omega), ob_some]
  by_cases hfull : t.window.size = t.window.max
  · rw [if_pos hfull]
    obtain ⟨t1, c1, e1, hw1, hnext, hcases⟩ := removeLeftmost_ok (ex' := n + 1 + 1 - W = 0) hW hM (by omega) hst
    obtain ⟨next, e2, e3⟩ := hnext (by omega)
    have hlo : n + 1 - W + 1 = n + 1 + 1 - W := by omega
    rw [hlo] at hw1 hcases
    obtain ⟨w', t2, c2, e4, e5, h5⟩ := start_ok hW hw1 hcases hby (by omega)
    have hsz1 := hw1.size
    have hmax1 := hw1.max
    rw [e1, ob_some]
    dsimp only
    rw [e2, ob_some, e3, ob_some, check_pos rfl, ob_some, ob_some]
    dsimp only
    rw [check_pos (by omega), ob_some, e4, ob_some, ob_some]
    dsimp only
    rw [e5, ob_some]
    exact ⟨_, rfl, rfl, rfl, h5⟩
  · rw [if_neg hfull, ob_some]
    dsimp only
    have hlt := hst.win.inv.size_le
    have hlo : n + 1 - W = n + 1 + 1 - W := by omega
    obtain ⟨w', t2, c2, e4, e5, h5⟩ := start_ok hW hst.win hst.cases (by rw [hlo]; exact hby)
      (by omega)
    rw [check_pos (by omega), ob_some, e4, ob_some, ob_some]
    dsimp only
    rw [e5, ob_some]
    refine ⟨_, rfl, rfl, rfl, ?_⟩
    rw [hlo] at h5
    exact h5

/-- The reported states. -/
theorem srcGather_ok (hM : maxOrder ≤ 8191) (hj : j < 8) {s : Src} (h : SrcIs luts x Pc Ic sh W maxOrder n j s)
    (hflat : Flat x (n + 1 - W) n (8 * n + j) → ∀ m, m ≤ maxOrder → n + 1 - W + m < n → Ic m (n - m - (n + 1 - W))) :
    ∃ states, srcGather s = some states ∧ WindowGather Pc luts.costs (n + 1 - W = 0) maxOrder
      (seg x (n + 1 - W) (8 * n + j - 8 * (n + 1 - W))) states ∧
      (s.tree.proper = true → states.length = s.ctxs.length) ∧
      ∀ (m : Nat) s, states[m]? = some s → CountIs (Ic m) s := by
  obtain ⟨t, ctxs, bi, mo⟩ := s
  obtain ⟨rfl, hb, hst⟩ := h
  dsimp only at hb hst
  obtain ⟨states, e, h1, h3, h2⟩ := gather_ok hM hj hst hflat
  unfold srcGather
  dsimp only
  have hbi : i32AsUsize bi = 7 - j := by unfold i32AsUsize; omega
  rw [check_pos (by omega), ob_some, hbi]
  exact ⟨states, e, gather_window hst.le hj h1 (fun m s hs => (h2 m s hs).1), h3, fun m s hs => (h2 m s hs).2⟩

/-- Reading a bit. -/
theorem srcProcess_is (hL : LutsOk luts) (hW : W ≤ 2 ^ 31) (hM : maxOrder ≤ 8191) (hj : j < 8) {s : Src}
    (h : SrcIs luts x Pc Ic sh W maxOrder n j s) {costs : List Costs}
    (hbit : s.tree.proper = true →
      BitStep (Known x (n + 1 - W) n (8 * n + j) 0) (n + 1 - W = 0) Pc Pc' Ic Ic' x n j s.ctxs.length costs)
    (hflat : ∀ m, Flat x (n + 1 - W) n (8 * n + j) → x (8 * (n - 1) + j) ≠ x (8 * n + j) → n + 1 - W + 1 ≤ n →
      m ≤ min maxOrder (n - 1 - (n + 1 - W)) →
      ∃ c, Pc' (cs x n (8 * n + j) m) (List.replicate (n - m - (n + 1 - W)) (!x (8 * n + j)) ++ [x (8 * n + j)]) c)
    (hlen : ∀ k, k < costs.length ↔ k ≤ maxOrder ∧ Branching (seg x (n + 1 - W) (8 * n + j - 8 * (n + 1 - W))) k) :
    ∃ s', srcProcess luts s (x (8 * n + j)) costs = some s' ∧ SrcIs luts x Pc' Ic' sh W maxOrder n (j + 1) s' := by
  obtain ⟨t, ctxs, bi, mo⟩ := s
  obtain ⟨rfl, hb, hst⟩ := h
  dsimp only at hb hst hlen
  have hle := hst.le
  have hcost : ∀ m, m < ctxs.length → (m < costs.length ↔
      Br (Known x (n + 1 - W) n (8 * n + j) 0) (8 * mo + 7) (cs x n (8 * n + j) m)) := by
    intro m hm
    obtain ⟨k1, k2⟩ : ctxs.length ≤ mo + 1 ∧ n + 1 - W + ctxs.length ≤ n := by
      rcases hst.cases with ⟨N, str, cnt, -, hC⟩ | ⟨-, hc, -⟩
      · exact ⟨hC.len, hC.size⟩
      · rw [hc] at hm; simp at hm
    have hq := win_flw (x := x) (k := m) hle hj (by omega)
    rw [hlen]
    unfold Branching Br
    rw [cs_length_eq (by omega)]
    constructor
    · rintro ⟨a1, a2, a3⟩
      refine ⟨by omega, fun b => ?_⟩
      cases b
      · exact flw_mem hq a3
      · exact flw_mem hq a2
    · rintro ⟨a1, a2⟩
      obtain ⟨i1, hi1⟩ := a2 true
      obtain ⟨i0, hi0⟩ := a2 false
      exact ⟨by omega, flw_mem' known_sys hq hi1, flw_mem' known_sys hq hi0⟩
  obtain ⟨t', c', e, hst'⟩ := extend_ok hL hW hM hj hst hbit hflat hcost
  unfold srcProcess
  dsimp only
  have hbi : i32AsUsize bi = 7 - j := by unfold i32AsUsize; omega
  rw [check_pos (by omega), ob_some, hbi, e, ob_some]
  exact ⟨_, rfl, rfl, by dsimp only; omega, hst'⟩

theorem srcProcess_ok (hL : LutsOk luts) (hPc : Fresh Pc) (hW : W ≤ 2 ^ 31) (hM : maxOrder ≤ 8191) (hj : j < 8) {s : Src}
    (h : SrcOk luts x Pc sh W maxOrder n j s) {costs : List Costs}
    (hcs : Allowed Pc (n + 1 - W = 0) (seg x (n + 1 - W) (8 * n + j - 8 * (n + 1 - W))) (x (8 * n + j)) costs)
    (hlen : ∀ k, k < costs.length ↔ k ≤ maxOrder ∧ Branching (seg x (n + 1 - W) (8 * n + j - 8 * (n + 1 - W))) k) :
    ∃ s', srcProcess luts s (x (8 * n + j)) costs = some s' ∧ SrcOk luts x Pc sh W maxOrder n (j + 1) s' := by
  have hle := h.state.le
  have hcs' : CostsFor (Known x (n + 1 - W) n (8 * n + j) 0) (n + 1 - W = 0) Pc x n j costs := by
    intro m c hc q hq
    have hm := (hlen m).mp (List.getElem?_eq_some_iff.mp hc).1
    have hmn : n + 1 - W + m ≤ n := by
      by_contra hcon
      exact branching_occs hm.2 (win_none hle hj hcon)
    rw [← win_context hle hj hmn]
    exact hcs m c hc q (fun he => flw_unique known_sys (hq he) (win_flw hle hj hmn))
  exact srcProcess_is hL hW hM hj h (fun _ => hcs'.step hPc) (fun m _ _ _ _ => fresh_split hPc _ _ (by omega)) hlen

/-- the source after `L` bits -/
def SrcIsAt (luts : Luts) (x : Nat → Bool) (Pc : Str → List Bool → Costs → Prop) (Ic : Nat → Nat → Prop)
    (sh W maxOrder L : Nat) (s : Src) : Prop :=
  (L = 0 ∧ SrcNew x sh W maxOrder s) ∨ ∃ n j, L = 8 * n + j ∧ 1 ≤ j ∧ j ≤ 8 ∧ SrcIs luts x Pc Ic sh W maxOrder n j s

/-- the source after `L` bits, when nothing is said of the counts -/
abbrev SrcAt (luts : Luts) (x : Nat → Bool) (Pc : Str → List Bool → Costs → Prop) (sh W maxOrder L : Nat) (s : Src) :
    Prop :=
  SrcIsAt luts x Pc (fun _ _ => True) sh W maxOrder L s

theorem src_ready_is (hW : W ≤ 2 ^ 31) (hW0 : 0 < W) (hM : maxOrder ≤ 8191) {L : Nat} {s : Src}
    (hby : ∀ n, L = 8 * n + 8 → ByteStep (Known x (n + 1 + 1 - W) n (8 * n + 8) 0) (8 * maxOrder + 7) Pc Ic Ic')
    (hsame : L % 8 ≠ 0 → Ic = Ic') (h : SrcIsAt luts x Pc Ic sh W maxOrder L s) :
    ∃ s', ready (treeSource luts) L s = some s' ∧ SrcIs luts x Pc Ic' sh W maxOrder (L / 8) (L % 8) s' := by
  unfold ready
  rcases h with ⟨rfl, h⟩ | ⟨n, j, rfl, h1, h2, h⟩
  · rw [if_pos rfl]
    exact srcStart_first hW0 h
  · by_cases hj : j = 8
    · subst hj
      rw [if_pos (by omega), show (8 * n + 8) / 8 = n + 1 by omega, show (8 * n + 8) % 8 = 0 by omega]
      exact srcStart_ok hW hW0 hM (hby n rfl) h
    · rw [if_neg (by omega), show (8 * n + j) / 8 = n by omega, show (8 * n + j) % 8 = j by omega]
      rw [hsame (by omega)] at h
      exact ⟨s, rfl, h⟩

theorem src_ready (hW : W ≤ 2 ^ 31) (hW0 : 0 < W) (hM : maxOrder ≤ 8191) {L : Nat} {s : Src}
    (h : SrcAt luts x Pc sh W maxOrder L s) :
    ∃ s', ready (treeSource luts) L s = some s' ∧ SrcOk luts x Pc sh W maxOrder (L / 8) (L % 8) s' :=
  src_ready_is hW hW0 hM (fun _ _ => ByteStep.any) (fun _ => rfl) h

/-- the history within the window -/
theorem windowed_seg {L : Nat} : windowed W (seg x 0 L) = seg x (L / 8 + 1 - W) (L - 8 * (L / 8 + 1 - W)) := by
  unfold windowed
  rw [seg_length]
  apply List.ext_getElem
  · simp
  · intro t h1 h2
    simp only [seg, List.getElem_drop, List.getElem_map, List.getElem_range]
    congr 1; omega

/-- One bit: the states reported before it, and the source after it. -/
theorem src_step (hL : LutsOk luts) (hPc : Fresh Pc) (hW : W ≤ 2 ^ 31) (hW0 : 0 < W) (hM : maxOrder ≤ 8191) {L : Nat}
    {s : Src} (h : SrcAt luts x Pc sh W maxOrder L s) :
    ∃ s1 states, ready (treeSource luts) L s = some s1 ∧ SrcOk luts x Pc sh W maxOrder (L / 8) (L % 8) s1 ∧
      srcGather s1 = some states ∧
      WindowGather Pc luts.costs (L < 8 * W) maxOrder (windowed W (seg x 0 L)) states ∧
      (s1.tree.proper = true → states.length = s1.ctxs.length) ∧
      ∀ costs : List Costs, costs.length = (states.filter CtxState.isNode).length →
        Allowed Pc (L < 8 * W) (windowed W (seg x 0 L)) (x L) costs →
        ∃ s2, srcProcess luts s1 (x L) costs = some s2 ∧ SrcAt luts x Pc sh W maxOrder (L + 1) s2 := by
  obtain ⟨s1, e1, h1⟩ := src_ready hW hW0 hM h
  have hj : L % 8 < 8 := by omega
  have hLL : 8 * (L / 8) + L % 8 = L := by omega
  obtain ⟨states, e2, h2, h2', -⟩ := srcGather_ok hM hj h1 (fun _ _ _ _ => trivial)
  have hex : (L / 8 + 1 - W = 0) = (L < 8 * W) := by rw [eq_iff_iff]; omega
  rw [hLL] at h2
  refine ⟨s1, states, e1, h1, e2, by rw [windowed_seg, ← hex]; exact h2, h2', ?_⟩
  intro costs hc1 hc2
  rw [windowed_seg, ← hex] at hc2
  obtain ⟨s2, e3, h3⟩ := srcProcess_ok hL hPc hW hM hj h1 (by rw [hLL]; exact hc2) (fun k => by
    rw [hc1, h2.costs_line_up k, hLL])
  rw [hLL] at e3
  exact ⟨s2, e3, Or.inr ⟨L / 8, L % 8 + 1, by omega, by omega, by omega, h3⟩⟩

/-- feeding the next bits -/
theorem src_feed (hL : LutsOk luts) (hPc : Fresh Pc) (hW : W ≤ 2 ^ 31) (hW0 : 0 < W) (hM : maxOrder ≤ 8191)
    {upd : List CtxState → Bool → List Costs}
    (hu : ∀ l b, (upd l b).length = (l.filter CtxState.isNode).length)
    (hS : ∀ ex hist l b d, Allowed Pc ex hist d (upd l b)) (bits : List Bool) :
    ∀ (s : Src) (L : Nat), SrcAt luts x Pc sh W maxOrder L s → (∀ r, r < bits.length → bits.getD r false = x (L + r)) →
    ∃ s', feed (treeSource luts) upd L s bits = some s' ∧ SrcAt luts x Pc sh W maxOrder (L + bits.length) s' := by
  induction bits with
  | nil => intro s L h _; exact ⟨s, rfl, h⟩
  | cons b bits ih =>
    intro s L h hx
    obtain ⟨s1, states, e1, -, e2, h2, -, h3⟩ := src_step hL hPc hW hW0 hM h
    have hb := hx 0 (by simp)
    rw [Nat.add_zero] at hb
    obtain ⟨s2, e3, h4⟩ := h3 (upd states b) (hu states b) (hS _ _ _ _ _)
    obtain ⟨s3, e4, h5⟩ := ih s2 (L + 1) h4 (by
      intro r hr
      have := hx (r + 1) (by rw [List.length_cons]; omega)
      rw [show L + 1 + r = L + (r + 1) by omega, ← this]
      simp)
    refine ⟨s3, ?_, by rw [List.length_cons, show L + (bits.length + 1) = L + 1 + bits.length by omega]; exact h5⟩
    rw [feed, e1, ob_some]
    change (srcGather s1 >>= _) = _
    rw [e2, ob_some]
    change (srcProcess luts s1 b (upd states b) >>= _) = _
    rw [← hb] at e3
    rw [show ((b :: bits).getD 0 false) = b from rfl] at e3
    rw [e3, ob_some]
    exact e4

theorem seg_getD_self (bits : List Bool) : seg (fun i => bits.getD i false) 0 bits.length = bits := by
  apply List.ext_getElem
  · simp
  · intro t h1 h2
    simp only [seg, List.getElem_map, List.getElem_range]
    rw [Nat.mul_zero, Nat.zero_add, List.getD_eq_getElem?_getD, List.getElem?_eq_getElem h2]
    rfl

/-- the source fed with a whole history -/
theorem src_run (hL : LutsOk luts) (hPc : Fresh Pc) (hW : W ≤ 2 ^ 31) (hsh : sh < W) (hM : maxOrder ≤ 8191)
    {upd : List CtxState → Bool → List Costs}
    (hu : ∀ l b, (upd l b).length = (l.filter CtxState.isNode).length)
    (hS : ∀ ex hist l b d, Allowed Pc ex hist d (upd l b)) (hist : List Bool) :
    ∃ s0 s, srcNew W maxOrder sh = some s0 ∧ feed (treeSource luts) upd 0 s0 hist = some s ∧
      SrcAt luts (fun i => hist.getD i false) Pc sh W maxOrder hist.length s := by
  obtain ⟨s0, e0, h0⟩ := srcNew_ok (x := fun i => hist.getD i false) (maxOrder := maxOrder) hW hsh
  obtain ⟨s, e1, h1⟩ := src_feed hL hPc hW (by omega) hM hu hS hist s0 0 (Or.inl ⟨rfl, h0⟩) (by
    intro r _; rw [Nat.zero_add])
  rw [Nat.zero_add] at h1
  exact ⟨s0, s, e0, e1, h1⟩

theorem src_observe (hL : LutsOk luts) (hPc : Fresh Pc) (hW : W ≤ 2 ^ 31) (hsh : sh < W) (hM : maxOrder ≤ 8191)
    {upd : List CtxState → Bool → List Costs}
    (hu : ∀ l b, (upd l b).length = (l.filter CtxState.isNode).length)
    (hS : ∀ ex hist l b d, Allowed Pc ex hist d (upd l b)) (hist : List Bool) :
    ∃ states, observe (treeSource luts) upd (srcNew W maxOrder sh) hist = some states ∧
      WindowGather Pc luts.costs (hist.length < 8 * W) maxOrder (windowed W hist) states := by
  obtain ⟨s0, s, e0, e1, h1⟩ := src_run hL hPc hW hsh hM hu hS hist
  obtain ⟨s1, states, e2, -, e3, h2, -, -⟩ := src_step hL hPc hW (by omega) hM h1
  refine ⟨states, ?_, ?_⟩
  · unfold observe
    rw [e0, ob_some, e1, ob_some, e2, ob_some]
    exact e3
  · rw [seg_getD_self] at h2
    exact h2

end Verif.Tree
