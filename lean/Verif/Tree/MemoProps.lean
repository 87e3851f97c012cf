import Verif.Tree.MemoSpec
import Verif.Tree.Exact

/-!
# The tree reports what the memory of contexts reports
-/

namespace Verif.Tree

open Verif Verif.History Verif.Window

variable {luts : Luts} {x : Nat → Bool} {sh W lo n j k maxOrder : Nat}

/-! ## The window -/

theorem win_mem (hle : lo ≤ n) (hj : j < 8) (hk : lo + k ≤ n) (b : Bool) :
    b ∈ following (seg x lo (8 * n + j - 8 * lo)) k ↔
      ∃ i, Known x lo n (8 * n + j) 0 (cs x n (8 * n + j) k ++ [b]) i :=
  ⟨fun h => flw_mem (win_flw hle hj hk) h, fun ⟨_, h⟩ => flw_mem' known_sys (win_flw hle hj hk) h⟩

theorem flat_mem (hle : lo ≤ n) (hj : j < 8) (hf : Flat x lo n (8 * n + j)) {b : Bool}
    (h : b ∈ following (seg x lo (8 * n + j - 8 * lo)) k) : b = x (8 * lo + j) := by
  have hk : lo + k ≤ n := by
    by_contra hcon
    unfold following at h
    rw [win_none hle hj hcon] at h
    simp at h
  obtain ⟨i, h1, h2, h3, h4⟩ := (win_mem hle hj hk b).mp h
  have hlen : (cs x n (8 * n + j) k).length = 8 * k + j := cs_length_eq (by omega)
  rw [List.length_append, hlen, List.length_singleton] at h4
  have := (seg_snoc_iff.mp h3).2
  rw [hlen, hf.bit (by omega) h1 (by omega)] at this
  rw [← this]
  congr 1; omega

theorem flat_not_branching (hle : lo ≤ n) (hj : j < 8) (hf : Flat x lo n (8 * n + j)) :
    ¬ Branching (seg x lo (8 * n + j - 8 * lo)) k := by
  rintro ⟨h1, h2⟩
  have a1 := flat_mem hle hj hf h1
  have a2 := flat_mem hle hj hf h2
  rw [← a2] at a1
  simp at a1

theorem flat_length (hle : lo ≤ n) (hj : j < 8) (hf : Flat x lo n (8 * n + j)) (hk : lo + k ≤ n) :
    (following (seg x lo (8 * n + j - 8 * lo)) k).length = n - k - lo := by
  have : occs (seg x lo (8 * n + j - 8 * lo)) k = List.range (n - lo - k) := by
    unfold occs
    rw [(win_len (k := k) hle hj).1, List.filter_eq_self]
    intro i hi
    rw [List.mem_range] at hi
    rw [decide_eq_true_eq, (win_len hle hj).2, win_context hle hj hk, seg_slice (by omega)]
    unfold cs
    rw [show 8 * n + j - 8 * (n - k) = 8 * k + j by omega]
    exact hf.segEq (by omega) (by omega) (by omega) (by omega) (by omega)
  unfold following
  rw [List.length_map, this, List.length_range]
  omega

theorem seg_take_le {d e : Nat} (h : d ≤ e) : (seg x lo e).take d = seg x lo d := by
  have := seg_slice (x := x) (lo := lo) (a := 0) (d := d) (e := e) (by omega)
  simpa using this

/-- where the bytes of the window differ -/
theorem firstDiff_some {d : Nat} (hn : lo ≤ n) (h : firstDiff (seg x lo (8 * n + 8 - 8 * lo)) = some d) :
    d < 8 ∧ (∃ i, lo ≤ i ∧ i ≤ n ∧ x (8 * i + d) ≠ x (8 * lo + d)) ∧
      ∀ e, e < d → ∀ i, lo ≤ i → i ≤ n → x (8 * i + e) = x (8 * lo + e) := by
  unfold firstDiff at h
  have hl : (seg x lo (8 * n + 8 - 8 * lo)).length / 8 = n + 1 - lo := by rw [seg_length]; omega
  rw [hl] at h
  have hd : d < 8 := by
    have := List.mem_of_find?_eq_some h
    rwa [List.mem_range] at this
  refine ⟨hd, ?_, ?_⟩
  · have := List.find?_some h
    rw [List.any_eq_true] at this
    obtain ⟨i, h1, h2⟩ := this
    rw [List.mem_range] at h1
    rw [bne_iff_ne, seg_getD _ (by omega), seg_getD _ (by omega)] at h2
    refine ⟨lo + i, by omega, by omega, ?_⟩
    rwa [show 8 * (lo + i) + d = 8 * lo + (8 * i + d) by omega]
  · intro e he i h1 h2
    rw [List.find?_range_eq_some] at h
    have := h.2.2 e he
    rw [Bool.not_eq_true', List.any_eq_false] at this
    have := this (i - lo) (by rw [List.mem_range]; omega)
    rw [bne_iff_ne, not_not, seg_getD _ (by omega), seg_getD _ (by omega)] at this
    rwa [show 8 * lo + (8 * (i - lo) + e) = 8 * i + e by omega] at this

theorem firstDiff_none (h : firstDiff (seg x lo (8 * n + 8 - 8 * lo)) = none) : Flat x lo n (8 * n + 8) := by
  intro i d h1 h2 h3 h4
  unfold firstDiff at h
  have hl : (seg x lo (8 * n + 8 - 8 * lo)).length / 8 = n + 1 - lo := by rw [seg_length]; omega
  rw [hl, List.find?_eq_none] at h
  have := h d (by rw [List.mem_range]; exact h3)
  rw [Bool.not_eq_true, List.any_eq_false] at this
  have := this (i - lo) (by rw [List.mem_range]; omega)
  rw [bne_iff_ne, not_not, seg_getD _ (by omega), seg_getD _ (by omega)] at this
  rwa [show 8 * lo + (8 * (i - lo) + d) = 8 * i + d by omega] at this

theorem flat_no_br {D : Nat} (hf : Flat x lo n (8 * n + 8)) (s : Str) : ¬ Br (Known x lo n (8 * n + 8) 0) D s := by
  rintro ⟨-, h⟩
  obtain ⟨i, h1, h2, h3, h4⟩ := h true
  obtain ⟨i', h1', h2', h3', h4'⟩ := h false
  rw [List.length_append, List.length_singleton] at h4 h4'
  have a := (seg_snoc_iff.mp h3).2
  have a' := (seg_snoc_iff.mp h3').2
  rw [hf.bit (le_refl _) h1 (by omega)] at a
  rw [hf.bit (le_refl _) h1' (by omega)] at a'
  rw [a] at a'
  simp at a'

/-- the string with which all bytes begin -/
theorem firstDiff_root {D d : Nat} (hD : 7 ≤ D) (hn : lo ≤ n) (h : firstDiff (seg x lo (8 * n + 8 - 8 * lo)) = some d)
    {s : Str} (hs : Br (Known x lo n (8 * n + 8) 0) D s) (hmin : ∀ r, Br (Known x lo n (8 * n + 8) 0) D r → s <+: r) :
    s = seg x lo d := by
  obtain ⟨hd, ⟨i0, k1, k2, k3⟩, hsame⟩ := firstDiff_some hn h
  have hsegs : ∀ i, lo ≤ i → i ≤ n → ∀ e, e ≤ d → seg x i e = seg x lo e := by
    intro i h1 h2 e he
    unfold seg
    apply List.map_congr_left
    intro r hr
    rw [List.mem_range] at hr
    exact hsame r (by omega) i h1 h2
  have hbr : Br (Known x lo n (8 * n + 8) 0) D (seg x lo d) := by
    refine ⟨by rw [seg_length]; omega, fun b => ?_⟩
    by_cases hb : x (8 * lo + d) = b
    · refine ⟨lo, le_refl _, hn, ?_, Or.inl ?_⟩
      · rw [seg_snoc_iff, seg_length]; exact ⟨rfl, hb⟩
      · rw [List.length_append, seg_length, List.length_singleton]; omega
    · refine ⟨i0, k1, k2, ?_, Or.inl ?_⟩
      · rw [seg_snoc_iff, seg_length]
        refine ⟨hsegs i0 k1 k2 d (le_refl _), ?_⟩
        revert hb k3
        cases x (8 * lo + d) <;> cases x (8 * i0 + d) <;> cases b <;> simp
      · rw [List.length_append, seg_length, List.length_singleton]; omega
  have hpre := hmin _ hbr
  rcases Nat.lt_or_ge s.length d with hlt | hge
  · exfalso
    have key : ∀ b, x (8 * lo + s.length) = b := by
      intro b
      obtain ⟨i, h1, h2, h3, h4⟩ := hs.2 b
      rw [← (seg_snoc_iff.mp h3).2]
      exact (hsame _ hlt i h1 h2).symm
    have := (key true).symm.trans (key false)
    simp at this
  · have := hpre.length_le
    rw [seg_length] at this
    exact hpre.eq_of_length (by rw [seg_length]; omega)

/-! ## The relation between the tree and the memory -/

/-- the record of a context -/
def MemoRec (m : Memo) : Str → List Bool → Costs → Prop := fun s q c => m.record s = (q, c)

/-- the count of the context of an order -/
def MemoCnt (m : Memo) : Nat → Nat → Prop := fun k C => m.count k = C

/-- the tree and the memory within a byte -/
structure MemoIs (luts : Luts) (x : Nat → Bool) (sh W maxOrder n j : Nat) (s : Src) (m : Memo) : Prop where
  src : SrcIs luts x (MemoRec m) (MemoCnt m) sh W maxOrder n j s
  hist : m.hist = seg x 0 (8 * n + j)
  flat : Flat x (n + 1 - W) n (8 * n + j) → ∀ k, n + 1 - W + k < n → m.count k = n - k - (n + 1 - W)

/-- the tree and the memory after `L` bits -/
def MemoAt (luts : Luts) (x : Nat → Bool) (sh W maxOrder L : Nat) (s : Src) (m : Memo) : Prop :=
  (L = 0 ∧ SrcNew x sh W maxOrder s ∧ m = Memo.new) ∨
    ∃ n j, L = 8 * n + j ∧ 1 ≤ j ∧ j ≤ 8 ∧ MemoIs luts x sh W maxOrder n j s m

theorem memo_win {s : Src} {m : Memo} (hj : j < 8) (h : MemoIs luts x sh W maxOrder n j s m) :
    windowed W m.hist = seg x (n + 1 - W) (8 * n + j - 8 * (n + 1 - W)) := by
  rw [h.hist, windowed_seg, show (8 * n + j) / 8 = n by omega]

theorem MemoAt.isAt {L : Nat} {s : Src} {m : Memo} (h : MemoAt luts x sh W maxOrder L s m) :
    SrcIsAt luts x (MemoRec m) (MemoCnt m) sh W maxOrder L s := by
  rcases h with ⟨h1, h2, -⟩ | ⟨n, j, h1, h2, h3, h⟩
  · exact Or.inl ⟨h1, h2⟩
  · exact Or.inr ⟨n, j, h1, h2, h3, h.src⟩

theorem MemoAt.hist {L : Nat} {s : Src} {m : Memo} (h : MemoAt luts x sh W maxOrder L s m) : m.hist = seg x 0 L := by
  rcases h with ⟨rfl, -, rfl⟩ | ⟨n, j, rfl, -, -, h⟩
  · rfl
  · exact h.hist

theorem memo_ready (hW : W ≤ 2 ^ 31) (hW0 : 0 < W) (hM : maxOrder ≤ 8191) {L : Nat} {s : Src} {m : Memo}
    (h : MemoAt luts x sh W maxOrder L s m) :
    ∃ s' m', ready (treeSource luts) L s = some s' ∧ ready (memoSource luts.costs W maxOrder) L m = some m' ∧
      MemoIs luts x sh W maxOrder (L / 8) (L % 8) s' m' := by
  have hhist := h.hist
  have hwin : windowed W m.hist = seg x (L / 8 + 1 - W) (L - 8 * (L / 8 + 1 - W)) := by rw [hhist, windowed_seg]
  by_cases hL8 : L % 8 = 0
  · have e2 : ready (memoSource luts.costs W maxOrder) L m = some (m.start W) := by
      unfold ready
      rw [if_pos hL8]; rfl
    -- what is counted
    have hflat : Flat x (L / 8 + 1 - W) (L / 8) L → ∀ k, L / 8 + 1 - W + k < L / 8 →
        (m.start W).count k = L / 8 - k - (L / 8 + 1 - W) := by
      intro hf k hk
      unfold Memo.start
      dsimp only
      rw [hwin]
      cases hd : firstDiff (seg x (L / 8 + 1 - W) (L - 8 * (L / 8 + 1 - W))) with
      | some d =>
        exfalso
        obtain ⟨n, hn⟩ : ∃ n, L / 8 = n + 1 := ⟨L / 8 - 1, by omega⟩
        rw [hn, show L = 8 * n + 8 by omega] at hd
        rw [hn] at hf
        obtain ⟨k0, ⟨i, k1, k2, k3⟩, -⟩ := firstDiff_some (by omega) hd
        exact k3 (hf i d k1 (by omega) k0 (by omega))
      | none =>
        have hfl := flat_length (x := x) (n := L / 8) (j := 0) (k := k) (lo := L / 8 + 1 - W) (by omega) (by omega)
          (by rwa [show 8 * (L / 8) + 0 = L by omega]) (by omega)
        rw [show 8 * (L / 8) + 0 = L by omega] at hfl
        exact hfl
    obtain ⟨s', e1, h1⟩ := src_ready_is (Ic' := MemoCnt (m.start W)) hW hW0 hM (by
      intro n hn
      have hwin' : windowed W m.hist = seg x (n + 1 + 1 - W) (8 * n + 8 - 8 * (n + 1 + 1 - W)) := by
        rw [hwin, hn, show (8 * n + 8) / 8 = n + 1 by omega]
      have hle : ∀ {s' D}, Br (Known x (n + 1 + 1 - W) n (8 * n + 8) 0) D s' → n + 1 + 1 - W ≤ n := by
        intro s' D hbr
        obtain ⟨i, i1, i2, -⟩ := hbr.2 true
        omega
      constructor
      · intro s q c hbr hmin hq
        unfold MemoCnt Memo.start
        dsimp only
        rw [hwin']
        cases hd : firstDiff (seg x (n + 1 + 1 - W) (8 * n + 8 - 8 * (n + 1 + 1 - W))) with
        | none => exact absurd hbr (flat_no_br (firstDiff_none hd) s)
        | some d =>
          dsimp only
          have hd8 := (firstDiff_some (hle hbr) hd).1
          have := hle hbr
          rw [seg_take_le (by omega), ← firstDiff_root (by omega) (hle hbr) hd hbr hmin]
          rw [show m.record s = (q, c) from hq]
      · rintro ⟨s, hbr⟩ k C hC
        unfold MemoCnt Memo.start
        dsimp only
        rw [hwin']
        cases hd : firstDiff (seg x (n + 1 + 1 - W) (8 * n + 8 - 8 * (n + 1 + 1 - W))) with
        | none => exact absurd hbr (flat_no_br (firstDiff_none hd) s)
        | some d => exact hC) (fun hne => absurd hL8 hne) h.isAt
    refine ⟨s', m.start W, e1, e2, h1, ?_, ?_⟩
    · rw [show 8 * (L / 8) + L % 8 = L by omega]; exact hhist
    · rw [show 8 * (L / 8) + L % 8 = L by omega]; exact hflat
  · have e2 : ready (memoSource luts.costs W maxOrder) L m = some m := by
      unfold ready
      rw [if_neg hL8]
    have e1 : ready (treeSource luts) L s = some s := by
      unfold ready
      rw [if_neg hL8]
    refine ⟨s, m, e1, e2, ?_⟩
    rcases h with ⟨rfl, -⟩ | ⟨n, j, rfl, h2, h3, h⟩
    · exact absurd rfl hL8
    · rw [show (8 * n + j) / 8 = n by omega, show (8 * n + j) % 8 = j by omega]
      exact h

theorem mapM_forall2 {α β : Type} {f : α → Option β} : ∀ {l : List α} {l' : List β},
    List.Forall₂ (fun a b => f a = some b) l l' → l.mapM f = some l'
  | [], _, .nil => rfl
  | a :: l, _, .cons h1 h2 => by
    rw [List.mapM_cons, h1, ob_some, mapM_forall2 h2, ob_some]; rfl

/-- the states reported -/
theorem memo_gather (hM : maxOrder ≤ 8191) (hj : j < 8) {s : Src} {m : Memo} (h : MemoIs luts x sh W maxOrder n j s m) :
    ∃ states, srcGather s = some states ∧ m.gather luts.costs W maxOrder = some states ∧
      WindowGather (MemoRec m) luts.costs (n + 1 - W = 0) maxOrder (windowed W m.hist) states ∧
      (s.tree.proper = true → states.length = s.ctxs.length) := by
  obtain ⟨states, e, h1, h2, h3⟩ := srcGather_ok hM hj h.src (fun hf k _ hk => h.flat hf k hk)
  rw [← memo_win hj h] at h1
  refine ⟨states, e, ?_, h1, h2⟩
  unfold Memo.gather
  apply mapM_forall2
  obtain ⟨r, hr, er, hk⟩ := orders_range (windowed W m.hist) maxOrder
  have hlen := h1.length_eq
  refine forall2_of_get hlen ?_
  intro k a st ha hs
  obtain ⟨-, hocc, hst⟩ := h1.get hs
  have hcnt := h3 k st hs
  have hak : a = k := by
    rw [er] at ha
    obtain ⟨hlt, ha⟩ := List.getElem?_eq_some_iff.mp ha
    rw [List.getElem_range] at ha
    exact ha.symm
  subst hak
  unfold Memo.state
  dsimp only
  rcases hst with ⟨b1, b2, q, c, hq, -, -, hspec⟩ | ⟨b, C, hne, hall, -, -, rfl⟩
  · rw [if_pos ⟨b1, b2⟩, show m.record (context (windowed W m.hist) a) = (q, c) from hq]
    exact hspec
  · rw [if_neg (by
      rintro ⟨b1, b2⟩
      have a1 := hall _ b1
      have a2 := hall _ b2
      rw [← a2] at a1
      simp at a1)]
    obtain ⟨C', hC', he⟩ := hcnt _ _ _ rfl
    rw [show m.count a = C' from hC', he]
    obtain ⟨b0, l, hl⟩ := List.exists_cons_of_ne_nil hne
    rw [hl, List.headD_cons, hall b0 (by rw [hl]; simp)]

/-- reading a bit -/
theorem memo_process (hL : LutsOk luts) (hW : W ≤ 2 ^ 31) (hM : maxOrder ≤ 8191) (hj : j < 8) {s : Src} {m : Memo}
    (h : MemoIs luts x sh W maxOrder n j s m) {states : List CtxState} {costs : List Costs}
    (hg : WindowGather (MemoRec m) luts.costs (n + 1 - W = 0) maxOrder (windowed W m.hist) states)
    (hp : s.tree.proper = true → states.length = s.ctxs.length)
    (hc : costs.length = (states.filter CtxState.isNode).length) :
    ∃ s', srcProcess luts s (x (8 * n + j)) costs = some s' ∧
      MemoIs luts x sh W maxOrder n (j + 1) s' (m.read W maxOrder (x (8 * n + j)) costs) := by
  have hle := h.src.state.le
  have hwin := memo_win hj h
  have hlen : ∀ k, k < costs.length ↔ k ≤ maxOrder ∧ Branching (windowed W m.hist) k := fun k => by
    rw [hc]; exact hg.costs_line_up k
  have hin : ∀ {k}, occs (windowed W m.hist) k ≠ [] → n + 1 - W + k ≤ n := by
    intro k ho
    by_contra hcon
    rw [hwin] at ho
    exact ho (win_none hle hj hcon)
  have hctx : ∀ {k}, n + 1 - W + k ≤ n → context (windowed W m.hist) k = cs x n (8 * n + j) k := by
    intro k hk
    rw [hwin]; exact win_context hle hj hk
  have hcsl : ∀ {k}, n + 1 - W + k ≤ n → (cs x n (8 * n + j) k).length / 8 = k := by
    intro k hk
    rw [cs_length_eq (by omega)]; omega
  have hmem : ∀ {k}, n + 1 - W + k ≤ n → ∀ b, b ∈ following (windowed W m.hist) k ↔
      ∃ i, Known x (n + 1 - W) n (8 * n + j) 0 (cs x n (8 * n + j) k ++ [b]) i := by
    intro k hk b
    rw [hwin]; exact win_mem hle hj hk b
  -- the record of a context in progress
  have hrec : ∀ {k}, k ≤ maxOrder → occs (windowed W m.hist) k ≠ [] →
      (m.read W maxOrder (x (8 * n + j)) costs).record (cs x n (8 * n + j) k) =
        if Branching (windowed W m.hist) k then
          ((m.record (cs x n (8 * n + j) k)).1 ++ [x (8 * n + j)], costs.getD k costsDefault)
        else if x (8 * n + j) ∈ following (windowed W m.hist) k then m.record (cs x n (8 * n + j) k)
        else (List.replicate (m.count k) (!x (8 * n + j)) ++ [x (8 * n + j)], costsDefault) := by
    intro k hk ho
    unfold Memo.read
    dsimp only
    rw [hcsl (hin ho), if_pos ⟨hk, ho, (hctx (hin ho)).symm⟩]
  obtain ⟨s', e, h'⟩ := srcProcess_is (Pc' := MemoRec (m.read W maxOrder (x (8 * n + j)) costs))
    (Ic' := MemoCnt (m.read W maxOrder (x (8 * n + j)) costs)) hL hW hM hj h.src (costs := costs) (by
      intro hprop
      have hlt : ∀ {k}, k < s.ctxs.length → k ≤ maxOrder ∧ occs (windowed W m.hist) k ≠ [] := by
        intro k hk
        rw [← hp hprop] at hk
        exact (hg.lt_length k).mp hk
      constructor
      · intro s' q c hs' hq
        unfold MemoRec Memo.read
        dsimp only
        rw [if_neg]
        · exact hq
        · rintro ⟨a1, a2, a3⟩
          refine hs' (s'.length / 8) ?_ (a3.trans (hctx (hin a2)))
          rw [← hp hprop]
          exact (hg.lt_length _).mpr ⟨a1, a2⟩
      · intro k c hk hck q c0 hq _
        have hb := ((hlen k).mp (List.getElem?_eq_some_iff.mp hck).1).2
        have hq' : m.record (cs x n (8 * n + j) k) = (q, c0) := hq
        constructor
        · unfold MemoRec
          rw [hrec (hlt hk).1 (hlt hk).2, if_pos hb, hq', List.getD_eq_getElem?_getD, hck]
          rfl
        · unfold MemoCnt Memo.read
          dsimp only
          rw [if_pos hb, hctx (hin (hlt hk).2), hq']
      · intro k hk hno C hC
        unfold MemoCnt Memo.read
        dsimp only
        rw [if_neg]
        · exact hC
        · intro hb
          have : (!x (8 * n + j)) ∈ following (windowed W m.hist) k := by
            cases x (8 * n + j)
            · exact hb.1
            · exact hb.2
          obtain ⟨i, hi⟩ := (hmem (hin (hlt hk).2) _).mp this
          exact hno i hi
      · intro k hk hno C _ hC
        have hnb : x (8 * n + j) ∉ following (windowed W m.hist) k := by
          intro hcon
          obtain ⟨i, hi⟩ := (hmem (hin (hlt hk).2) _).mp hcon
          exact hno i hi
        refine ⟨costsDefault, ?_⟩
        unfold MemoRec
        rw [hrec (hlt hk).1 (hlt hk).2, if_neg, if_neg hnb, show m.count k = C from hC]
        intro hb
        apply hnb
        cases x (8 * n + j)
        · exact hb.2
        · exact hb.1) (by
      intro k hf hne hn hk
      have hin' : n + 1 - W + k ≤ n := by omega
      have hnb : x (8 * n + j) ∉ following (windowed W m.hist) k := by
        rw [hwin]
        intro hcon
        apply hne
        rw [flat_mem hle hj hf hcon]
        exact hf (n - 1) j (by omega) (by omega) hj (by omega)
      have hbr : ¬ Branching (windowed W m.hist) k := by
        rw [hwin]; exact flat_not_branching hle hj hf
      have ho : occs (windowed W m.hist) k ≠ [] := by
        intro hcon
        have := flat_length (k := k) hle hj hf hin'
        rw [← hwin, following, List.length_map, hcon, List.length_nil] at this
        omega
      refine ⟨costsDefault, ?_⟩
      unfold MemoRec
      rw [hrec (by omega) ho, if_neg hbr, if_neg hnb, h.flat hf k (by omega)]) (by rw [← hwin]; exact hlen)
  refine ⟨s', e, h', ?_, ?_⟩
  · unfold Memo.read
    dsimp only
    rw [h.hist, ← Nat.add_assoc, seg_succ, Nat.mul_zero, Nat.zero_add]
  · intro hf k hk
    have hf' : Flat x (n + 1 - W) n (8 * n + j) := fun i d h1 h2 h3 h4 => hf i d h1 h2 h3 (by omega)
    unfold Memo.read
    dsimp only
    rw [if_neg (by rw [hwin]; exact flat_not_branching hle hj hf')]
    exact h.flat hf' k hk

/-- one bit -/
theorem memo_step (hL : LutsOk luts) (hW : W ≤ 2 ^ 31) (hW0 : 0 < W) (hM : maxOrder ≤ 8191) {L : Nat} {s : Src} {m : Memo}
    (h : MemoAt luts x sh W maxOrder L s m) :
    ∃ s1 m1 states, ready (treeSource luts) L s = some s1 ∧ ready (memoSource luts.costs W maxOrder) L m = some m1 ∧
      srcGather s1 = some states ∧ m1.gather luts.costs W maxOrder = some states ∧
      ∀ costs : List Costs, costs.length = (states.filter CtxState.isNode).length →
        ∃ s2, srcProcess luts s1 (x L) costs = some s2 ∧
          MemoAt luts x sh W maxOrder (L + 1) s2 (m1.read W maxOrder (x L) costs) := by
  obtain ⟨s1, m1, e1, e2, h1⟩ := memo_ready hW hW0 hM h
  have hj : L % 8 < 8 := by omega
  have hLL : 8 * (L / 8) + L % 8 = L := by omega
  obtain ⟨states, e3, e4, h2, h3⟩ := memo_gather hM hj h1
  refine ⟨s1, m1, states, e1, e2, e3, e4, fun costs hc => ?_⟩
  obtain ⟨s2, e5, h4⟩ := memo_process hL hW hM hj h1 h2 h3 hc
  rw [hLL] at e5 h4
  exact ⟨s2, e5, Or.inr ⟨L / 8, L % 8 + 1, by omega, by omega, by omega, h4⟩⟩

theorem memo_agree (hL : LutsOk luts) (hW : W ≤ 2 ^ 31) (hW0 : 0 < W) (hM : maxOrder ≤ 8191) (sh : Nat) (x : Nat → Bool)
    (B : Nat) :
    Agree (treeSource luts) (memoSource luts.costs W maxOrder) x B fun L s m => MemoAt luts x sh W maxOrder L s m := by
  intro L s m h _
  obtain ⟨s1, m1, states, e1, e2, e3, e4, h3⟩ := memo_step hL hW hW0 hM h
  refine ⟨s1, m1, states, e1, e2, e3, e4, fun costs hc => ?_⟩
  obtain ⟨s2, e5, h5⟩ := h3 costs hc
  exact ⟨s2, _, e5, rfl, h5⟩

theorem memo_feed (hL : LutsOk luts) (hW : W ≤ 2 ^ 31) (hW0 : 0 < W) (hM : maxOrder ≤ 8191)
    {upd : List CtxState → Bool → List Costs} (hu : ∀ l b, (upd l b).length = (l.filter CtxState.isNode).length)
    (bits : List Bool) : ∀ (s : Src) (m : Memo) (L : Nat), MemoAt luts x sh W maxOrder L s m →
      (∀ r, r < bits.length → bits.getD r false = x (L + r)) →
    ∃ s' m', feed (treeSource luts) upd L s bits = some s' ∧
      feed (memoSource luts.costs W maxOrder) upd L m bits = some m' ∧
      MemoAt luts x sh W maxOrder (L + bits.length) s' m' := by
  induction bits with
  | nil => intro s m L h _; exact ⟨s, m, rfl, rfl, h⟩
  | cons b bits ih =>
    intro s m L h hx
    obtain ⟨s1, m1, states, e1, e2, e3, e4, h3⟩ := memo_step hL hW hW0 hM h
    have hb := hx 0 (by simp)
    rw [Nat.add_zero, show ((b :: bits).getD 0 false) = b from rfl] at hb
    obtain ⟨s2, e5, h4⟩ := h3 (upd states b) (hu states b)
    rw [← hb] at e5 h4
    obtain ⟨s3, m3, e6, e7, h5⟩ := ih s2 _ (L + 1) h4 (by
      intro r hr
      have := hx (r + 1) (by rw [List.length_cons]; omega)
      rw [show L + 1 + r = L + (r + 1) by omega, ← this]
      simp)
    refine ⟨s3, m3, ?_, ?_, by
      rw [List.length_cons, show L + (bits.length + 1) = L + 1 + bits.length by omega]; exact h5⟩
    · rw [feed, e1, ob_some]
      change (srcGather s1 >>= _) = _
      rw [e3, ob_some]
      change (srcProcess luts s1 b (upd states b) >>= _) = _
      rw [e5, ob_some]
      exact e6
    · rw [feed, e2, ob_some]
      change (m1.gather luts.costs W maxOrder >>= _) = _
      rw [e4, ob_some]
      exact e7

/-- **C63 (reported states).** At every bit of a history of any length, whatever cost trackers are supplied, the tree does
not panic and reports the states of the memory of contexts, whose definition does not mention nodes, edges or positions in
the window. -/
theorem C63_states (luts : Luts) (hL : LutsOk luts) {W maxOrder sh : Nat} (hW : W ≤ 2 ^ 31) (hsh : sh < W)
    (hM : maxOrder ≤ 8191) (hist : List Bool) (upd : List CtxState → Bool → List Costs)
    (hu : ∀ l b, (upd l b).length = (l.filter CtxState.isNode).length) :
    ∃ states, observe (treeSource luts) upd (srcNew W maxOrder sh) hist = some states ∧
      observe (memoSource luts.costs W maxOrder) upd (some Memo.new) hist = some states := by
  obtain ⟨s0, e0, h0⟩ := srcNew_ok (x := fun i => hist.getD i false) (maxOrder := maxOrder) hW hsh
  obtain ⟨s, m, e1, e2, h1⟩ := memo_feed (luts := luts) hL hW (by omega) hM hu hist s0 Memo.new 0 (Or.inl ⟨rfl, h0, rfl⟩) (by
    intro r _; rw [Nat.zero_add])
  rw [Nat.zero_add] at h1
  obtain ⟨s1, m1, states, e3, e4, e5, e6, -⟩ := memo_step hL hW (by omega) hM h1
  refine ⟨states, ?_, ?_⟩
  · unfold observe
    rw [e0, ob_some, e1, ob_some, e3, ob_some]
    exact e5
  · unfold observe
    rw [ob_some, e2, ob_some, e4, ob_some]
    exact e6

/-- **C63 (initial position).** The position in the ring buffer at which the first byte is stored makes no difference. -/
theorem C63_position (luts : Luts) (hL : LutsOk luts) {W maxOrder sh sh' : Nat} (hW : W ≤ 2 ^ 31) (hsh : sh < W)
    (hsh' : sh' < W) (hM : maxOrder ≤ 8191) (hist : List Bool) (upd : List CtxState → Bool → List Costs)
    (hu : ∀ l b, (upd l b).length = (l.filter CtxState.isNode).length) :
    ∃ states, observe (treeSource luts) upd (srcNew W maxOrder sh) hist = some states ∧
      observe (treeSource luts) upd (srcNew W maxOrder sh') hist = some states := by
  obtain ⟨states, h1, h2⟩ := C63_states luts hL hW hsh hM hist upd hu
  obtain ⟨states', h1', h2'⟩ := C63_states luts hL hW hsh' hM hist upd hu
  rw [h2] at h2'
  obtain rfl := Option.some.inj h2'
  exact ⟨states, h1, h1'⟩

/-- after nine bytes and in a window of three, the record of the empty context is longer than what the window shows, and is
counted at the start of the next byte -/
example : let upd := fun (l : List CtxState) (b : Bool) => (l.filter CtxState.isNode).map fun s => (s.dist, b.toNat)
    (feed (memoSource (List.replicate 2000 5) 3 1) upd 0 Memo.new
      (([1, 0, 1, 1, 0, 1, 1, 0, 1].map fun x => Nat.testBit x 0 :: List.replicate 7 false).flatten)).map
      (fun m => (m.record [], following (windowed 3 m.hist) 0, (m.start 3).count 0, (m.start 3).count 1)) =
    some (([true, true, false, true], 1, 1), [false, true], 4, 2) := by
  decide +kernel

/-- the hypotheses are met -/
example : ∃ luts, LutsOk luts ∧ ∃ states, observe (treeSource luts)
    (fun l b => (l.filter CtxState.isNode).map fun s => (s.dist, b.toNat)) (srcNew 3 1 2)
    (([1, 0, 1, 1, 0, 1, 1, 0, 1].map fun x => Nat.testBit x 0 :: List.replicate 7 false).flatten) = some states := by
  obtain ⟨luts, h⟩ := luts_exist
  obtain ⟨states, h1, -⟩ := C63_states luts h (W := 3) (maxOrder := 1) (sh := 2) (by norm_num) (by norm_num)
    (by norm_num) (([1, 0, 1, 1, 0, 1, 1, 0, 1].map fun x => Nat.testBit x 0 :: List.replicate 7 false).flatten)
    (fun l b => (l.filter CtxState.isNode).map fun s => (s.dist, b.toNat)) (fun l b => by simp)
  exact ⟨luts, h, states, h1⟩

end Verif.Tree
