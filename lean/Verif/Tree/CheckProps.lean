import Verif.Tree.CheckLemmas
import Verif.Tree.Props

/-!
# C57, C58: integrity checks and the number of nodes
-/

namespace Verif.Tree

open Verif Verif.History Verif.Window

variable {luts : Luts} {Pc : Str → List Bool → Costs → Prop} {Ic : Nat → Nat → Prop} {x : Nat → Bool} {sh W lo n j maxOrder : Nat}

/-! ## C57 -/

/-- **C57.** For every window, maximal order and input of whole bytes, however long, and every way of updating the cost
trackers, the integrity check passes after the start of the next byte. -/
theorem C57_integrity (luts : Luts) (h : LutsOk luts) (W sh maxOrder : Nat) (hW : W ≤ 2 ^ 31) (hsh : sh < W)
    (hM : maxOrder ≤ 8191) (hist : List Bool) (hlen : hist.length % 8 = 0) (upd : List CtxState → Bool → List Costs)
    (hu : ∀ l b, (upd l b).length = (l.filter CtxState.isNode).length) :
    ∃ s0 s1 s, srcNew W maxOrder sh = some s0 ∧ feed (treeSource luts) upd 0 s0 hist = some s1 ∧
      srcStart s1 = some s ∧ srcCheck s = some () := by
  obtain ⟨s0, s1, e0, e1, h1⟩ := src_run (Pc := fun _ _ _ => True) h (fun _ _ _ => ⟨costsDefault, trivial⟩) hW hsh hM
    hu (fun _ _ _ _ _ => allowed_const (fun _ _ => trivial)) hist
  obtain ⟨s, e2, h2⟩ := src_ready hW (by omega) hM h1
  have e3 : srcStart s1 = some s := by
    unfold ready at e2
    rwa [if_pos hlen] at e2
  rw [hlen] at h2
  exact ⟨s0, s1, s, e0, e1, e3, srcCheck_ok hW hM e3 h2⟩

/-- **C57 (a weakness of the check).** After the start of a byte the part of the check that follows every suffix down the
tree looks at the root only: it passes for every tree with the same window and the same root, whatever the other nodes
are. (The text of the root has just been set to the current byte, so every walk takes the early exit at the root.) -/
theorem C57_suffixes_root_only (luts : Luts) (h : LutsOk luts) (W sh maxOrder : Nat) (hW : W ≤ 2 ^ 31) (hsh : sh < W)
    (hM : maxOrder ≤ 8191) (hist : List Bool) (hlen : hist.length % 8 = 0) (upd : List CtxState → Bool → List Costs)
    (hu : ∀ l b, (upd l b).length = (l.filter CtxState.isNode).length) :
    ∃ s0 s1 s suffixes, srcNew W maxOrder sh = some s0 ∧ feed (treeSource luts) upd 0 s0 hist = some s1 ∧
      srcStart s1 = some s ∧ forEachSuffix s.tree.window = some suffixes ∧
      ∀ nodes : Nodes, nodes.items[0]? = s.tree.nodes.items[0]? →
        checkSuffixes { s.tree with nodes := nodes } maxOrder suffixes = some () := by
  obtain ⟨s0, s1, e0, e1, h1⟩ := src_run (Pc := fun _ _ _ => True) h (fun _ _ _ => ⟨costsDefault, trivial⟩) hW hsh hM
    hu (fun _ _ _ _ _ => allowed_const (fun _ _ => trivial)) hist
  obtain ⟨s, e2, h2⟩ := src_ready hW (by omega) hM h1
  have e3 : srcStart s1 = some s := by
    unfold ready at e2
    rwa [if_pos hlen] at e2
  obtain ⟨ho, hb, hst⟩ := h2
  have hw := hst.win
  have hle := hst.le
  have hsz := hw.size
  refine ⟨s0, s1, s, _, e0, e1, e3, C26_suffixes hw.inv (by omega), ?_⟩
  intro nodes hn
  have hcl : s.tree.window.cursor < 2 ^ 32 := by rw [hw.cursor hle]; have := hw.lt (hist.length / 8); omega
  have hl : ∀ q ∈ (List.range s.tree.window.size).map (posOf s.tree.window),
      ∃ i, hist.length / 8 + 1 - W ≤ i ∧ i ≤ hist.length / 8 ∧ q = pos sh W i := by
    intro q hq
    obtain ⟨k, hk, rfl⟩ := List.mem_map.mp hq
    rw [List.mem_range] at hk
    refine ⟨hist.length / 8 + 1 - W + k, by omega, by omega, ?_⟩
    rw [← hw.posOf (by omega)]
    congr 1; omega
  by_cases hp : s.tree.proper = true
  · obtain ⟨⟨nd, k1, k2⟩, -⟩ := srcStart_root e3 hp
    rcases hst.cases with ⟨N, str, cnt, hT, hC⟩ | ⟨hf, -⟩
    · obtain ⟨n0, hn0⟩ := hT.inv.root
      have hno := hT.inv.node 0 n0 hn0
      have hi := (rep_some hT.rep hn0).1
      rw [k1, Option.some.injEq] at hi
      subst hi
      refine checkSuffixes_root (t := { s.tree with nodes := nodes }) (nd := nd) hw hle hM (fun _ => ⟨?_, ?_, ?_⟩) _ hl
      · unfold nodesGet
        dsimp only
        rw [hn, k1, ob_some, check_pos (Or.inr hno.valid), ob_some]
      · dsimp only
        rw [k2]
        unfold wrapU32
        exact Nat.mod_eq_of_lt hcl
      · rw [hno.depth]; exact hno.br.1
    · rw [hf] at hp; simp at hp
  · exact checkSuffixes_root (t := { s.tree with nodes := nodes }) (nd := nodeInvalid) hw hle hM
      (fun hp' => absurd hp' hp) _ hl

/-- the hypotheses are met: five bytes in a window of three -/
example : ∃ luts, LutsOk luts ∧ ∃ s0 s1 s, srcNew 3 2 1 = some s0 ∧ feed (treeSource luts)
    (fun l _ => List.replicate (l.filter CtxState.isNode).length costsDefault) 0 s0
      ((List.range 40).map fun i => i % 3 == 0) = some s1 ∧ srcStart s1 = some s ∧ srcCheck s = some () := by
  obtain ⟨luts, h⟩ := luts_exist
  obtain ⟨s0, s1, s, h1, h2, h3, h4⟩ := C57_integrity luts h 3 1 2 (by norm_num) (by norm_num) (by norm_num)
    ((List.range 40).map fun i => i % 3 == 0) (by simp)
    (fun l _ => List.replicate (l.filter CtxState.isNode).length costsDefault) (fun l b => by simp)
  exact ⟨luts, h, s0, s1, s, h1, h2, h3, h4⟩

/-- the check can fail: two leaves for the same suffix, a child that is the invalid one -/
example : checkLeaves ⟨⟨[{ nodeInvalid with left := 0, right := 0 }], none, 0, 1⟩, ⟨[5, 96, 7], 0, 2, 3, 3⟩, true⟩ = none ∧
    checkLeaves ⟨⟨[{ nodeInvalid with left := 0, right := 1 }], none, 0, 1⟩, ⟨[5, 96, 7], 0, 2, 3, 3⟩, true⟩ = some () ∧
    ctxsCheck ⟨⟨[{ nodeInvalid with left := 0, right := -1 }], none, 0, 1⟩, ⟨[5, 96, 7], 0, 2, 3, 3⟩, true⟩ [] = none ∧
    ctxsCheck ⟨⟨[{ nodeInvalid with left := 0, right := 1, depth := 1 }], none, 0, 1⟩, ⟨[5, 196, 7], 0, 2, 3, 3⟩, true⟩ [] =
      none := by decide +kernel

/-! ## C58 -/

theorem count_of_state (hj : j ≤ 8) {t : Tree} {ctxs : List Ctx} {ex : Prop} {hist : List Bool} (hW : W ≤ 2 ^ 31)
    (hh : hist = seg x lo (8 * n + j - 8 * lo)) (h : StateOk luts x Pc Ic sh W maxOrder ex lo n (8 * n + j) t ctxs) :
    ∃ l : List (List Bool), l.Nodup ∧ (∀ s, s ∈ l ↔ Branches hist (8 * maxOrder + 7) s) ∧
      liveCount t.nodes = some l.length ∧ (t.proper = true → traverse t (fun k _ _ b => some (if b then k + 1 else k)) t.nodes.items.length [0] 0 =
        some l.length) := by
  obtain ⟨hw, hle, ⟨N, str, cnt, hT, hC⟩ | hf⟩ := h
  · obtain ⟨n0, hn0⟩ := hT.inv.root
    obtain ⟨l, l1, l2, l3, l4⟩ := rep_all hT.rep
    have hinj : ∀ a ∈ l, ∀ b ∈ l, str a = str b → a = b := by
      intro a ha b hb he
      obtain ⟨na, hna⟩ := (l3 a).mp ha
      obtain ⟨nb, hnb⟩ := (l3 b).mp hb
      exact hT.inv.inj _ _ _ _ hna hnb he
    refine ⟨l.map str, ?_, ?_, ?_, ?_⟩
    · exact List.Nodup.map_on hinj l1
    · intro s
      rw [List.mem_map, branches_iff hle hj hh]
      constructor
      · rintro ⟨v, hv, rfl⟩
        obtain ⟨nd, hnd⟩ := (l3 v).mp hv
        exact (hT.inv.node v nd hnd).br
      · intro hs
        obtain ⟨v, nd, hnd, he⟩ := hT.inv.full s hs
        exact ⟨v, (l3 v).mpr ⟨nd, hnd⟩, he⟩
    · rw [rep_count hT.rep hn0, if_pos (hT.inv.node 0 n0 hn0).valid, List.length_map, l2]
    · intro _
      obtain ⟨k, done, e, hk, d1, d2⟩ := traverse_root (f := fun k _ _ b => some (if b then k + 1 else k))
        (I := fun done k => k = (done.filter fun p => p.2).length) (acc := 0) (by omega) hT (by
          intro done v nd b acc hv _ hI
          refine ⟨_, rfl, ?_⟩
          cases b
          · simpa using hI
          · simpa using hI) rfl
      rw [e, hk, List.length_map]
      have hperm : ((done.filter fun p => p.2).map Prod.fst).Perm l := by
        rw [List.perm_ext_iff_of_nodup]
        · intro v
          rw [List.mem_map, l3]
          constructor
          · rintro ⟨p, hp, rfl⟩
            exact (d2 p.1 p.2).mp (List.mem_filter.mp hp).1
          · intro hv
            exact ⟨(v, true), List.mem_filter.mpr ⟨(d2 v true).mpr hv, rfl⟩, rfl⟩
        · apply List.Nodup.map_on _ (d1.filter _)
          intro a ha b hb he
          have h1 : a.2 = true := by simpa using (List.mem_filter.mp ha).2
          have h2 : b.2 = true := by simpa using (List.mem_filter.mp hb).2
          exact Prod.ext he (h1.trans h2.symm)
        · exact l1
      rw [← hperm.length_eq, List.length_map]
  · obtain ⟨hp, -, -, N, hR, ⟨n0, hn0, hn1⟩, -⟩ := id hf
    refine ⟨[], by simp, ?_, ?_, ?_⟩
    · intro s
      have := (shape_of_state (Ic := Ic) hj hh ⟨hw, hle, Or.inr hf⟩ (luts := luts) (Pc := Pc) (ex := ex) (maxOrder := maxOrder)).2 hp s
      simp [this]
    · rw [rep_count hR hn0, if_neg (by rw [hn1]; simp)]
      rfl
    · intro hp'; rw [hp] at hp'; simp at hp'

/-- **C58.** For every input, however long, once the tree is ready for the next bit, the number of live nodes it reports is
the number of strings of up to `8 * maxOrder + 7` bits that have been followed by both bits within the window, and this
is the number of nodes met by a traversal from the root. So no node leaks. -/
theorem C58_live_nodes (luts : Luts) (h : LutsOk luts) (W sh maxOrder : Nat) (hW : W ≤ 2 ^ 31) (hsh : sh < W)
    (hM : maxOrder ≤ 8191) (hist : List Bool) (upd : List CtxState → Bool → List Costs)
    (hu : ∀ l b, (upd l b).length = (l.filter CtxState.isNode).length) :
    ∃ s0 s1 s, srcNew W maxOrder sh = some s0 ∧ feed (treeSource luts) upd 0 s0 hist = some s1 ∧
      ready (treeSource luts) hist.length s1 = some s ∧
      ∃ l : List (List Bool), l.Nodup ∧ (∀ str, str ∈ l ↔ Branches (windowed W hist) (8 * maxOrder + 7) str) ∧
        liveCount s.tree.nodes = some l.length ∧
        (s.tree.proper = true → traverse s.tree (fun k _ _ b => some (if b then k + 1 else k))
          s.tree.nodes.items.length [0] 0 = some l.length) ∧
        (s.tree.proper = false → l = []) := by
  obtain ⟨s0, s1, e0, e1, h1⟩ := src_run (Pc := fun _ _ _ => True) h (fun _ _ _ => ⟨costsDefault, trivial⟩) hW hsh hM
    hu (fun _ _ _ _ _ => allowed_const (fun _ _ => trivial)) hist
  obtain ⟨s, e2, h2⟩ := src_ready hW (by omega) hM h1
  have hh : windowed W hist = seg (fun i => hist.getD i false) (hist.length / 8 + 1 - W)
      (8 * (hist.length / 8) + hist.length % 8 - 8 * (hist.length / 8 + 1 - W)) := by
    have := windowed_seg (x := fun i => hist.getD i false) (W := W) (L := hist.length)
    rw [seg_getD_self] at this
    rw [this]
    congr 1
    omega
  obtain ⟨l, l1, l2, l3, l4⟩ := count_of_state (by omega) hW hh h2.state
  refine ⟨s0, s1, s, e0, e1, e2, l, l1, l2, l3, l4, ?_⟩
  intro hp
  have := (shape_of_state (j := hist.length % 8) (by omega) hh h2.state).2 hp
  rw [List.eq_nil_iff_forall_not_mem]
  intro a ha
  exact this a ((l2 a).mp ha)

/-- with two bytes that differ in the first bit, and order 0: the empty string has been followed by both bits, and no
other has -/
example : ∀ str, Branches (List.replicate 8 false ++ true :: List.replicate 7 false) 0 str ↔ str ∈ [([] : List Bool)] := by
  intro str
  constructor
  · rintro ⟨h, -⟩
    rw [List.mem_singleton, ← List.length_eq_zero_iff]
    omega
  · intro h
    rw [List.mem_singleton] at h
    subst h
    refine ⟨by simp, fun b => ?_⟩
    cases b
    · exact ⟨0, by simp, by simp⟩
    · exact ⟨1, by simp, by simp⟩

end Verif.Tree
