import Verif.Tree.Loop

/-!
# The first difference between bytes
-/

namespace Verif.Tree

open Verif Verif.History Verif.Window

variable {D : Nat} {ex : Prop} {Pc : Str → List Bool → Costs → Prop} {table : List Nat}
  {N N' : Live} {str str' : Nat → Str} {luts : Luts}
  {x : Nat → Bool} {sh W lo n j m maxOrder cnt : Nat}

/-- all bytes of the window are the same, as far as known -/
def Flat (x : Nat → Bool) (lo n L : Nat) : Prop :=
  ∀ i d, lo ≤ i → i ≤ n → d < 8 → 8 * i + d < L → x (8 * i + d) = x (8 * lo + d)

theorem Flat.bit {L : Nat} (h : Flat x lo n L) (hL : L ≤ 8 * n + 8) {i d : Nat} (h1 : lo ≤ i) (h2 : 8 * i + d < L) :
    x (8 * i + d) = x (8 * lo + d % 8) := by
  have := h (i + d / 8) (d % 8) (by omega) (by omega) (by omega) (by omega)
  rw [← this]
  congr 1; omega

theorem Flat.segEq {L : Nat} (h : Flat x lo n L) (hL : L ≤ 8 * n + 8) {i i' d : Nat} (h1 : lo ≤ i) (h2 : 8 * i + d ≤ L)
    (h1' : lo ≤ i') (h2' : 8 * i' + d ≤ L) : seg x i d = seg x i' d := by
  unfold seg
  apply List.map_congr_left
  intro r hr
  rw [List.mem_range] at hr
  rw [h.bit hL h1 (by omega), h.bit hL h1' (by omega)]

section

variable (hf : Flat x lo n (8 * n + j)) (hj : j < 8) (hd : x (8 * (n - 1) + j) ≠ x (8 * n + j)) (hn : lo + 1 ≤ n)

include hf hj hd hn

theorem Flat.old : x (8 * lo + j) = !x (8 * n + j) := by
  have := hf (n - 1) j (by omega) (by omega) hj (by omega)
  rw [← this]
  rcases bool_eq_or (x (8 * n + j)) (x (8 * (n - 1) + j)) with h | h
  · exact absurd h hd
  · exact h

theorem Flat.new_iff {lim : Nat} (hm : lo + m ≤ n) (i : Nat) :
    Known x lo n (8 * n + j) lim (cs x n (8 * n + j) m ++ [x (8 * n + j)]) i ↔ i = n - m ∧ n - m < lim := by
  have hlen : (cs x n (8 * n + j) m).length = 8 * m + j := cs_length_eq (by omega)
  unfold Known
  rw [seg_snoc_iff, List.length_append, hlen, List.length_singleton]
  constructor
  · rintro ⟨h1, h2, ⟨h3, h4⟩, h5⟩
    rcases h5 with h5 | h5
    · rw [hf.bit (by omega) h1 (by omega), show (8 * m + j) % 8 = j by omega, hf.old hj hd hn] at h4
      simp at h4
    · omega
  · rintro ⟨rfl, h⟩
    refine ⟨by omega, by omega, ⟨?_, ?_⟩, by omega⟩
    · unfold cs
      congr 1; omega
    · congr 1; omega

theorem Flat.old_iff {lim : Nat} (hm : lo + m ≤ n) (i : Nat) :
    Known x lo n (8 * n + j) lim (cs x n (8 * n + j) m ++ [!x (8 * n + j)]) i ↔ lo ≤ i ∧ i < n - m := by
  have hlen : (cs x n (8 * n + j) m).length = 8 * m + j := cs_length_eq (by omega)
  unfold Known
  rw [seg_snoc_iff, List.length_append, hlen, List.length_singleton]
  constructor
  · rintro ⟨h1, h2, ⟨h3, h4⟩, h5⟩
    refine ⟨h1, ?_⟩
    by_contra hge
    have : 8 * i + (8 * m + j) = 8 * n + j := by omega
    rw [this] at h4
    simp at h4
  · rintro ⟨h1, h2⟩
    refine ⟨by omega, by omega, ⟨?_, ?_⟩, by omega⟩
    · unfold cs
      rw [show 8 * n + j - 8 * (n - m) = 8 * m + j by omega]
      exact hf.segEq (by omega) h1 (by omega) (by omega) (by omega)
    · rw [hf.bit (by omega) h1 (by omega), show (8 * m + j) % 8 = j by omega, hf.old hj hd hn]

theorem Flat.br (s : Str) : Br (Known x lo n (8 * n + j) (n + 1)) (8 * maxOrder + 7) s ↔
    ∃ m, m ≤ min maxOrder (n - 1 - lo) ∧ s = cs x n (8 * n + j) m := by
  constructor
  · rintro ⟨hl, hb⟩
    obtain ⟨i, h1, h2, h3, h4⟩ := hb (x (8 * n + j))
    obtain ⟨i', h1', h2', h3', h4'⟩ := hb (!x (8 * n + j))
    rw [seg_snoc_iff] at h3 h3'
    rw [List.length_append, List.length_singleton] at h4 h4'
    have k' : 8 * i' + (s.length + 1) ≤ 8 * n + j := by
      by_contra hgt
      have := h3'.2
      rw [show 8 * i' + s.length = 8 * n + j by omega] at this
      simp at this
    have k : 8 * i + s.length = 8 * n + j := by
      by_contra hne
      have e := h3'.2
      rw [hf.bit (by omega) h1' (by omega), ← hf.bit (by omega) h1 (by omega), h3.2] at e
      simp at e
    refine ⟨n - i, by omega, ?_⟩
    rw [← h3.1]
    unfold cs
    rw [show n - (n - i) = i by omega]
    congr 1; omega
  · rintro ⟨m, hm, rfl⟩
    refine ⟨by rw [cs_length_eq (by omega)]; omega, ?_⟩
    intro c
    rcases bool_eq_or (x (8 * n + j)) c with rfl | rfl
    · exact ⟨n - m, (hf.new_iff hj hd hn (by omega) _).mpr ⟨rfl, by omega⟩⟩
    · exact ⟨lo, (hf.old_iff hj hd hn (by omega) _).mpr ⟨by omega, by omega⟩⟩

theorem Flat.pre {m m' : Nat} (h : m ≤ m') (hm : lo + m' ≤ n) :
    cs x n (8 * n + j) m <+: cs x n (8 * n + j) m' := by
  unfold cs
  rw [hf.segEq (by omega) (i := n - m) (i' := lo) (by omega) (by omega) (by omega) (by omega),
    hf.segEq (by omega) (i := n - m') (i' := lo) (by omega) (by omega) (by omega) (by omega)]
  exact seg_prefix _ (by omega)

theorem Flat.pre' {m m' : Nat} (h : m < m') (hm : lo + m' ≤ n) :
    cs x n (8 * n + j) m ++ [!x (8 * n + j)] <+: cs x n (8 * n + j) m' := by
  have hm1 : cs x n (8 * n + j) m' = seg x lo (8 * m' + j) := by
    unfold cs
    rw [show 8 * n + j - 8 * (n - m') = 8 * m' + j by omega]
    exact hf.segEq (by omega) (by omega) (by omega) (by omega) (by omega)
  have hm2 : cs x n (8 * n + j) m = seg x lo (8 * m + j) := by
    unfold cs
    rw [show 8 * n + j - 8 * (n - m) = 8 * m + j by omega]
    exact hf.segEq (by omega) (by omega) (by omega) (by omega) (by omega)
  rw [hm1, hm2]
  have : seg x lo (8 * m + j) ++ [!x (8 * n + j)] = seg x lo (8 * m + j + 1) := by
    rw [seg_succ, hf.bit (by omega) (le_refl _) (by omega), show (8 * m + j) % 8 = j by omega, hf.old hj hd hn]
  rw [this]
  exact seg_prefix _ (by omega)

theorem Flat.flw (hm : lo + m < n) : ∃ q, Flw (Known x lo n (8 * n + j) (n - m)) (cs x n (8 * n + j) m) q ∧
    q.length = n - m - lo ∧ x (8 * n + j) ∉ q := by
  obtain ⟨q, h1, h2⟩ := flw_exists (P := Known x lo n (8 * n + j) (n - m)) (s := cs x n (8 * n + j) m)
    (l := List.range' lo (n - m - lo)) List.pairwise_lt_range' (by
      intro i
      rw [List.mem_range'_1]
      constructor
      · intro h
        exact ⟨_, (hf.old_iff hj hd hn (by omega) i).mpr ⟨by omega, by omega⟩⟩
      · rintro ⟨c, hc⟩
        rcases bool_eq_or (x (8 * n + j)) c with rfl | rfl
        · have := (hf.new_iff hj hd hn (by omega) i).mp hc
          omega
        · have := (hf.old_iff hj hd hn (by omega) i).mp hc
          omega)
  refine ⟨q, h1, by rw [h2, List.length_range'], ?_⟩
  intro hmem
  obtain ⟨i, hi⟩ := flw_mem h1 hmem
  have := (hf.new_iff hj hd hn (by omega) i).mp hi
  omega

theorem Flat.last_new (hm : lo + m ≤ n) :
    Last (Known x lo n (8 * n + j) (n + 1)) (cs x n (8 * n + j) m ++ [x (8 * n + j)]) (n - m) :=
  ⟨(hf.new_iff hj hd hn hm _).mpr ⟨rfl, by omega⟩, fun i hi => by
    have := (hf.new_iff hj hd hn hm i).mp hi
    omega⟩

theorem Flat.last_old (hm : lo + m < n) :
    Last (Known x lo n (8 * n + j) (n + 1)) (cs x n (8 * n + j) m ++ [!x (8 * n + j)]) (n - m - 1) :=
  ⟨(hf.old_iff hj hd hn (by omega) _).mpr ⟨by omega, by omega⟩, fun i hi => by
    have := (hf.old_iff hj hd hn (by omega) i).mp hi
    omega⟩

/-- the node of one order -/
theorem degenerateNode_ok (hL : LutsOk luts) (hW : W ≤ 2 ^ 31) {t : Tree}
    (hPc : ∃ c, Pc (cs x n (8 * n + j) m) (List.replicate (n - m - lo) (!x (8 * n + j)) ++ [x (8 * n + j)]) c)
    (hw : WinOk t.window x sh W lo (n + 1) (8 * n + j + 1)) (hm : lo + m < n) (hm8 : m ≤ 8191) (last : Option Int) :
    ∃ nd, degenerateNode luts t (x (8 * n + j)) (7 - j) m last = some nd ∧
      StatOk (Known x lo n (8 * n + j) (n + 1)) ex Pc luts.costs (cs x n (8 * n + j) m) nd ∧
      nd.depth = (cs x n (8 * n + j) m).length ∧ nd.textStart = pos sh W (n - m) ∧
      nd.child (x (8 * n + j)) = ((pos sh W (n - m) : Nat) : Int) ∧
      nd.child (!x (8 * n + j)) = last.getD ((pos sh W (n - m - 1) : Nat) : Int) := by
  obtain ⟨q, hq, hql, hqb⟩ := hf.flw hj hd hn hm
  have ha := known_add (x := x) (lo := lo) (n := n) (L := 8 * n + j) (lim := n - m) (by omega) (by omega) (by omega)
  change AddEv _ _ (cs x n (8 * n + j) m) _ _ at ha
  have hlen : (cs x n (8 * n + j) m).length = 8 * m + j := cs_length_eq (by omega)
  obtain ⟨est, cost, runs, recent, e1, e2, e3, e4, e5, hst⟩ := StatOk.new (ex := ex) (C := n - m - lo)
    hL hPc hq (by omega) (fun _ => hql) (by omega) hqb ha
  have hposlt : ∀ i, pos sh W i < 2 ^ 31 := fun i => lt_of_lt_of_le (hw.lt i) hW
  have hcur := hw.cursor (by omega)
  unfold degenerateNode
  rw [hcur, hw.sub (by omega) (le_refl _), ob_some, childOfWindow_eq (hposlt _), ob_some]
  unfold indexDecrement
  rw [hw.sub (by omega) (by omega), ob_some, childOfWindow_eq (hposlt _), ob_some, hw.start,
    hw.diff (le_refl _) (by omega) (by omega), ob_some]
  dsimp only
  rw [e1, ob_some, e4, ob_some, e3, ob_some, e2, ob_some, depthOf_eq hm8 hj, ob_some]
  generalize hb : x (8 * n + j) = b at *
  unfold nodeNew
  have h1 : (if b = true then min 1000 (n - m - lo) else 1) < 2 ^ 16 := by split <;> omega
  have h2 : (if b = true then 1 else min 1000 (n - m - lo)) < 2 ^ 16 := by split <;> omega
  rw [check_pos (hposlt _), ob_some, check_pos (by omega), ob_some, check_pos h1, ob_some, check_pos h2, ob_some,
    check_pos e5, ob_some]
  refine ⟨_, rfl, ?_, ?_, ?_, ?_, ?_⟩
  · refine (hst _ rfl rfl rfl rfl rfl rfl).flw ?_
    intro q
    have hiff : ∀ c i, Known x lo n (8 * n + j) (n + 1) (cs x n (8 * n + j) m ++ [c]) i ↔
        Known x lo n (8 * n + j) (n - m + 1) (cs x n (8 * n + j) m ++ [c]) i := by
      intro c i
      unfold Known
      rw [List.length_append, hlen, List.length_singleton]
      constructor <;> rintro ⟨k1, k2, k3, k4⟩ <;> exact ⟨k1, k2, k3, by omega⟩
    unfold Flw Occ
    simp only [hiff]
    exact id
  · dsimp only
    rw [hlen]
    unfold wrapU16
    omega
  · dsimp only
    exact wrapU32_eq (by have := hposlt (n - m); omega)
  · unfold Node.child
    cases b <;> simp
  · unfold Node.child
    cases b <;> simp

/-- the nodes of the orders above `r` have been made -/
structure DegInv (luts : Luts) (x : Nat → Bool) (ex : Prop) (Pc : Str → List Bool → Costs → Prop) (sh W lo n j K r : Nat) (N : Live)
    (str : Nat → Str) (nd : Node) (m : Nat) : Prop where
  stat : StatOk (Known x lo n (8 * n + j) (n + 1)) ex Pc luts.costs (cs x n (8 * n + j) m) nd
  depth : nd.depth = (cs x n (8 * n + j) m).length
  text : nd.textStart = pos sh W (n - m)
  new : nd.child (x (8 * n + j)) = ((pos sh W (n - m) : Nat) : Int)
  old : (m = K ∧ nd.child (!x (8 * n + j)) = ((pos sh W (n - m - 1) : Nat) : Int)) ∨
    (m < K ∧ ∃ w nw, 1 ≤ w ∧ N w = some nw ∧ str w = cs x n (8 * n + j) (m + 1) ∧
      nd.child (!x (8 * n + j)) = -(w : Int) - 1 ∧ nw.textStart = pos sh W (n - (m + 1)))

end

theorem DegInv.put {K r : Nat} {nd nd' : Node} {u : Nat} {s : Str} (h : DegInv luts x ex Pc sh W lo n j K r N str nd m)
    (hu : N u = none ∨ u = 0) : DegInv luts x ex Pc sh W lo n j K r (N.put u (some nd')) (setStr str u s) nd m := by
  refine ⟨h.stat, h.depth, h.text, h.new, ?_⟩
  rcases h.old with h1 | ⟨h1, w, nw, h2, h3, h4, h5⟩
  · exact Or.inl h1
  · have hwu : w ≠ u := by
      rintro rfl
      rcases hu with hu | hu
      · rw [hu] at h3; simp at h3
      · omega
    exact Or.inr ⟨h1, w, nw, h2, by rw [put_ne _ _ hwu]; exact h3, by rw [setStr_ne _ _ hwu]; exact h4, h5⟩

section

variable (hf : Flat x lo n (8 * n + j)) (hj : j < 8) (hd : x (8 * (n - 1) + j) ≠ x (8 * n + j)) (hn : lo + 1 ≤ n)

include hf hj hd hn

/-- the nodes of orders above `r` have been made -/
structure DegLoop (luts : Luts) (x : Nat → Bool) (ex : Prop) (Pc : Str → List Bool → Costs → Prop) (sh W lo n j K r : Nat) (N : Live)
    (str : Nat → Str) (last : Option Int) : Prop where
  root : ∃ nd, N 0 = some nd
  node : ∀ v nd, 1 ≤ v → N v = some nd → ∃ m, r < m ∧ m ≤ K ∧ str v = cs x n (8 * n + j) m ∧
    DegInv luts x ex Pc sh W lo n j K r N str nd m
  all : ∀ m, r < m → m ≤ K → ∃ v nd, 1 ≤ v ∧ N v = some nd ∧ str v = cs x n (8 * n + j) m
  inj : ∀ v w nv nw, 1 ≤ v → 1 ≤ w → N v = some nv → N w = some nw → str v = str w → v = w
  last : (r = K ∧ last = none) ∨ (r < K ∧ ∃ w nw, 1 ≤ w ∧ N w = some nw ∧ str w = cs x n (8 * n + j) (r + 1) ∧
      last = some (-(w : Int) - 1) ∧ nw.textStart = pos sh W (n - (r + 1)))

theorem degenerate_new {r : Nat} (hL : LutsOk luts) (hW : W ≤ 2 ^ 31) {t : Tree}
    (hPc : ∃ c, Pc (cs x n (8 * n + j) r) (List.replicate (n - r - lo) (!x (8 * n + j)) ++ [x (8 * n + j)]) c)
    (hw : WinOk t.window x sh W lo (n + 1) (8 * n + j + 1)) {K : Nat} (hK : lo + K < n) (hK8 : K ≤ 8191)
    (hr : r ≤ K) {last : Option Int} (h : DegLoop luts x ex Pc sh W lo n j K r N str last) :
    ∃ nd, degenerateNode luts t (x (8 * n + j)) (7 - j) r last = some nd ∧
      DegInv luts x ex Pc sh W lo n j K r N str nd r := by
  obtain ⟨nd, e, h1, h2, h3, h4, h5⟩ := degenerateNode_ok (ex := ex) hf hj hd hn hL hW hPc hw (m := r) (by omega)
    (by omega) last
  refine ⟨nd, e, h1, h2, h3, h4, ?_⟩
  rcases h.last with ⟨k1, k2⟩ | ⟨k1, w, nw, k2, k3, k4, k5, k6⟩
  · left
    rw [h5, k2]
    exact ⟨k1, rfl⟩
  · right
    rw [h5, k5]
    exact ⟨k1, w, nw, k2, k3, k4, rfl, k6⟩

theorem degenerateOrders_ok (hL : LutsOk luts) (hW : W ≤ 2 ^ 31) {t : Tree} {K : Nat}
    (hPc : ∀ m, m ≤ K →
      ∃ c, Pc (cs x n (8 * n + j) m) (List.replicate (n - m - lo) (!x (8 * n + j)) ++ [x (8 * n + j)]) c)
    (hw : WinOk t.window x sh W lo (n + 1) (8 * n + j + 1)) (hKM : K = min maxOrder (n - 1 - lo))
    (hM : maxOrder ≤ 8191) {cap : Nat} (hc : cap = max 1 (W - 1)) :
    ∀ (r : Nat) {last : Option Int} {ns : Nodes} {N : Live} {str : Nat → Str}, r ≤ K →
      Rep cap ns N (K - r) → DegLoop luts x ex Pc sh W lo n j K r N str last →
      ∃ ns' N' str', degenerateOrders luts t (x (8 * n + j)) (7 - j) r last ns = some ns' ∧
        Rep cap ns' N' K ∧
        TInv (Known x lo n (8 * n + j) (n + 1)) (8 * maxOrder + 7) ex Pc luts.costs (pos sh W) N' str' ∧
        RootText N' (pos sh W n)
  | 0, last, ns, N, str, hr, hR, h => by
    obtain ⟨nd, e1, hnd⟩ := degenerate_new hf hj hd hn hL hW (hPc _ hr) hw (by omega) (by omega) hr h
    obtain ⟨n0, hn0⟩ := h.root
    obtain ⟨ns', e2, hR'⟩ := rep_update hR hn0 nd
    have hposlt : ∀ i, pos sh W i < 2 ^ 31 := fun i => lt_of_lt_of_le (hw.lt i) hW
    have hnode : ∀ v nv, (N.put 0 (some nd)) v = some nv → ∃ m, m ≤ K ∧
        setStr str 0 (cs x n (8 * n + j) 0) v = cs x n (8 * n + j) m ∧
        DegInv luts x ex Pc sh W lo n j K 0 (N.put 0 (some nd)) (setStr str 0 (cs x n (8 * n + j) 0)) nv m ∧
        (v = 0 ↔ m = 0) := by
      intro v nv hv
      by_cases h0 : v = 0
      · subst h0
        rw [put_self, Option.some.injEq] at hv
        subst hv
        exact ⟨0, by omega, setStr_self _ _ _, hnd.put (Or.inr rfl), by simp⟩
      · rw [put_ne _ _ h0] at hv
        obtain ⟨m, m1, m2, m3, m4⟩ := h.node v nv (by omega) hv
        exact ⟨m, m2, by rw [setStr_ne _ _ h0]; exact m3, m4.put (Or.inr rfl), by omega⟩
    have hcsinj : ∀ m m', m ≤ K → m' ≤ K → cs x n (8 * n + j) m = cs x n (8 * n + j) m' → m = m' := by
      intro m m' h1 h2 he
      have := congrArg List.length he
      rw [cs_length_eq (by omega), cs_length_eq (by omega)] at this
      omega
    refine ⟨ns', _, setStr str 0 (cs x n (8 * n + j) 0), by rw [degenerateOrders, e1, ob_some, e2],
      by rw [Nat.sub_zero] at hR'; exact hR', ⟨⟨nd, put_self _ _ _⟩, ?_, ?_, ?_, ?_⟩,
      nd, put_self _ _ _, hnd.text⟩
    · intro v nv hv
      obtain ⟨m, m1, m2, m3, -⟩ := hnode v nv hv
      refine ⟨by rw [m2]; exact (hf.br hj hd hn _).mpr ⟨m, by omega, rfl⟩, by rw [m2]; exact m3.depth,
        by rw [m3.text]; exact hposlt _, by rw [m2]; exact m3.stat, ?_⟩
      rw [m2]
      intro c
      rcases bool_eq_or (x (8 * n + j)) c with rfl | rfl
      · refine ⟨n - m, hf.last_new hj hd hn (by omega), Or.inl ⟨?_, m3.new⟩⟩
        intro r hr hp
        obtain ⟨m', k1, rfl⟩ := (hf.br hj hd hn _).mp hr
        have hlt := snoc_len hp
        rw [cs_length_eq (by omega), cs_length_eq (by omega)] at hlt
        have := snoc_bit hp (hf.pre' hj hd hn (m := m) (m' := m') (by omega) (by omega))
        simp at this
      · refine ⟨n - m - 1, hf.last_old hj hd hn (by omega), ?_⟩
        rcases m3.old with ⟨k1, k2⟩ | ⟨k1, w, nw, k2, k3, k4, k5, k6⟩
        · left
          refine ⟨?_, k2⟩
          intro r hr hp
          obtain ⟨m', k1, rfl⟩ := (hf.br hj hd hn _).mp hr
          have hlt := snoc_len hp
          rw [cs_length_eq (by omega), cs_length_eq (by omega)] at hlt
          omega
        · right
          refine ⟨w, nw, k2, k3, k5, ⟨?_, ?_, ?_⟩, by rw [k6]; rfl⟩
          · rw [k4]; exact (hf.br hj hd hn _).mpr ⟨m + 1, by omega, rfl⟩
          · rw [k4]; exact hf.pre' hj hd hn (by omega) (by omega)
          · intro r hr hp
            obtain ⟨m', k1, rfl⟩ := (hf.br hj hd hn _).mp hr
            have hlt := snoc_len hp
            rw [cs_length_eq (by omega), cs_length_eq (by omega)] at hlt
            rw [k4]
            exact hf.pre hj hd hn (by omega) (by omega)
    · intro s hs
      obtain ⟨m, k1, rfl⟩ := (hf.br hj hd hn _).mp hs
      by_cases h0 : m = 0
      · subst h0
        exact ⟨0, nd, put_self _ _ _, setStr_self _ _ _⟩
      · obtain ⟨v, nv, v1, v2, v3⟩ := h.all m (by omega) (by omega)
        exact ⟨v, nv, by rw [put_ne _ _ (by omega)]; exact v2, by rw [setStr_ne _ _ (by omega)]; exact v3⟩
    · intro v w nv nw hv hw he
      obtain ⟨m, m1, m2, -, m4⟩ := hnode v nv hv
      obtain ⟨m', m1', m2', -, m4'⟩ := hnode w nw hw
      rw [m2, m2'] at he
      have hmm := hcsinj _ _ m1 m1' he
      by_cases h0 : v = 0
      · rw [h0, m4'.mpr (by rw [← hmm]; exact m4.mp h0)]
      · have h0' : w ≠ 0 := fun h => h0 (m4.mpr (by rw [hmm]; exact m4'.mp h))
        rw [put_ne _ _ h0] at hv
        rw [put_ne _ _ h0'] at hw
        rw [setStr_ne _ _ h0] at m2
        rw [setStr_ne _ _ h0'] at m2'
        exact h.inj v w nv nw (by omega) (by omega) hv hw (by rw [m2, m2', hmm])
    · intro s hs
      obtain ⟨m, k1, rfl⟩ := (hf.br hj hd hn _).mp hs
      rw [setStr_self]
      exact hf.pre hj hd hn (by omega) (by omega)
  | r + 1, last, ns, N, str, hr, hR, h => by
    obtain ⟨nd, e1, hnd⟩ := degenerate_new hf hj hd hn hL hW (hPc _ hr) hw (by omega) (by omega) hr h
    have hsize := hw.size
    have hsle := hw.inv.size_le
    have hmax := hw.max
    obtain ⟨ns1, u, e2, hu1, -, hu, hR1⟩ := rep_add hR (by omega) (by omega) nd
    have hu0 : u ≠ 0 := by omega
    have hloop : DegLoop luts x ex Pc sh W lo n j K r (N.put u (some nd))
        (setStr str u (cs x n (8 * n + j) (r + 1))) (some (-(u : Int) - 1)) := by
      have hput : ∀ {nv m}, DegInv luts x ex Pc sh W lo n j K (r + 1) N str nv m →
          DegInv luts x ex Pc sh W lo n j K r (N.put u (some nd)) (setStr str u (cs x n (8 * n + j) (r + 1))) nv m := by
        intro nv m hm
        have := hm.put (nd' := nd) (u := u) (s := cs x n (8 * n + j) (r + 1)) (Or.inl hu)
        exact ⟨this.stat, this.depth, this.text, this.new, this.old⟩
      have hne : ∀ {v nv}, N v = some nv → v ≠ u := by
        rintro v nv hv rfl
        rw [hu] at hv; simp at hv
      refine ⟨?_, ?_, ?_, ?_, ?_⟩
      · obtain ⟨n0, hn0⟩ := h.root
        exact ⟨n0, by rw [put_ne _ _ (by omega)]; exact hn0⟩
      · intro v nv hv1 hv
        by_cases he : v = u
        · subst he
          rw [put_self, Option.some.injEq] at hv
          subst hv
          exact ⟨r + 1, by omega, hr, setStr_self _ _ _, hput hnd⟩
        · rw [put_ne _ _ he] at hv
          obtain ⟨m, m1, m2, m3, m4⟩ := h.node v nv hv1 hv
          exact ⟨m, by omega, m2, by rw [setStr_ne _ _ he]; exact m3, hput m4⟩
      · intro m m1 m2
        by_cases he : m = r + 1
        · subst he
          exact ⟨u, nd, hu1, put_self _ _ _, setStr_self _ _ _⟩
        · obtain ⟨v, nv, v1, v2, v3⟩ := h.all m (by omega) m2
          have := hne v2
          exact ⟨v, nv, v1, by rw [put_ne _ _ this]; exact v2, by rw [setStr_ne _ _ this]; exact v3⟩
      · have key : ∀ w nw, 1 ≤ w → w ≠ u → N w = some nw → str w ≠ cs x n (8 * n + j) (r + 1) := by
          intro w nw w1 wu hw he
          obtain ⟨m, m1, m2, m3, -⟩ := h.node w nw w1 hw
          rw [m3] at he
          have := congrArg List.length he
          rw [cs_length_eq (by omega), cs_length_eq (by omega)] at this
          omega
        intro v w nv nw v1 w1 hv hw he
        by_cases hvu : v = u
        · by_cases hwu : w = u
          · rw [hvu, hwu]
          · rw [hvu, setStr_self, setStr_ne _ _ hwu] at he
            rw [put_ne _ _ hwu] at hw
            exact absurd he.symm (key w nw w1 hwu hw)
        · rw [put_ne _ _ hvu] at hv
          rw [setStr_ne _ _ hvu] at he
          by_cases hwu : w = u
          · rw [hwu, setStr_self] at he
            exact absurd he (key v nv v1 hvu hv)
          · rw [setStr_ne _ _ hwu] at he
            rw [put_ne _ _ hwu] at hw
            exact h.inj v w nv nw v1 w1 hv hw he
      · exact Or.inr ⟨by omega, u, nd, hu1, put_self _ _ _, setStr_self _ _ _, rfl, hnd.text⟩
    obtain ⟨ns2, N2, str2, e3, h3⟩ := degenerateOrders_ok hL hW hPc hw hKM hM hc r (by omega)
      (by rw [show K - r = K - (r + 1) + 1 by omega]; exact hR1) hloop
    exact ⟨ns2, N2, str2, by rw [degenerateOrders, e1, ob_some, e2, ob_some]; exact e3, h3⟩

end

end Verif.Tree
