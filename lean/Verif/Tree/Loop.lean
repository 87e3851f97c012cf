import Verif.Tree.Step

/-!
# All contexts read one bit
-/

namespace Verif.Tree

open Verif Verif.History Verif.Window

variable {P P' : Str → Nat → Prop} {D : Nat} {ex : Prop} {Pc Pc' : Str → List Bool → Costs → Prop}
  {Ic Ic' : Nat → Nat → Prop} {table : List Nat}
  {N N' : Live} {str str' : Nat → Str} {luts : Luts}
  {x : Nat → Bool} {sh W lo n j k maxOrder cnt : Nat}

theorem InfoOk.same {ps : Nat → Nat} {ctx : Ctx} {s s0 : Str} {b : Bool} {i0 : Nat} {I : Nat → Prop}
    (h : InfoOk P ex I ps ctx s) (ha : AddEv P P' s0 b i0) (hs : s ≠ s0) : InfoOk P' ex I ps ctx s := by
  obtain ⟨⟨i, h1, h2⟩, C, q0, h3, h4⟩ := h
  exact ⟨⟨i, (ha.lastOcc_ne hs i).mpr h1, h2⟩, C, q0, (ha.flw_ne hs _).mpr h3, h4⟩

theorem cs_length_eq (hm : k ≤ n) : (cs x n (8 * n + j) k).length = 8 * k + j := by rw [cs_length]; omega

theorem cs_length_succ (hm : k ≤ n) : (cs x n (8 * n + j + 1) k).length = 8 * k + j + 1 := by rw [cs_length]; omega

theorem ne_of_len {s s' : Str} (h : s.length ≠ s'.length) : s ≠ s' := fun he => h (by rw [he])

/-- a context that will have occurred after the bit has occurred before it -/
theorem known_occ_back {L lim lim' m i : Nat} (h : 8 * n ≤ L) (hm : m ≤ n)
    (hi : Occ (Known x lo n L lim) (cs x n (L + 1) m) i) : Occ (Known x lo n L lim') (cs x n L m) i := by
  rw [known_occ, cs_length] at hi
  rw [known_occ, cs_length]
  obtain ⟨h1, h2, h3, h4⟩ := hi
  refine ⟨h1, h2, ?_, by omega⟩
  rw [cs_succ h] at h3
  have := seg_of_prefix (x := x) (i := i) (List.prefix_append (cs x n L m) [x L])
    (by rw [List.length_append, cs_length, List.length_singleton]
        rw [show L + 1 - 8 * (n - m) = L - 8 * (n - m) + 1 by omega] at h3; exact h3)
  rw [cs_length] at this
  exact this

/-- suffixes that start earlier do not matter for a context -/
theorem known_cs {lim m : Nat} (hj : j < 8) (hm : m ≤ n) (hl : lim ≤ n - m) (c : Bool) (i : Nat) :
    Known x lo n (8 * n + j) lim (cs x n (8 * n + j) m ++ [c]) i ↔
      Known x lo n (8 * n + j) 0 (cs x n (8 * n + j) m ++ [c]) i := by
  have hlen : (cs x n (8 * n + j) m).length = 8 * m + j := cs_length_eq hm
  unfold Known
  rw [List.length_append, hlen, List.length_singleton]
  constructor
  · rintro ⟨h1, h2, h3, h4⟩
    exact ⟨h1, h2, h3, by omega⟩
  · rintro ⟨h1, h2, h3, h4⟩
    exact ⟨h1, h2, h3, by omega⟩

theorem flw_lim {lim m : Nat} {q : List Bool} (hj : j < 8) (hm : m ≤ n) (hl : lim ≤ n - m)
    (h : Flw (Known x lo n (8 * n + j) lim) (cs x n (8 * n + j) m) q) :
    Flw (Known x lo n (8 * n + j) 0) (cs x n (8 * n + j) m) q := by
  obtain ⟨l, h1, h2, h3⟩ := h
  refine ⟨l, h1, fun i => ?_, h3.imp (fun i b h => (known_cs hj hm hl b i).mp h)⟩
  rw [h2]
  exact exists_congr (fun c => known_cs hj hm hl c i)

/-- how a bit, with the cost trackers supplied for it, changes what is known of the strings and of the counts of the
contexts below order `k` -/
structure BitStep (P : Str → Nat → Prop) (ex : Prop) (Pc Pc' : Str → List Bool → Costs → Prop)
    (Ic Ic' : Nat → Nat → Prop) (x : Nat → Bool) (n j k : Nat) (costs : List Costs) : Prop where
  other : ∀ s q c, (∀ m, m < k → s ≠ cs x n (8 * n + j) m) → Pc s q c → Pc' s q c
  down : ∀ (m : Nat) c, m < k → costs[m]? = some c → ∀ q c0, Pc (cs x n (8 * n + j) m) q c0 →
    (ex → Flw P (cs x n (8 * n + j) m) q) →
    Pc' (cs x n (8 * n + j) m) (q ++ [x (8 * n + j)]) c ∧ Ic' m (q.count (x (8 * n + j)))
  skip : ∀ m, m < k → (∀ i, ¬ P (cs x n (8 * n + j) m ++ [!x (8 * n + j)]) i) → ∀ C, Ic m C → Ic' m C
  split : ∀ m, m < k → (∀ i, ¬ P (cs x n (8 * n + j) m ++ [x (8 * n + j)]) i) → ∀ C, 1 ≤ C → Ic m C →
    ∃ c, Pc' (cs x n (8 * n + j) m) (List.replicate C (!x (8 * n + j)) ++ [x (8 * n + j)]) c

/-- the cost trackers supplied with a bit are allowed for the contexts that read it -/
def CostsFor (P : Str → Nat → Prop) (ex : Prop) (Pc : Str → List Bool → Costs → Prop) (x : Nat → Bool) (n j : Nat)
    (costs : List Costs) : Prop :=
  ∀ (m : Nat) c, costs[m]? = some c → ∀ q, (ex → Flw P (cs x n (8 * n + j) m) q) →
    Pc (cs x n (8 * n + j) m) (q ++ [x (8 * n + j)]) c

/-- nothing depends on time -/
theorem CostsFor.step {costs : List Costs} {k : Nat} (hPc : Fresh Pc) (h : CostsFor P ex Pc x n j costs) :
    BitStep P ex Pc Pc (fun _ _ => True) (fun _ _ => True) x n j k costs :=
  ⟨fun _ _ _ _ => id, fun m c _ hc q _ _ hq => ⟨h m c hc q hq, trivial⟩, fun _ _ _ _ _ => trivial,
    fun _ _ _ _ hC _ => fresh_split hPc _ _ hC⟩

/-- what is known when the orders from `r` on have read the bit -/
def Stage (Pc Pc' : Str → List Bool → Costs → Prop) (x : Nat → Bool) (n j k r : Nat) (s : Str) (q : List Bool)
    (c : Costs) : Prop :=
  ((∃ m, r ≤ m ∧ m < k ∧ s = cs x n (8 * n + j) m) → Pc' s q c) ∧
  ((∀ m, r ≤ m → m < k → s ≠ cs x n (8 * n + j) m) → Pc s q c)

theorem Stage.init {c : Nat} {s : Str} {q : List Bool} {cc : Costs} (h : Pc s q cc) : Stage Pc Pc' x n j c c s q cc :=
  ⟨fun ⟨m, h1, h2, _⟩ => by omega, fun _ => h⟩

theorem Stage.final {c : Nat} {costs : List Costs} (hst : BitStep P ex Pc Pc' Ic Ic' x n j c costs) {s : Str}
    {q : List Bool} {cc : Costs} (h : Stage Pc Pc' x n j c 0 s q cc) : Pc' s q cc := by
  by_cases hs : ∃ m, m < c ∧ s = cs x n (8 * n + j) m
  · obtain ⟨m, h1, h2⟩ := hs
    exact h.1 ⟨m, by omega, h1, h2⟩
  · have hs' : ∀ m, m < c → s ≠ cs x n (8 * n + j) m := fun m h1 h2 => hs ⟨m, h1, h2⟩
    exact hst.other s q cc hs' (h.2 fun m _ => hs' m)

theorem Stage.next {c r : Nat} {s : Str} {q : List Bool} {cc : Costs} (hs : s ≠ cs x n (8 * n + j) r)
    (h : Stage Pc Pc' x n j c (r + 1) s q cc) : Stage Pc Pc' x n j c r s q cc := by
  refine ⟨fun ⟨m, h1, h2, h3⟩ => h.1 ⟨m, ?_, h2, h3⟩, fun h' => h.2 fun m hm => h' m (by omega)⟩
  by_contra hlt
  obtain rfl : m = r := by omega
  exact hs h3

theorem Stage.old {c r : Nat} {q : List Bool} {cc : Costs} (hr : r ≤ n) (hc : c ≤ n)
    (h : Stage Pc Pc' x n j c (r + 1) (cs x n (8 * n + j) r) q cc) : Pc (cs x n (8 * n + j) r) q cc :=
  h.2 fun m h1 h2 => ne_of_len (by rw [cs_length_eq hr, cs_length_eq (by omega)]; omega)

theorem Stage.new {c r : Nat} {q : List Bool} {cc : Costs} (hr : r < c)
    (h : Pc' (cs x n (8 * n + j) r) q cc) : Stage Pc Pc' x n j c r (cs x n (8 * n + j) r) q cc :=
  ⟨fun _ => h, fun h' => absurd rfl (h' r (le_refl _) hr)⟩

/-- the orders up to `maxOrder` that have contexts once `L` bits are known, when the tree is a proper one -/
structure Contexts (P : Str → Nat → Prop) (x : Nat → Bool) (D maxOrder : Nat) (ex : Prop) (Ic : Nat → Nat → Prop)
    (ps : Nat → Nat) (N : Live) (str : Nat → Str) (lo n L : Nat) (ctxs : List Ctx) : Prop where
  len : ctxs.length ≤ maxOrder + 1
  size : lo + ctxs.length ≤ n
  loc : ∀ (m : Nat) ctx, ctxs[m]? = some ctx → LocOk P D N str ctx (cs x n L m)
  set : ∀ (m : Nat) ctx, ctxs[m]? = some ctx → Settled P D str ctx
  info : ∀ (m : Nat) ctx, ctxs[m]? = some ctx → InfoOk P ex (Ic m) ps ctx (cs x n L m)
  none : ∀ m, ctxs.length ≤ m → m ≤ maxOrder → lo + m ≤ n → ∀ i, ¬ Occ P (cs x n L m) i
  root : RootText N (ps n)

/-- the loop of `extend` when orders below `r` are left -/
structure LoopInv (luts : Luts) (w : Win) (costs : List Costs) (x : Nat → Bool) (maxOrder : Nat) (ex : Prop)
    (Pc Pc' : Str → List Bool → Costs → Prop) (Ic Ic' : Nat → Nat → Prop) (sh W lo n j c r : Nat) (s : Loop) (N : Live) (str : Nat → Str) (cnt : Nat) : Prop where
  window : s.tree.window = w
  tree : TreeOk s.tree (Known x lo n (8 * n + j) (n + 1 - r)) (8 * maxOrder + 7) ex (Stage Pc Pc' x n j c r) luts.costs
    (pos sh W) (max 1 (W - 1)) N str cnt
  len : s.ctxs.length = c
  ge : r ≤ s.count
  le : s.count ≤ c
  low : ∀ (m : Nat) ctx, m < r → s.ctxs[m]? = some ctx →
    LocOk (Known x lo n (8 * n + j) (n + 1 - r)) (8 * maxOrder + 7) N str ctx (cs x n (8 * n + j) m) ∧
    InfoOk (Known x lo n (8 * n + j) (n + 1 - r)) ex (Ic m) (pos sh W) ctx (cs x n (8 * n + j) m)
  high : ∀ (m : Nat) ctx, r ≤ m → m < s.count → s.ctxs[m]? = some ctx →
    LocOk (Known x lo n (8 * n + j) (n + 1 - r)) (8 * maxOrder + 7) N str ctx (cs x n (8 * n + j + 1) m) ∧
    Settled (Known x lo n (8 * n + j) (n + 1 - r)) (8 * maxOrder + 7) str ctx ∧
    InfoOk (Known x lo n (8 * n + j) (n + 1 - r)) ex (Ic' m) (pos sh W) ctx (cs x n (8 * n + j + 1) m)
  none : ∀ m, r ≤ m → s.count ≤ m → m ≤ maxOrder → lo + m ≤ n →
    ∀ i, ¬ Occ (Known x lo n (8 * n + j) (n + 1 - r)) (cs x n (8 * n + j + 1) m) i
  cost : ∀ m, m < r → (m < costs.length ↔
    Br (Known x lo n (8 * n + j) (n + 1 - r)) (8 * maxOrder + 7) (cs x n (8 * n + j) m))
  root : RootText N (pos sh W n)

theorem extendOne_ok (hL : LutsOk luts) (hW : W ≤ 2 ^ 31) (hM : maxOrder ≤ 8191) (hj : j < 8)
    {c : Nat} (hc : c ≤ maxOrder + 1) (hcn : lo + c ≤ n) {w : Win} (hw : WinOk w x sh W lo (n + 1) (8 * n + j + 1))
    {costs : List Costs} (hst : BitStep (Known x lo n (8 * n + j) 0) ex Pc Pc' Ic Ic' x n j c costs) {r : Nat} {s : Loop}
    (h : LoopInv luts w costs x maxOrder ex Pc Pc' Ic Ic' sh W lo n j c (r + 1) s N str cnt) :
    ∃ s' N' str' cnt', extendOne luts costs (7 - j) r s = some s' ∧
      LoopInv luts w costs x maxOrder ex Pc Pc' Ic Ic' sh W lo n j c r s' N' str' cnt' := by
  have hcount := h.le
  have hge := h.ge
  have hr : r < s.ctxs.length := by rw [h.len]; omega
  have hrn : lo + r < n := by omega
  have hlim : n + 1 - (r + 1) = n - r := by omega
  have hlim' : n + 1 - r = n - r + 1 := by omega
  obtain ⟨window, tree, len, -, -, low, high, none, cost, root⟩ := h
  rw [hlim] at tree low high none cost
  have hsys := known_sys (x := x) (lo := lo) (n := n) (L := 8 * n + j) (lim := n - r)
  have ha := known_add (x := x) (lo := lo) (n := n) (L := 8 * n + j) (lim := n - r) (by omega) (by omega) (by omega)
  change AddEv _ _ (cs x n (8 * n + j) r) _ _ at ha
  obtain ⟨hloc, hinfo⟩ := low r _ (by omega) (List.getElem?_eq_getElem hr)
  obtain ⟨ctx1, e1, hloc1, hset1, hsuf1, hinc1⟩ := correct_ok (by omega) tree hloc
  have hinfo1 : InfoOk (Known x lo n (8 * n + j) (n - r)) ex (Ic r) (pos sh W) ctx1 (cs x n (8 * n + j) r) := by
    unfold InfoOk at hinfo ⊢
    rw [hsuf1, hinc1]
    exact hinfo
  have hlen0 : (cs x n (8 * n + j) r).length = 8 * r + j := cs_length_eq (by omega)
  obtain ⟨t', ctx', count', N', str', cnt', e2, hwt, hrt, hT', hlow, hres⟩ := extendCtx_ok (s := s) (costs := costs)
    (Pc' := Stage Pc Pc' x n j c r) (Ic' := Ic' r)
    hL hW hj (D := 8 * maxOrder + 7) (by omega) (by omega) (by rw [window]; exact hw) hrn tree hloc1 hset1 hinfo1
    (cost r (by omega)) (fun s q c hs h => h.next hs)
    (fun c hc q c0 hq hf => by
      obtain ⟨k1, k2⟩ := hst.down r c (by omega) hc q c0 (hq.old (by omega) (by omega))
        (fun he => flw_lim hj (by omega) (le_refl _) (hf he))
      exact ⟨Stage.new (by omega) k1, k2⟩)
    (fun hno => hst.skip r (by omega) fun i hi => hno i ((known_cs hj (by omega) (le_refl _) _ i).mpr hi))
    (fun hno C hC hI => by
      obtain ⟨c, hc⟩ := hst.split r (by omega) (fun i hi => hno i ((known_cs hj (by omega) (le_refl _) _ i).mpr hi)) C hC hI
      exact ⟨c, Stage.new (by omega) hc⟩)
    (by
      intro hno
      by_contra hne
      have hlt : r + 1 < s.ctxs.length := by omega
      obtain ⟨-, -, ⟨i, hi, -⟩, -⟩ := high (r + 1) _ (le_refl _) (by omega) (List.getElem?_eq_getElem hlt)
      exact hno _ (known_shorter (by omega) (by omega) hi.1))
  refine ⟨⟨t', s.ctxs.set r ctx', count'⟩, N', str', cnt', ?_, ?_⟩
  · unfold extendOne
    rw [List.getElem?_eq_getElem hr, ob_some, e1, ob_some, e2]
  have hlens : ∀ m, lo + m ≤ n → cs x n (8 * n + j + 1) m ≠ cs x n (8 * n + j) r := by
    intro m hm
    apply ne_of_len
    rw [hlen0, cs_length_succ (by omega)]
    omega
  have hlens' : ∀ m, m < r → cs x n (8 * n + j) m ≠ cs x n (8 * n + j) r := by
    intro m hm
    apply ne_of_len
    rw [hlen0, cs_length_eq (by omega)]
    omega
  have hget : ∀ m, m ≠ r → (s.ctxs.set r ctx')[m]? = s.ctxs[m]? := by
    intro m hm
    rw [List.getElem?_set_ne (by omega)]
  refine ⟨by rw [hwt, window], by rw [hlim']; exact hT', by rw [List.length_set, len], ?_, ?_, ?_, ?_, ?_, ?_, hrt _ root⟩
  · dsimp only; rcases hres with ⟨h1, -⟩ | ⟨h1, -⟩ <;> omega
  · dsimp only; rcases hres with ⟨h1, -⟩ | ⟨h1, -⟩ <;> omega
  · intro m ctx hm hctx
    rw [hlim']
    dsimp only at hctx
    rw [hget m (by omega)] at hctx
    obtain ⟨h1, h2⟩ := low m ctx (by omega) hctx
    refine ⟨hlow ctx _ ?_ ?_ h1, h2.same ha (hlens' m hm)⟩
    · rw [hlen0, cs_length_eq (by omega)]; omega
    · obtain ⟨⟨i, hi, -⟩, -⟩ := h2
      exact ⟨i, hsys.occ hi.1⟩
  · intro m ctx hm hm' hctx
    rw [hlim']
    dsimp only at hctx hm'
    rcases hres with ⟨hc', hcalm, k1, k2, k3⟩ | ⟨hc', -⟩
    · by_cases he : m = r
      · subst he
        rw [List.getElem?_set_self (by omega), Option.some.injEq] at hctx
        subst hctx
        exact ⟨k1, k2, k3⟩
      · rw [hget m he] at hctx
        obtain ⟨h1, h2, h3⟩ := high m ctx (by omega) (by omega) hctx
        obtain ⟨c1, c2, rfl⟩ := hcalm
        exact ⟨h1.same c1 c2, h2.same c1, h3.same ha (hlens m (by omega))⟩
    · omega
  · intro m hm hm' hmo hmn i hi
    rw [hlim'] at hi
    dsimp only at hm'
    rw [ha.occ_ne (hlens m hmn)] at hi
    rcases hres with ⟨hc', -⟩ | ⟨hc', hc2, hno⟩
    · exact none m (by omega) (by omega) hmo hmn i hi
    · by_cases he : m = r
      · subst he
        rw [cs_succ (by omega)] at hi
        exact hno i (hsys.occ hi)
      · exact none m (by omega) (by omega) hmo hmn i hi
  · intro m hm
    rw [hlim', cost m (by omega), ha.br_ne (hlens' m hm)]

theorem extendOrders_ok (hL : LutsOk luts) (hW : W ≤ 2 ^ 31) (hM : maxOrder ≤ 8191) (hj : j < 8)
    {c : Nat} (hc : c ≤ maxOrder + 1) (hcn : lo + c ≤ n) {w : Win} (hw : WinOk w x sh W lo (n + 1) (8 * n + j + 1))
    {costs : List Costs} (hst : BitStep (Known x lo n (8 * n + j) 0) ex Pc Pc' Ic Ic' x n j c costs) :
    ∀ (r : Nat) {s : Loop} {N : Live} {str : Nat → Str} {cnt : Nat},
    LoopInv luts w costs x maxOrder ex Pc Pc' Ic Ic' sh W lo n j c r s N str cnt →
    ∃ s' N' str' cnt', extendOrders luts costs (7 - j) r s = some s' ∧
      LoopInv luts w costs x maxOrder ex Pc Pc' Ic Ic' sh W lo n j c 0 s' N' str' cnt'
  | 0, s, N, str, cnt, h => ⟨s, N, str, cnt, rfl, h⟩
  | r + 1, s, N, str, cnt, h => by
    obtain ⟨s1, N1, str1, cnt1, e1, h1⟩ := extendOne_ok hL hW hM hj hc hcn hw hst h
    obtain ⟨s2, N2, str2, cnt2, e2, h2⟩ := extendOrders_ok hL hW hM hj hc hcn hw hst r h1
    exact ⟨s2, N2, str2, cnt2, by rw [extendOrders, e1, ob_some, e2], h2⟩

/-- suffixes that are not contexts read the bit without any change -/
theorem Contexts.skip {ps : Nat → Nat} {ctxs : List Ctx} (hj : j < 8)
    (hI : TInv (Known x lo n (8 * n + j) 0) (8 * maxOrder + 7) ex Pc table ps N str)
    (hC : Contexts (Known x lo n (8 * n + j) 0) x (8 * maxOrder + 7) maxOrder ex Ic ps N str lo n (8 * n + j) ctxs) :
    ∀ d, lo + d ≤ n + 1 - ctxs.length →
    TInv (Known x lo n (8 * n + j) (lo + d)) (8 * maxOrder + 7) ex Pc table ps N str ∧
    (∀ s, Br (Known x lo n (8 * n + j) (lo + d)) (8 * maxOrder + 7) s ↔
      Br (Known x lo n (8 * n + j) 0) (8 * maxOrder + 7) s) ∧
    (∀ (m : Nat) ctx, ctxs[m]? = some ctx → InfoOk (Known x lo n (8 * n + j) (lo + d)) ex (Ic m) ps ctx (cs x n (8 * n + j) m)) ∧
    (∀ m, ctxs.length ≤ m → m ≤ maxOrder → lo + d + m ≤ n →
      ∀ i, ¬ Occ (Known x lo n (8 * n + j) (lo + d)) (cs x n (8 * n + j) m) i)
  | 0, _ => by
    have he : Known x lo n (8 * n + j) (lo + 0) = Known x lo n (8 * n + j) 0 := by
      funext s i
      exact propext (known_lim (by omega) (by omega) s i)
    rw [he]
    exact ⟨hI, fun s => Iff.rfl, hC.info, fun m h1 h2 h3 => hC.none m h1 h2 (by omega)⟩
  | d + 1, hd => by
    obtain ⟨h1, h2, h3, h4⟩ := Contexts.skip hj hI hC d (by omega)
    have hsize := hC.size
    have ha := known_add (x := x) (lo := lo) (n := n) (L := 8 * n + j) (lim := lo + d) (by omega) (by omega) (by omega)
    have hs0 : seg x (lo + d) (8 * n + j - 8 * (lo + d)) = cs x n (8 * n + j) (n - (lo + d)) := by
      unfold cs
      rw [show n - (n - (lo + d)) = lo + d by omega]
    rw [hs0] at ha
    have hlen0 : (cs x n (8 * n + j) (n - (lo + d))).length = 8 * (n - (lo + d)) + j := cs_length_eq (by omega)
    have hnew : 8 * maxOrder + 7 < (cs x n (8 * n + j) (n - (lo + d))).length ∨
        ∀ c i, ¬ Known x lo n (8 * n + j) (lo + d) (cs x n (8 * n + j) (n - (lo + d)) ++ [c]) i := by
      by_cases hm : n - (lo + d) ≤ maxOrder
      · right
        intro c i hi
        exact h4 (n - (lo + d)) (by omega) hm (by omega) i ⟨c, hi⟩
      · left
        rw [hlen0]; omega
    have hbs := ha.br_same (D := 8 * maxOrder + 7) (Or.inr (hnew.imp id (fun h i => h _ i)))
    have hnbr : ¬ Br (Known x lo n (8 * n + j) (lo + d)) (8 * maxOrder + 7) (cs x n (8 * n + j) (n - (lo + d))) := by
      intro hb
      rcases hnew with h | h
      · have := hb.1; omega
      · obtain ⟨i, hi⟩ := hb.2 true
        exact h _ _ hi
    refine ⟨h1.skip hbs ?_, fun s => (hbs s).trans (h2 s), ?_, ?_⟩
    · intro s hs c i
      exact ha.iff_ne (by rintro rfl; exact hnbr hs) c i
    · intro m ctx hctx
      have hm : m < ctxs.length := by
        by_contra hge
        rw [List.getElem?_eq_none (by omega)] at hctx
        simp at hctx
      refine (h3 m ctx hctx).same ha (ne_of_len ?_)
      rw [hlen0, cs_length_eq (by omega)]
      omega
    · intro m hm hmo hmn i hi
      rw [show lo + (d + 1) = lo + d + 1 by omega, ha.occ_ne (ne_of_len (by rw [hlen0, cs_length_eq (by omega)]; omega))] at hi
      exact h4 m hm hmo (by omega) i hi

/-- Reading a bit with a proper tree. -/
theorem extend_proper (hL : LutsOk luts) (hW : W ≤ 2 ^ 31) (hM : maxOrder ≤ 8191) (hj : j < 8)
    {t : Tree} {ctxs : List Ctx} (hw : WinOk t.window x sh W lo (n + 1) (8 * n + j))
    {costs : List Costs} (hst : BitStep (Known x lo n (8 * n + j) 0) ex Pc Pc' Ic Ic' x n j ctxs.length costs)
    (hT : TreeOk t (Known x lo n (8 * n + j) 0) (8 * maxOrder + 7) ex Pc luts.costs (pos sh W) (max 1 (W - 1))
      N str cnt)
    (hC : Contexts (Known x lo n (8 * n + j) 0) x (8 * maxOrder + 7) maxOrder ex Ic (pos sh W) N str lo n (8 * n + j)
      ctxs)
    (hcost : ∀ m, m < ctxs.length → (m < costs.length ↔
      Br (Known x lo n (8 * n + j) 0) (8 * maxOrder + 7) (cs x n (8 * n + j) m))) :
    ∃ t' ctxs' N' str' cnt', extend luts t ctxs costs (x (8 * n + j)) (7 - j) maxOrder = some (t', ctxs') ∧
      WinOk t'.window x sh W lo (n + 1) (8 * n + (j + 1)) ∧
      TreeOk t' (Known x lo n (8 * n + (j + 1)) 0) (8 * maxOrder + 7) ex Pc' luts.costs (pos sh W) (max 1 (W - 1))
        N' str' cnt' ∧
      Contexts (Known x lo n (8 * n + (j + 1)) 0) x (8 * maxOrder + 7) maxOrder ex Ic' (pos sh W) N' str' lo n
        (8 * n + (j + 1)) ctxs' := by
  have hsize := hC.size
  have hlen := hC.len
  obtain ⟨w', e1, hw'⟩ := hw.setBit (by omega) rfl hj
  obtain ⟨s1, s2, s3, s4⟩ := hC.skip hj hT.inv (n + 1 - ctxs.length - lo) (by omega)
  rw [show lo + (n + 1 - ctxs.length - lo) = n + 1 - ctxs.length by omega] at s1 s2 s3 s4
  have hinit : LoopInv luts w' costs x maxOrder ex Pc Pc' Ic Ic' sh W lo n j ctxs.length ctxs.length
      ⟨{ t with window := w' }, ctxs, ctxs.length⟩ N str cnt := by
    refine ⟨rfl, ⟨hT.proper, hT.rep, s1.weaken fun _ _ _ _ h => Stage.init h⟩, rfl, le_refl _, le_refl _, ?_, ?_, ?_, ?_,
      hC.root⟩
    · intro m ctx _ hctx
      exact ⟨(hC.loc m ctx hctx).same s2 (fun v nd hv => ⟨nd, hv⟩), s3 m ctx hctx⟩
    · intro m ctx h1 h2
      dsimp only at h2; omega
    · intro m hm _ hmo hmn i hi
      exact hC.none m hm hmo hmn i (known_occ_back (by omega) (by omega) hi)
    · intro m hm
      rw [hcost m hm, s2]
  obtain ⟨s', N', str', cnt', e2, h'⟩ := extendOrders_ok hL hW hM hj hlen hsize hw' hst _ hinit
  have hK : Known x lo n (8 * n + j) (n + 1 - 0) = Known x lo n (8 * n + (j + 1)) 0 := by
    funext s i
    exact propext (known_next (by omega) s i).symm
  obtain ⟨window, tree, len, -, le, -, high, none, -, root⟩ := h'
  rw [hK] at tree high none
  refine ⟨s'.tree, s'.ctxs.take s'.count, N', str', cnt', ?_, by rw [window]; exact hw',
    ⟨tree.proper, tree.rep, tree.inv.weaken fun _ _ _ _ h => Stage.final hst h⟩, ?_, ?_, ?_, ?_, ?_, ?_, root⟩
  · unfold extend
    rw [e1, ob_some]
    dsimp only
    rw [if_pos hT.proper, e2, ob_some]
    unfold keepOnly
    rw [check_pos (by omega), ob_some, ob_some]
  · rw [List.length_take]; omega
  · rw [List.length_take]; omega
  all_goals
    have hg : ∀ m ctx, (s'.ctxs.take s'.count)[m]? = some ctx → m < s'.count ∧ s'.ctxs[m]? = some ctx := by
      intro m ctx hctx
      rw [List.getElem?_take] at hctx
      split at hctx
      · exact ⟨by assumption, hctx⟩
      · simp at hctx
  · intro m ctx hctx
    exact (high m ctx (by omega) (hg m ctx hctx).1 (hg m ctx hctx).2).1
  · intro m ctx hctx
    exact (high m ctx (by omega) (hg m ctx hctx).1 (hg m ctx hctx).2).2.1
  · intro m ctx hctx
    exact (high m ctx (by omega) (hg m ctx hctx).1 (hg m ctx hctx).2).2.2
  · intro m hm hmo hmn
    rw [List.length_take] at hm
    exact none m (by omega) (by omega) hmo hmn

end Verif.Tree
