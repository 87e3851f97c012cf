import Verif.Tree.Pool
import Verif.Tree.Text
import Verif.History.GatherLemmas

/-!
# The tree invariant and how one bit changes the tree
-/

namespace Verif.Tree

open Verif Verif.History

/-- the statistics of a node for `s`: those of a sequence of bits that ends with the bits known to have
followed `s`, and is exactly these if nothing has been forgotten (`ex`) -/
def StatOk (P : Str → Nat → Prop) (ex : Prop) (Pc : Str → List Bool → Costs → Prop) (table : List Nat) (s : Str) (nd : Node) :
    Prop :=
  ∃ q q0 c, Flw P s q0 ∧ q0 <:+ q ∧ (ex → q0 = q) ∧ true ∈ q ∧ false ∈ q ∧ Pc s q c ∧
    specState table 0 q c = some (.node 0 nd.est nd.recent nd.runs nd.costs) ∧
    nd.leftCount = min 1000 (q.count false) ∧ nd.rightCount = min 1000 (q.count true)

/-- the child reached by reading `t`, which is the string of its parent and one bit -/
def ChildOk (P : Str → Nat → Prop) (D : Nat) (pos : Nat → Nat) (N : Live) (str : Nat → Str) (t : Str) (c : Int) :
    Prop :=
  ∃ i, Last P t i ∧ ((NoBr P D t ∧ c = (pos i : Int)) ∨
    ∃ w nw, 1 ≤ w ∧ N w = some nw ∧ c = -(w : Int) - 1 ∧ Least P D t (str w) ∧ nw.textStart = pos i)

/-- a node for the string `str v` -/
structure NodeOk (P : Str → Nat → Prop) (D : Nat) (ex : Prop) (Pc : Str → List Bool → Costs → Prop) (table : List Nat)
    (pos : Nat → Nat) (N : Live) (str : Nat → Str) (v : Nat) (nd : Node) : Prop where
  br : Br P D (str v)
  depth : nd.depth = (str v).length
  text : nd.textStart < 2 ^ 31
  stat : StatOk P ex Pc table (str v) nd
  child : ∀ b, ChildOk P D pos N str (str v ++ [b]) (nd.child b)

/-- the nodes are the branching strings -/
structure TInv (P : Str → Nat → Prop) (D : Nat) (ex : Prop) (Pc : Str → List Bool → Costs → Prop) (table : List Nat)
    (pos : Nat → Nat) (N : Live) (str : Nat → Str) : Prop where
  root : ∃ nd, N 0 = some nd
  node : ∀ v nd, N v = some nd → NodeOk P D ex Pc table pos N str v nd
  full : ∀ s, Br P D s → ∃ v nd, N v = some nd ∧ str v = s
  inj : ∀ v w nv nw, N v = some nv → N w = some nw → str v = str w → v = w
  rootle : ∀ s, Br P D s → str 0 <+: s

/-- where a context is in the tree -/
def LocOk (P : Str → Nat → Prop) (D : Nat) (N : Live) (str : Nat → Str) (ctx : Ctx) (s : Str) : Prop :=
  ∃ nd, N ctx.node = some nd ∧
    ((ctx.inLeaf = false ∧ Least P D s (str ctx.node)) ∨
      (ctx.inLeaf = true ∧ ∃ c, ctx.dir = some c ∧ str ctx.node ++ [c] <+: s ∧
        ∀ r, Br P D r → str ctx.node ++ [c] <+: r → s <+: r))

/-- the leaf of the context has not been split -/
def Settled (P : Str → Nat → Prop) (D : Nat) (str : Nat → Str) (ctx : Ctx) : Prop :=
  ctx.inLeaf = true → ∀ c, ctx.dir = some c → NoBr P D (str ctx.node ++ [c])

/-- what else a context knows of its string; `Ic` is what is known of the count carried along -/
def InfoOk (P : Str → Nat → Prop) (ex : Prop) (Ic : Nat → Prop) (pos : Nat → Nat) (ctx : Ctx) (s : Str) : Prop :=
  (∃ i, LastOcc P s i ∧ ctx.suffix = pos i) ∧
  ∃ C q0, Flw P s q0 ∧ q0.length ≤ C ∧ (ex → q0.length = C) ∧ ctx.incoming = ((min 1000 C : Nat) : Int) ∧ Ic C

/-- change of one string -/
def setStr (str : Nat → Str) (v : Nat) (s : Str) : Nat → Str := fun j => if j = v then s else str j

theorem setStr_self (str : Nat → Str) (v : Nat) (s : Str) : setStr str v s v = s := by simp [setStr]

theorem setStr_ne (str : Nat → Str) {v j : Nat} (s : Str) (h : j ≠ v) : setStr str v s j = str j := by
  simp [setStr, h]

variable {P P' : Str → Nat → Prop} {D : Nat} {ex : Prop} {Pc Pc' : Str → List Bool → Costs → Prop} {table : List Nat}
  {pos : Nat → Nat} {N N' : Live} {str str' : Nat → Str}

/-! ## Facts about nodes -/

theorem child_setChild (nd : Node) (b : Bool) (c : Int) : (nd.setChild b c).child b = c := by
  cases b <;> simp [Node.setChild, Node.child]

theorem child_setChild_not (nd : Node) (b : Bool) (c : Int) : (nd.setChild b c).child (!b) = nd.child (!b) := by
  cases b <;> simp [Node.setChild, Node.child]

theorem child_setChild_not' (nd : Node) (b : Bool) (c : Int) : (nd.setChild (!b) c).child b = nd.child b := by
  cases b <;> simp [Node.setChild, Node.child]

theorem setChild_text (nd : Node) (b : Bool) (c : Int) : (nd.setChild b c).textStart = nd.textStart := by
  cases b <;> simp [Node.setChild]

theorem setChild_depth (nd : Node) (b : Bool) (c : Int) : (nd.setChild b c).depth = nd.depth := by
  cases b <;> simp [Node.setChild]

/-- statistics do not depend on the rest of the node -/
theorem StatOk.congr {s : Str} {nd nd' : Node} (h : StatOk P ex Pc table s nd) (h1 : nd'.est = nd.est)
    (h2 : nd'.recent = nd.recent) (h3 : nd'.runs = nd.runs) (h4 : nd'.costs = nd.costs)
    (h5 : nd'.leftCount = nd.leftCount) (h6 : nd'.rightCount = nd.rightCount) :
    StatOk P ex Pc table s nd' := by
  unfold StatOk at h ⊢
  rw [h1, h2, h3, h4, h5, h6]
  exact h

theorem StatOk.setChild {s : Str} {nd : Node} (h : StatOk P ex Pc table s nd) (b : Bool) (c : Int) :
    StatOk P ex Pc table s (nd.setChild b c) := by
  cases b <;> exact h.congr rfl rfl rfl rfl rfl rfl

theorem StatOk.text {s : Str} {nd : Node} (h : StatOk P ex Pc table s nd) (x : Nat) :
    StatOk P ex Pc table s { nd with textStart := x } := h.congr rfl rfl rfl rfl rfl rfl

theorem StatOk.flw {s : Str} {nd : Node} (h : StatOk P ex Pc table s nd)
    (hf : ∀ q, Flw P s q → Flw P' s q) : StatOk P' ex Pc table s nd := by
  obtain ⟨q, q0, c, h1, h2⟩ := h
  exact ⟨q, q0, c, hf _ h1, h2⟩

theorem StatOk.to {s : Str} {nd : Node} (h : StatOk P ex Pc table s nd)
    (hf : ∀ q, Flw P s q → Flw P' s q) (hc : ∀ q c, Pc s q c → Pc' s q c) : StatOk P' ex Pc' table s nd := by
  obtain ⟨q, q0, c, h1, h2, h3, h4, h5, h6, h7⟩ := h
  exact ⟨q, q0, c, hf _ h1, h2, h3, h4, h5, hc _ _ h6, h7⟩

theorem ChildOk.valid {t : Str} {c : Int} (h : ChildOk P D pos N str t c) : c ≠ childInvalid := by
  unfold childInvalid
  obtain ⟨i, -, ⟨-, rfl⟩ | ⟨w, nw, h1, -, rfl, -⟩⟩ := h <;> omega

theorem NodeOk.valid {v : Nat} {nd : Node} (h : NodeOk P D ex Pc table pos N str v nd) :
    nodeIsValid nd = true := by
  have h0 := (h.child false).valid
  have h1 := (h.child true).valid
  unfold nodeIsValid
  simp [Node.child] at h0 h1
  simp [h0, h1]

/-- different nodes do not share children -/
theorem least_parent {s s' t : Str} {b b' : Bool} (hs : Br P D s) (hs' : Br P D s')
    (h : Least P D (s ++ [b]) t) (h' : Least P D (s' ++ [b']) t) : s = s' ∧ b = b' := by
  have key : ∀ {s s' : Str} {b b' : Bool}, Br P D s' → Least P D (s ++ [b]) t → Least P D (s' ++ [b']) t →
      ¬ s.length < s'.length := by
    intro s s' b b' hs' h h' hlt
    have h1 := snoc_of_lt h.2.1 (prefix_of_snoc h'.2.1) hlt
    have h2 := (h.2.2 _ hs' h1).length_le
    have := snoc_len h'.2.1
    omega
  have h1 := key hs' h h'
  have h2 := key hs h' h
  have he : s = s' := List.IsPrefix.eq_of_length
    (List.prefix_of_prefix_length_le (prefix_of_snoc h.2.1) (prefix_of_snoc h'.2.1) (by omega)) (by omega)
  subst he
  exact ⟨rfl, snoc_bit h.2.1 h'.2.1⟩

/-- a node is longer than its parent -/
theorem least_ne {s : Str} {b : Bool} (h : Least P D (s ++ [b]) s) : False := by
  have := snoc_len h.2.1
  omega

/-- a child stays right if the tree changes elsewhere -/
theorem ChildOk.transfer {t : Str} {c : Int} (h : ChildOk P D pos N str t c)
    (hl : ∀ i, Last P t i → Last P' t i) (hno : NoBr P D t → NoBr P' D t)
    (hN : ∀ w nw, 1 ≤ w → N w = some nw → Least P D t (str w) →
      ∃ nw', N' w = some nw' ∧ nw'.textStart = nw.textStart ∧ Least P' D t (str' w)) :
    ChildOk P' D pos N' str' t c := by
  obtain ⟨i, h1, ⟨h2, h3⟩ | ⟨w, nw, h2, h3, h4, h5, h6⟩⟩ := h
  · exact ⟨i, hl i h1, Or.inl ⟨hno h2, h3⟩⟩
  · obtain ⟨nw', k1, k2, k3⟩ := hN w nw h2 h3 h5
    exact ⟨i, hl i h1, Or.inr ⟨w, nw', h2, k1, h4, k3, by rw [k2, h6]⟩⟩

theorem least_congr (hbr : ∀ s, Br P' D s ↔ Br P D s) {s t : Str} (h : Least P D s t) : Least P' D s t :=
  ⟨(hbr _).mpr h.1, h.2.1, fun r hr => h.2.2 r ((hbr _).mp hr)⟩

theorem noBr_congr (hbr : ∀ s, Br P' D s ↔ Br P D s) {s : Str} (h : NoBr P D s) : NoBr P' D s :=
  fun r hr => h r ((hbr _).mp hr)

/-- A bit that changes nothing for the branching strings changes nothing in the tree. -/
theorem TInv.skip (h : TInv P D ex Pc table pos N str) (hbr : ∀ s, Br P' D s ↔ Br P D s)
    (hP : ∀ s, Br P D s → ∀ c i, P' (s ++ [c]) i ↔ P (s ++ [c]) i) : TInv P' D ex Pc table pos N str := by
  refine ⟨h.root, ?_, fun s hs => h.full s ((hbr s).mp hs), h.inj, fun s hs => h.rootle s ((hbr s).mp hs)⟩
  intro v nd hv
  have hn := h.node v nd hv
  have hPv := hP _ hn.br
  refine ⟨(hbr _).mpr hn.br, hn.depth, hn.text, hn.stat.flw ?_, ?_⟩
  · intro q hq
    unfold Flw Occ at hq ⊢
    simp only [hPv]
    exact hq
  · intro b
    refine (hn.child b).transfer ?_ (noBr_congr hbr) ?_
    · intro i hi
      unfold Last at hi ⊢
      simp only [hPv]
      exact hi
    · intro w nw _ hw hl
      exact ⟨nw, hw, rfl, least_congr hbr hl⟩

/-- what is known of the branching strings may be weakened -/
theorem TInv.weaken (h : TInv P D ex Pc table pos N str) (hP : ∀ s q c, Br P D s → Pc s q c → Pc' s q c) :
    TInv P D ex Pc' table pos N str :=
  ⟨h.root, fun v nd hv => let k := h.node v nd hv
    ⟨k.br, k.depth, k.text, k.stat.to (fun _ => id) (fun q c => hP _ q c k.br), k.child⟩, h.full, h.inj, h.rootle⟩

/-! ## A branching context reads a bit -/

theorem not_bit_ne (s s' : Str) (b : Bool) : s ++ [!b] ≠ s' ++ [b] := by
  intro he
  have := (List.append_inj' he rfl).2
  cases b <;> simp at this

theorem TInv.last_other (h : TInv P D ex Pc table pos N str) {v u : Nat} {nd nu : Node} {b c : Bool} {i0 : Nat}
    (ha : AddEv P P' (str v) b i0) (hv : N v = some nd) (hu : N u = some nu) (hne : u ≠ v) {i : Nat}
    (hl : Last P (str u ++ [c]) i) : Last P' (str u ++ [c]) i := by
  rw [ha.last_ne]
  · exact hl
  · intro he
    exact hne (h.inj u v _ _ hu hv (List.append_inj' he rfl).1)

/-- the bit leads to a leaf -/
theorem TInv.descendLeaf (h : TInv P D ex Pc table pos N str) {v : Nat} {nd nd' : Node} {b : Bool} {i0 : Nat}
    (ha : AddEv P P' (str v) b i0) (hpc : ∀ s q c, s ≠ str v → Pc s q c → Pc' s q c) (hv : N v = some nd)
    (hno : NoBr P D (str v ++ [b]))
    (h1 : nd'.child (!b) = nd.child (!b)) (h1' : nd'.child b = (pos i0 : Int)) (h2 : nd'.depth = nd.depth)
    (h3 : nd'.textStart = nd.textStart)
    (h4 : StatOk P' ex Pc' table (str v) nd') :
    TInv P' D ex Pc' table pos (N.put v (some nd')) str := by
  have hbr := ha.br_same (D := D) (Or.inl (h.node v nd hv).br)
  have hget : ∀ w nw, N w = some nw → ∃ nw', N.put v (some nd') w = some nw' ∧ nw'.textStart = nw.textStart := by
    intro w nw hw
    by_cases he : w = v
    · subst he
      rw [hv, Option.some.injEq] at hw
      subst hw
      exact ⟨nd', put_self _ _ _, h3⟩
    · exact ⟨nw, by rw [put_ne _ _ he, hw], rfl⟩
  have hback : ∀ w nw, N.put v (some nd') w = some nw → ∃ nw', N w = some nw' := by
    intro w nw hw
    by_cases he : w = v
    · subst he; exact ⟨nd, hv⟩
    · exact ⟨nw, by rwa [put_ne _ _ he] at hw⟩
  refine ⟨?_, ?_, ?_, ?_, fun s hs => h.rootle s ((hbr s).mp hs)⟩
  · obtain ⟨n0, hn0⟩ := h.root
    obtain ⟨n1, hn1, -⟩ := hget 0 n0 hn0
    exact ⟨n1, hn1⟩
  · intro u nu hu
    by_cases he : u = v
    · subst he
      rw [put_self, Option.some.injEq] at hu
      subst hu
      have hn := h.node u nd hv
      refine ⟨(hbr _).mpr hn.br, by rw [h2, hn.depth], by rw [h3]; exact hn.text, h4, ?_⟩
      intro c
      rcases bool_eq_or b c with rfl | rfl
      · exact ⟨i0, ha.last_new, Or.inl ⟨noBr_congr hbr hno, h1'⟩⟩
      · rw [h1]
        refine (hn.child (!b)).transfer ?_ (noBr_congr hbr) ?_
        · intro i hi
          exact (ha.last_ne (not_bit_ne _ _ _) i).mpr hi
        · intro w nw _ hw hl
          obtain ⟨nw', k1, k2⟩ := hget w nw hw
          exact ⟨nw', k1, k2, least_congr hbr hl⟩
    · rw [put_ne _ _ he] at hu
      have hn := h.node u nu hu
      have hsne : str u ≠ str v := fun hh => he (h.inj u v _ _ hu hv hh)
      refine ⟨(hbr _).mpr hn.br, hn.depth, hn.text, hn.stat.to (fun q hq => (ha.flw_ne hsne q).mpr hq) (fun q c => hpc _ q c hsne), ?_⟩
      intro c
      refine (hn.child c).transfer ?_ (noBr_congr hbr) ?_
      · exact fun i hi => h.last_other ha hv hu he hi
      · intro w nw _ hw hl
        obtain ⟨nw', k1, k2⟩ := hget w nw hw
        exact ⟨nw', k1, k2, least_congr hbr hl⟩
  · intro s hs
    obtain ⟨w, nw, hw, hws⟩ := h.full s ((hbr s).mp hs)
    obtain ⟨nw', k1, -⟩ := hget w nw hw
    exact ⟨w, nw', k1, hws⟩
  · intro u w nu nw hu hw he
    obtain ⟨_, hu'⟩ := hback u nu hu
    obtain ⟨_, hw'⟩ := hback w nw hw
    exact h.inj u w _ _ hu' hw' he

/-- the bit leads to a node -/
theorem TInv.descendNode (h : TInv P D ex Pc table pos N str) {v w : Nat} {nd nd' nw : Node} {b : Bool} {i0 : Nat}
    (ha : AddEv P P' (str v) b i0) (hpc : ∀ s q c, s ≠ str v → Pc s q c → Pc' s q c) (hv : N v = some nd) (hw1 : 1 ≤ w) (hw : N w = some nw)
    (hc : nd.child b = -(w : Int) - 1) (hle : Least P D (str v ++ [b]) (str w))
    (h1 : ∀ c, nd'.child c = nd.child c) (h2 : nd'.depth = nd.depth) (h3 : nd'.textStart = nd.textStart)
    (h4 : StatOk P' ex Pc' table (str v) nd') (hpos : pos i0 < 2 ^ 31) :
    TInv P' D ex Pc' table pos ((N.put v (some nd')).put w (some { nw with textStart := pos i0 })) str := by
  have hbr := ha.br_same (D := D) (Or.inl (h.node v nd hv).br)
  have hwv : w ≠ v := by
    rintro rfl
    exact least_ne hle
  have hget : ∀ u nu, N u = some nu → u ≠ w → ∃ nu',
      (N.put v (some nd')).put w (some { nw with textStart := pos i0 }) u = some nu' ∧
        nu'.textStart = nu.textStart := by
    intro u nu hu hne
    rw [put_ne _ _ hne]
    by_cases he : u = v
    · subst he
      rw [hv, Option.some.injEq] at hu
      subst hu
      exact ⟨nd', put_self _ _ _, h3⟩
    · exact ⟨nu, by rw [put_ne _ _ he, hu], rfl⟩
  have hgetw : (N.put v (some nd')).put w (some { nw with textStart := pos i0 }) w =
      some { nw with textStart := pos i0 } := put_self _ _ _
  have hgetv : (N.put v (some nd')).put w (some { nw with textStart := pos i0 }) v = some nd' := by
    rw [put_ne _ _ (Ne.symm hwv), put_self]
  have hback : ∀ u nu, (N.put v (some nd')).put w (some { nw with textStart := pos i0 }) u = some nu →
      ∃ nu', N u = some nu' := by
    intro u nu hu
    by_cases he : u = w
    · subst he; exact ⟨nw, hw⟩
    · rw [put_ne _ _ he] at hu
      by_cases he : u = v
      · subst he; exact ⟨nd, hv⟩
      · exact ⟨nu, by rwa [put_ne _ _ he] at hu⟩
  -- children of other nodes
  have hother : ∀ u nu c, N u = some nu → ¬ (u = v ∧ c = b) → ∀ x nx, 1 ≤ x → N x = some nx →
      Least P D (str u ++ [c]) (str x) → ∃ nx',
        (N.put v (some nd')).put w (some { nw with textStart := pos i0 }) x = some nx' ∧
        nx'.textStart = nx.textStart ∧ Least P' D (str u ++ [c]) (str x) := by
    intro u nu c hu hne x nx _ hx hl
    have hxw : x ≠ w := by
      rintro rfl
      obtain ⟨k1, k2⟩ := least_parent (h.node u nu hu).br (h.node v nd hv).br hl hle
      exact hne ⟨h.inj u v _ _ hu hv k1, k2⟩
    obtain ⟨nx', k1, k2⟩ := hget x nx hx hxw
    exact ⟨nx', k1, k2, least_congr hbr hl⟩
  refine ⟨?_, ?_, ?_, ?_, fun s hs => h.rootle s ((hbr s).mp hs)⟩
  · obtain ⟨n0, hn0⟩ := h.root
    by_cases he : 0 = w
    · rw [← he] at hgetw ⊢; exact ⟨_, hgetw⟩
    · obtain ⟨n1, hn1, -⟩ := hget 0 n0 hn0 he
      exact ⟨n1, hn1⟩
  · intro u nu hu
    by_cases hew : u = w
    · subst hew
      rw [hgetw, Option.some.injEq] at hu
      subst hu
      have hn := h.node u nw hw
      have hsne : str u ≠ str v := fun hh => hwv (h.inj u v _ _ hw hv hh)
      refine ⟨(hbr _).mpr hn.br, hn.depth, hpos,
        (hn.stat.to (fun q hq => (ha.flw_ne hsne q).mpr hq) (fun q c => hpc _ q c hsne)).text _, ?_⟩
      intro c
      exact (hn.child c).transfer (fun i hi => h.last_other ha hv hw hwv hi) (noBr_congr hbr)
        (hother u nw c hw (fun hh => hwv hh.1))
    · by_cases he : u = v
      · subst he
        rw [hgetv, Option.some.injEq] at hu
        subst hu
        have hn := h.node u nd hv
        refine ⟨(hbr _).mpr hn.br, by rw [h2, hn.depth], by rw [h3]; exact hn.text, h4, ?_⟩
        intro c
        rw [h1]
        rcases bool_eq_or b c with rfl | rfl
        · exact ⟨i0, ha.last_new, Or.inr ⟨w, _, hw1, hgetw, hc, least_congr hbr hle, rfl⟩⟩
        · refine (hn.child (!b)).transfer ?_ (noBr_congr hbr) (hother u nd (!b) hv ?_)
          · intro i hi
            exact (ha.last_ne (not_bit_ne _ _ _) i).mpr hi
          · rintro ⟨-, hb⟩; cases b <;> simp at hb
      · rw [put_ne _ _ hew, put_ne _ _ he] at hu
        have hn := h.node u nu hu
        have hsne : str u ≠ str v := fun hh => he (h.inj u v _ _ hu hv hh)
        refine ⟨(hbr _).mpr hn.br, hn.depth, hn.text, hn.stat.to (fun q hq => (ha.flw_ne hsne q).mpr hq) (fun q c => hpc _ q c hsne), ?_⟩
        intro c
        exact (hn.child c).transfer (fun i hi => h.last_other ha hv hu he hi) (noBr_congr hbr)
          (hother u nu c hu (fun hh => he hh.1))
  · intro s hs
    obtain ⟨u, nu, hu, hus⟩ := h.full s ((hbr s).mp hs)
    by_cases he : u = w
    · subst he; exact ⟨u, _, hgetw, hus⟩
    · obtain ⟨nu', k1, -⟩ := hget u nu hu he
      exact ⟨u, nu', k1, hus⟩
  · intro u x nu nx hu hx he
    obtain ⟨_, hu'⟩ := hback u nu hu
    obtain ⟨_, hx'⟩ := hback x nx hx
    exact h.inj u x _ _ hu' hx' he

/-! ## A context branches for the first time -/

/-- on the edge above a node -/
theorem TInv.splitEdge (h : TInv P D ex Pc table pos N str) (hsys : Sys P) {v u : Nat} {nd nd1 : Node} {s0 : Str}
    {b : Bool} {i0 is : Nat}
    (ha : AddEv P P' s0 b i0) (hpc : ∀ s q c, s ≠ s0 → Pc s q c → Pc' s q c) (hD : s0.length ≤ D) (hv : N v = some nd) (hloc : Least P D s0 (str v))
    (hne : s0 ≠ str v) (hb : ∀ i, ¬ P (s0 ++ [b]) i) (hsfx : LastOcc P s0 is) (hu : N u = none) (hu1 : 1 ≤ u)
    (hstat : StatOk P' ex Pc' table s0 nd1) (hdepth : nd1.depth = s0.length)
    (hts : nd1.textStart = nd.textStart) (hc1 : nd1.child b = (pos i0 : Int))
    (hc2 : nd1.child (!b) = -(u : Int) - 1) (hpos : pos is < 2 ^ 31) :
    TInv P' D ex Pc' table pos ((N.put u (some { nd with textStart := pos is })).put v (some nd1))
      (setStr (setStr str u (str v)) v s0) := by
  have hnb : ∀ i c, P (s0 ++ [c]) i → c = !b := by
    intro i c hc
    rcases bool_eq_or b c with rfl | rfl
    · exact absurd hc (hb i)
    · rfl
  obtain ⟨⟨c0, hc0⟩, hslast⟩ := hsfx
  obtain rfl := hnb _ _ hc0
  have hbr := ha.br_split hD ⟨is, hc0⟩
  have huv : u ≠ v := by rintro rfl; rw [hv] at hu; simp at hu
  have hs0 : ¬ Br P D s0 := by
    intro hh
    obtain ⟨i, hi⟩ := hh.2 b
    exact hb i hi
  -- the way to the node goes on with the other bit
  have hway : s0 ++ [!b] <+: str v := by
    obtain ⟨c, hc⟩ := snoc_of_prefix hloc.2.1 hne
    obtain ⟨i, hi⟩ := hloc.1.occ
    rwa [← hnb i c (hsys.pre (hsys.occ hi) hc)]
  have hsne : ∀ x nx, N x = some nx → str x ≠ s0 := by
    intro x nx hx he
    apply hs0
    rw [← he]
    exact (h.node x nx hx).br
  have hltv : s0.length < (str v).length := snoc_len hway
  -- values of the new maps
  have eNv : (N.put u (some { nd with textStart := pos is })).put v (some nd1) v = some nd1 := put_self _ _ _
  have eNu : (N.put u (some { nd with textStart := pos is })).put v (some nd1) u =
      some { nd with textStart := pos is } := by rw [put_ne _ _ huv, put_self]
  have eN : ∀ x, x ≠ u → x ≠ v → (N.put u (some { nd with textStart := pos is })).put v (some nd1) x = N x := by
    intro x h1 h2
    rw [put_ne _ _ h2, put_ne _ _ h1]
  have eSv : setStr (setStr str u (str v)) v s0 v = s0 := setStr_self _ _ _
  have eSu : setStr (setStr str u (str v)) v s0 u = str v := by rw [setStr_ne _ _ huv, setStr_self]
  have eS : ∀ x, x ≠ u → x ≠ v → setStr (setStr str u (str v)) v s0 x = str x := by
    intro x h1 h2
    rw [setStr_ne _ _ h2, setStr_ne _ _ h1]
  have hliveu : ∀ x nx, N x = some nx → x ≠ u := by
    rintro x nx hx rfl
    rw [hx] at hu; simp at hu
  -- shortest extensions
  have hleast : ∀ x nx c y ny, N x = some nx → N y = some ny → Least P D (str x ++ [c]) (str y) → y ≠ v →
      Least P' D (str x ++ [c]) (str y) := by
    intro x nx c y ny hx hy hl hyv
    refine ⟨ha.br_mono hl.1, hl.2.1, ?_⟩
    intro r hr hpre
    rcases (hbr r).mp hr with hr | rfl
    · exact hl.2.2 r hr hpre
    · have h1 := hl.2.2 _ hloc.1 (hpre.trans hloc.2.1)
      rcases prefix_cmp h1 hloc.2.1 with hp | hp
      · exact hp
      · have h2 := hloc.2.2 _ hl.1 hp
        exact absurd (h.inj y v _ _ hy hv (prefix_antisymm h1 h2)) hyv
  have hnobr : ∀ t, NoBr P D t → NoBr P' D t := by
    intro t hno r hr hpre
    rcases (hbr r).mp hr with hr | rfl
    · exact hno r hr hpre
    · exact hno _ hloc.1 (hpre.trans hloc.2.1)
  -- children of nodes in place
  have hch : ∀ x nx c, N x = some nx → ∀ y ny, 1 ≤ y → N y = some ny → Least P D (str x ++ [c]) (str y) →
      ∃ ny', (N.put u (some { nd with textStart := pos is })).put v (some nd1) y = some ny' ∧
        ny'.textStart = ny.textStart ∧
        Least P' D (str x ++ [c]) (setStr (setStr str u (str v)) v s0 y) := by
    intro x nx c hx y ny _ hy hl
    by_cases hyv : y = v
    · subst hyv
      rw [hv, Option.some.injEq] at hy
      subst hy
      refine ⟨nd1, eNv, hts, ?_⟩
      rw [eSv]
      -- the parent is above the new node
      have hlt : (str x).length < s0.length := by
        by_contra hge
        have hp : s0 <+: str x :=
          List.prefix_of_prefix_length_le hloc.2.1 (prefix_of_snoc hl.2.1) (by omega)
        have h2 := (hloc.2.2 _ (h.node x nx hx).br hp).length_le
        have := snoc_len hl.2.1
        omega
      refine ⟨(hbr _).mpr (Or.inr rfl), snoc_of_lt hl.2.1 hloc.2.1 hlt, ?_⟩
      intro r hr hpre
      rcases (hbr r).mp hr with hr | rfl
      · exact hloc.2.1.trans (hl.2.2 r hr hpre)
      · exact List.prefix_refl _
    · have hyu := hliveu y ny hy
      exact ⟨ny, by rw [eN y hyu hyv, hy], rfl, by rw [eS y hyu hyv]; exact hleast x nx c y ny hx hy hl hyv⟩
  refine ⟨?_, ?_, ?_, ?_, ?_⟩
  · obtain ⟨n0, hn0⟩ := h.root
    by_cases he : 0 = v
    · rw [he]; exact ⟨nd1, eNv⟩
    · exact ⟨n0, by rw [eN 0 (hliveu 0 n0 hn0) he, hn0]⟩
  · intro x nx hx
    by_cases hxv : x = v
    · subst hxv
      rw [eNv, Option.some.injEq] at hx
      subst hx
      have hn := h.node x nd hv
      refine ⟨by rw [eSv]; exact (hbr _).mpr (Or.inr rfl), by rw [eSv, hdepth], by rw [hts]; exact hn.text,
        by rw [eSv]; exact hstat, ?_⟩
      intro c
      rw [eSv]
      rcases bool_eq_or b c with rfl | rfl
      · refine ⟨i0, ha.last_new, Or.inl ⟨?_, hc1⟩⟩
        intro r hr hpre
        rcases (hbr r).mp hr with hr | rfl
        · obtain ⟨i, hi⟩ := hr.occ
          exact hb i (hsys.pre (hsys.occ hi) hpre)
        · have := snoc_len hpre; omega
      · refine ⟨is, ?_, Or.inr ⟨u, _, hu1, eNu, hc2, ?_, rfl⟩⟩
        · rw [ha.last_ne (not_bit_ne _ _ _)]
          exact ⟨hc0, fun i hi => hslast i ⟨_, hi⟩⟩
        · rw [eSu]
          refine ⟨ha.br_mono hloc.1, hway, ?_⟩
          intro r hr hpre
          rcases (hbr r).mp hr with hr | rfl
          · exact hloc.2.2 r hr (prefix_of_snoc hpre)
          · have := snoc_len hpre; omega
    · by_cases hxu : x = u
      · subst hxu
        rw [eNu, Option.some.injEq] at hx
        subst hx
        have hn := h.node v nd hv
        refine ⟨by rw [eSu]; exact ha.br_mono hn.br, by rw [eSu]; exact hn.depth, hpos, ?_, ?_⟩
        · rw [eSu]
          exact (hn.stat.to (fun q hq => (ha.flw_ne (hsne v nd hv) q).mpr hq) (fun q c => hpc _ q c (hsne v nd hv))).text _
        · intro c
          rw [eSu]
          refine (hn.child c).transfer ?_ (hnobr _) (hch v nd c hv)
          intro i hi
          rw [ha.last_ne]
          · exact hi
          · intro he; exact hsne v nd hv (List.append_inj' he rfl).1
      · rw [eN x hxu hxv] at hx
        have hn := h.node x nx hx
        have hxs := hsne x nx hx
        refine ⟨by rw [eS x hxu hxv]; exact ha.br_mono hn.br, by rw [eS x hxu hxv]; exact hn.depth, hn.text, ?_, ?_⟩
        · rw [eS x hxu hxv]
          exact hn.stat.to (fun q hq => (ha.flw_ne hxs q).mpr hq) (fun q c => hpc _ q c hxs)
        · intro c
          rw [eS x hxu hxv]
          refine (hn.child c).transfer ?_ (hnobr _) (hch x nx c hx)
          intro i hi
          rw [ha.last_ne]
          · exact hi
          · intro he; exact hxs (List.append_inj' he rfl).1
  · intro s hs
    rcases (hbr s).mp hs with hs | rfl
    · obtain ⟨x, nx, hx, hxs⟩ := h.full s hs
      by_cases hxv : x = v
      · subst hxv
        exact ⟨u, _, eNu, by rw [eSu, hxs]⟩
      · exact ⟨x, nx, by rw [eN x (hliveu x nx hx) hxv, hx], by rw [eS x (hliveu x nx hx) hxv, hxs]⟩
    · exact ⟨v, nd1, eNv, eSv⟩
  · -- injectivity: every live index has an old live index with ... 
    have hrep : ∀ x nx, (N.put u (some { nd with textStart := pos is })).put v (some nd1) x = some nx →
        (x = v ∧ setStr (setStr str u (str v)) v s0 x = s0) ∨
        (∃ y ny, N y = some ny ∧ setStr (setStr str u (str v)) v s0 x = str y ∧ x = if y = v then u else y) := by
      intro x nx hx
      by_cases hxv : x = v
      · left; subst hxv; exact ⟨rfl, eSv⟩
      · right
        by_cases hxu : x = u
        · subst hxu; exact ⟨v, nd, hv, eSu, by simp⟩
        · rw [eN x hxu hxv] at hx
          exact ⟨x, nx, hx, eS x hxu hxv, by simp [hxv]⟩
    intro x y nx ny hx hy he
    rcases hrep x nx hx with ⟨rfl, e1⟩ | ⟨x', nx', hx', e1, e2⟩ <;>
      rcases hrep y ny hy with ⟨rfl, f1⟩ | ⟨y', ny', hy', f1, f2⟩
    · rfl
    · rw [e1, f1] at he
      exact absurd he.symm (hsne y' ny' hy')
    · rw [e1, f1] at he
      exact absurd he (hsne x' nx' hx')
    · rw [e1, f1] at he
      have := h.inj x' y' _ _ hx' hy' he
      rw [e2, f2, this]
  · intro s hs
    have hold : ∀ r, Br P' D r → str 0 <+: r ∨ r = s0 := by
      intro r hr
      rcases (hbr r).mp hr with hr | rfl
      · exact Or.inl (h.rootle r hr)
      · exact Or.inr rfl
    have h0v : str 0 <+: str v := h.rootle _ hloc.1
    by_cases he : 0 = v
    · rw [he, eSv]
      rcases (hbr s).mp hs with hs | rfl
      · have := h.rootle s hs
        rw [he] at this
        exact hloc.2.1.trans this
      · exact List.prefix_refl _
    · obtain ⟨n0, hn0⟩ := h.root
      rw [eS 0 (hliveu 0 n0 hn0) he]
      rcases hold s hs with hp | rfl
      · exact hp
      · rcases prefix_cmp h0v hloc.2.1 with hp | hp
        · exact hp
        · have := hloc.2.2 _ (h.node 0 n0 hn0).br hp
          exact absurd (h.inj 0 v _ _ hn0 hv (prefix_antisymm h0v this)) he

/-- in a leaf -/
theorem TInv.splitLeaf (h : TInv P D ex Pc table pos N str) (hsys : Sys P) {v u : Nat} {nd nd1 : Node} {s0 : Str}
    {b c : Bool} {i0 is il : Nat}
    (ha : AddEv P P' s0 b i0) (hpc : ∀ s q c, s ≠ s0 → Pc s q c → Pc' s q c) (hD : s0.length ≤ D) (hv : N v = some nd) (hpre : str v ++ [c] <+: s0)
    (hno : NoBr P D (str v ++ [c]))
    (hb : ∀ i, ¬ P (s0 ++ [b]) i) (hsfx : LastOcc P s0 is) (hu : N u = none) (hu1 : 1 ≤ u)
    (hlast : Last P (str v ++ [c]) il)
    (hstat : StatOk P' ex Pc' table s0 nd1) (hdepth : nd1.depth = s0.length)
    (hts : nd1.textStart = pos il) (hc1 : nd1.child b = (pos i0 : Int))
    (hc2 : nd1.child (!b) = (pos is : Int)) (hpos : pos il < 2 ^ 31) :
    TInv P' D ex Pc' table pos ((N.put u (some nd1)).put v (some (nd.setChild c (-(u : Int) - 1))))
      (setStr str u s0) := by
  have hnb : ∀ i c, P (s0 ++ [c]) i → c = !b := by
    intro i c hc
    rcases bool_eq_or b c with rfl | rfl
    · exact absurd hc (hb i)
    · rfl
  obtain ⟨⟨c0, hc0⟩, hslast⟩ := hsfx
  obtain rfl := hnb _ _ hc0
  have hbr := ha.br_split hD ⟨is, hc0⟩
  have huv : u ≠ v := by rintro rfl; rw [hv] at hu; simp at hu
  have hs0 : ¬ Br P D s0 := fun hh => hno s0 hh hpre
  have hsne : ∀ x nx, N x = some nx → str x ≠ s0 := by
    intro x nx hx he
    apply hs0
    rw [← he]
    exact (h.node x nx hx).br
  have eNv : (N.put u (some nd1)).put v (some (nd.setChild c (-(u : Int) - 1))) v =
      some (nd.setChild c (-(u : Int) - 1)) := put_self _ _ _
  have eNu : (N.put u (some nd1)).put v (some (nd.setChild c (-(u : Int) - 1))) u = some nd1 := by
    rw [put_ne _ _ huv, put_self]
  have eN : ∀ x, x ≠ u → x ≠ v →
      (N.put u (some nd1)).put v (some (nd.setChild c (-(u : Int) - 1))) x = N x := by
    intro x h1 h2
    rw [put_ne _ _ h2, put_ne _ _ h1]
  have eSu : setStr str u s0 u = s0 := setStr_self _ _ _
  have eS : ∀ x, x ≠ u → setStr str u s0 x = str x := fun x h1 => setStr_ne _ _ h1
  have hliveu : ∀ x nx, N x = some nx → x ≠ u := by
    rintro x nx hx rfl
    rw [hx] at hu; simp at hu
  have hget : ∀ x nx, N x = some nx → ∃ nx',
      (N.put u (some nd1)).put v (some (nd.setChild c (-(u : Int) - 1))) x = some nx' ∧
        nx'.textStart = nx.textStart := by
    intro x nx hx
    by_cases hxv : x = v
    · subst hxv
      rw [hv, Option.some.injEq] at hx
      subst hx
      exact ⟨_, eNv, setChild_text _ _ _⟩
    · exact ⟨nx, by rw [eN x (hliveu x nx hx) hxv, hx], rfl⟩
  have hlen : (str v).length < s0.length := snoc_len hpre
  -- children elsewhere
  have hleast : ∀ x nx d y ny, N x = some nx → N y = some ny → Least P D (str x ++ [d]) (str y) →
      Least P' D (str x ++ [d]) (str y) := by
    intro x nx d y ny hx hy hl
    refine ⟨ha.br_mono hl.1, hl.2.1, ?_⟩
    intro r hr hp
    rcases (hbr r).mp hr with hr | rfl
    · exact hl.2.2 r hr hp
    · -- the new string is below `v`
      rcases Nat.lt_or_ge (str x).length (str v).length with hlt | hge
      · exact (hl.2.2 _ (h.node v nd hv).br (snoc_of_lt hp (prefix_of_snoc hpre) hlt)).trans (prefix_of_snoc hpre)
      · have h1 : str v ++ [c] <+: str x ++ [d] :=
          List.prefix_of_prefix_length_le hpre hp (by simp; omega)
        exact absurd (h1.trans hl.2.1) (hno _ hl.1)
  have hnobr : ∀ x nx d, N x = some nx → ¬ (x = v ∧ d = c) → NoBr P D (str x ++ [d]) →
      NoBr P' D (str x ++ [d]) := by
    intro x nx d hx hne hno' r hr hp
    rcases (hbr r).mp hr with hr | rfl
    · exact hno' r hr hp
    · rcases Nat.lt_trichotomy (str x).length (str v).length with hlt | he | hlt
      · exact hno' _ (h.node v nd hv).br (snoc_of_lt hp (prefix_of_snoc hpre) hlt)
      · have h1 : str x ++ [d] = str v ++ [c] :=
          (List.prefix_of_prefix_length_le hp hpre (by simp; omega)).eq_of_length (by simp [he])
        have h2 := List.append_inj' h1 rfl
        exact hne ⟨h.inj x v _ _ hx hv h2.1, by simpa using h2.2⟩
      · exact hno _ (h.node x nx hx).br (snoc_of_lt hpre (prefix_of_snoc hp) hlt)
  have hch : ∀ x nx d, N x = some nx → ∀ y ny, 1 ≤ y → N y = some ny → Least P D (str x ++ [d]) (str y) →
      ∃ ny', (N.put u (some nd1)).put v (some (nd.setChild c (-(u : Int) - 1))) y = some ny' ∧
        ny'.textStart = ny.textStart ∧ Least P' D (str x ++ [d]) (setStr str u s0 y) := by
    intro x nx d hx y ny _ hy hl
    obtain ⟨ny', k1, k2⟩ := hget y ny hy
    exact ⟨ny', k1, k2, by rw [eS y (hliveu y ny hy)]; exact hleast x nx d y ny hx hy hl⟩
  have hlastx : ∀ x nx d i, N x = some nx → Last P (str x ++ [d]) i → Last P' (str x ++ [d]) i := by
    intro x nx d i hx hi
    rw [ha.last_ne]
    · exact hi
    · intro he; exact hsne x nx hx (List.append_inj' he rfl).1
  refine ⟨?_, ?_, ?_, ?_, ?_⟩
  · obtain ⟨n0, hn0⟩ := h.root
    obtain ⟨n1, hn1, -⟩ := hget 0 n0 hn0
    exact ⟨n1, hn1⟩
  · intro x nx hx
    by_cases hxv : x = v
    · subst hxv
      rw [eNv, Option.some.injEq] at hx
      subst hx
      have hn := h.node x nd hv
      have hxu := hliveu x nd hv
      refine ⟨by rw [eS x hxu]; exact ha.br_mono hn.br, by rw [eS x hxu, setChild_depth]; exact hn.depth,
        by rw [setChild_text]; exact hn.text, ?_, ?_⟩
      · rw [eS x hxu]
        exact (hn.stat.to (fun q hq => (ha.flw_ne (hsne x nd hv) q).mpr hq) (fun q c => hpc _ q c (hsne x nd hv))).setChild _ _
      · intro d
        rw [eS x hxu]
        rcases bool_eq_or c d with rfl | rfl
        · rw [child_setChild]
          refine ⟨il, hlastx x nd d il hv hlast, Or.inr ⟨u, nd1, hu1, eNu, rfl, ?_, hts⟩⟩
          rw [eSu]
          refine ⟨(hbr _).mpr (Or.inr rfl), hpre, ?_⟩
          intro r hr hp
          rcases (hbr r).mp hr with hr | rfl
          · exact absurd hp (hno r hr)
          · exact List.prefix_refl _
        · rw [child_setChild_not]
          refine (hn.child _).transfer (fun i hi => hlastx x nd _ i hv hi) (hnobr x nd _ hv ?_) (hch x nd _ hv)
          rintro ⟨-, hd⟩; cases c <;> simp at hd
    · by_cases hxu : x = u
      · subst hxu
        rw [eNu, Option.some.injEq] at hx
        subst hx
        refine ⟨by rw [eSu]; exact (hbr _).mpr (Or.inr rfl), by rw [eSu, hdepth], by rw [hts]; exact hpos,
          by rw [eSu]; exact hstat, ?_⟩
        have hno1 : ∀ d, NoBr P' D (s0 ++ [d]) := by
          intro d r hr hp
          rcases (hbr r).mp hr with hr | rfl
          · exact hno r hr (hpre.trans (prefix_of_snoc hp))
          · have := snoc_len hp; omega
        intro d
        rw [eSu]
        rcases bool_eq_or b d with rfl | rfl
        · exact ⟨i0, ha.last_new, Or.inl ⟨hno1 _, hc1⟩⟩
        · refine ⟨is, ?_, Or.inl ⟨hno1 _, hc2⟩⟩
          rw [ha.last_ne (not_bit_ne _ _ _)]
          exact ⟨hc0, fun i hi => hslast i ⟨_, hi⟩⟩
      · rw [eN x hxu hxv] at hx
        have hn := h.node x nx hx
        refine ⟨by rw [eS x hxu]; exact ha.br_mono hn.br, by rw [eS x hxu]; exact hn.depth, hn.text, ?_, ?_⟩
        · rw [eS x hxu]
          exact hn.stat.to (fun q hq => (ha.flw_ne (hsne x nx hx) q).mpr hq) (fun q c => hpc _ q c (hsne x nx hx))
        · intro d
          rw [eS x hxu]
          exact (hn.child d).transfer (fun i hi => hlastx x nx d i hx hi) (hnobr x nx d hx (fun hh => hxv hh.1))
            (hch x nx d hx)
  · intro s hs
    rcases (hbr s).mp hs with hs | rfl
    · obtain ⟨x, nx, hx, hxs⟩ := h.full s hs
      obtain ⟨nx', k1, -⟩ := hget x nx hx
      exact ⟨x, nx', k1, by rw [eS x (hliveu x nx hx), hxs]⟩
    · exact ⟨u, nd1, eNu, eSu⟩
  · have hrep : ∀ x nx, (N.put u (some nd1)).put v (some (nd.setChild c (-(u : Int) - 1))) x = some nx →
        (x = u ∧ setStr str u s0 x = s0) ∨ (∃ ny, N x = some ny ∧ setStr str u s0 x = str x) := by
      intro x nx hx
      by_cases hxu : x = u
      · left; subst hxu; exact ⟨rfl, eSu⟩
      · right
        by_cases hxv : x = v
        · subst hxv; exact ⟨nd, hv, eS x hxu⟩
        · rw [eN x hxu hxv] at hx
          exact ⟨nx, hx, eS x hxu⟩
    intro x y nx ny hx hy he
    rcases hrep x nx hx with ⟨rfl, e1⟩ | ⟨nx', hx', e1⟩ <;>
      rcases hrep y ny hy with ⟨rfl, f1⟩ | ⟨ny', hy', f1⟩
    · rfl
    · rw [e1, f1] at he
      exact absurd he.symm (hsne y ny' hy')
    · rw [e1, f1] at he
      exact absurd he (hsne x nx' hx')
    · rw [e1, f1] at he
      exact h.inj x y _ _ hx' hy' he
  · intro s hs
    obtain ⟨n0, hn0⟩ := h.root
    rw [eS 0 (hliveu 0 n0 hn0)]
    rcases (hbr s).mp hs with hs | rfl
    · exact h.rootle s hs
    · exact (h.rootle _ (h.node v nd hv).br).trans (prefix_of_snoc hpre)

end Verif.Tree
