import Verif.History.FatLemmas
import Verif.History.Props

/-!
# C28: the hash map history source equals the reference, whatever the hash function
-/

namespace Verif.History

open Verif Verif.Window

theorem slice_eq {hist : List Bool} {a n : Nat} (h : a + n ≤ hist.length) :
    (hist.drop a).take n = (List.range n).map fun t => hist.getD (a + t) false := by
  apply List.ext_getElem
  · simp; omega
  · intro t h1 h2
    simp only [List.length_map, List.length_range] at h2
    rw [List.getElem_take, List.getElem_drop, List.getElem_map, List.getElem_range,
      List.getD_eq_getElem?_getD, List.getElem?_eq_getElem (by omega)]
    rfl

theorem byte_val {x : Nat} (h : x < 256) :
    x = Bits.val ((List.range 8).map fun t => x.testBit (7 - t)) := by
  have hall : ∀ x < 256, x = Bits.val ((List.range 8).map fun t => x.testBit (7 - t)) := by decide +kernel
  exact hall x h

theorem byte_enc {x j : Nat} (h : x < 256) (hj : j < 8) :
    (256 + x) / 2 ^ (7 - j + 1) = Bits.enc ((List.range j).map fun t => x.testBit (7 - t)) := by
  have hall : ∀ x < 256, ∀ j < 8,
      (256 + x) / 2 ^ (7 - j + 1) = Bits.enc ((List.range j).map fun t => x.testBit (7 - t)) := by decide +kernel
  exact hall x h j hj

/-- the hash of a context, as a function of its bits -/
def keyHash (hash : HashFn) (k j : Nat) (key : List Bool) : Nat :=
  hash (k * 8 + (7 - j)) ((List.range k).map fun m => Bits.val ((key.drop (8 * m)).take 8))
    (Bits.enc (key.drop (8 * k)))

theorem hashBytes_ok {w : Win} {hist : List Bool} {n : Nat} (h : Holds w hist (n + 1)) :
    ∀ d, d ≤ n → fatHashBytes w d = some ((List.range' (n - d) d).map fun a => (contents w).getD a 0) := by
  have hinv := h.inv
  have hsz := h.size
  have hcur : w.cursor = posOf w n := by rw [cursor_eq hinv (by omega), hsz]; rfl
  intro d
  induction d with
  | zero => intro _; rfl
  | succ d ih =>
    intro hd
    have hs := (C26_add_sub hinv (a := n - (d + 1)) (n := d + 1) (by omega)).2.1
    rw [show n - (d + 1) + (d + 1) = n by omega, ← hcur] at hs
    have hp := posOf_lt hinv (show n - (d + 1) < w.size by omega)
    rw [fatHashBytes, hs, ob_some, List.getElem?_eq_getElem hp, ob_some, ih (by omega), ob_some,
      List.range'_succ, List.map_cons, show n - (d + 1) + 1 = n - d by omega]
    congr 2
    rw [List.getD_eq_getElem?_getD, List.getElem?_eq_getElem (by rw [contents_length]; omega),
      Option.getD_some, contents_getElem, List.getD_eq_getElem?_getD, List.getElem?_eq_getElem hp]
    rfl

/-- a source ready for the next bit -/
structure FatReady (hash : HashFn) (P : List Bool → List Bool → Costs → Prop) (table : List Nat) (s : Fat) (hist : List Bool)
    (m maxOrder : Nat) : Prop where
  holds : Holds s.input hist (hist.length / 8 + 1)
  start : s.input.start = 0
  max : s.input.max = m
  order : s.maxOrder = maxOrder
  bit : s.bitIndex = 7 - hist.length % 8
  maps : ∀ k ≤ maxOrder, ∀ j < 8,
    BucketInv P table hist (8 * k + j) (keyHash hash k j) (s.maps (k * 8 + (7 - j)))

/-- a source after a number of bits -/
structure FatInv (hash : HashFn) (P : List Bool → List Bool → Costs → Prop) (table : List Nat) (s : Fat) (hist : List Bool)
    (m maxOrder : Nat) : Prop where
  holds : Holds s.input hist ((hist.length + 7) / 8)
  start : s.input.start = 0
  max : s.input.max = m
  order : s.maxOrder = maxOrder
  bit : s.bitIndex = 7 - hist.length % 8
  maps : ∀ k ≤ maxOrder, ∀ j < 8,
    BucketInv P table hist (8 * k + j) (keyHash hash k j) (s.maps (k * 8 + (7 - j)))

variable {hash : HashFn} {P : List Bool → List Bool → Costs → Prop} {table : List Nat}

theorem fat_new (hash : HashFn) (P : List Bool → List Bool → Costs → Prop) (table : List Nat) {m : Nat} (maxOrder : Nat) (h0 : 0 < m)
    (hm : m < 2 ^ 63) : ∃ s, fatNew m maxOrder = some s ∧ FatInv hash P table s [] m maxOrder := by
  obtain ⟨w, e, h, hmax, hst⟩ := Holds.new hm h0
  unfold fatNew
  rw [e, ob_some]
  exact ⟨_, rfl, h, hst, hmax, rfl, rfl, fun k _ j _ => BucketInv.nil _ _ _ _⟩

theorem fat_ready (luts : Luts) {s : Fat} {hist : List Bool} {m maxOrder : Nat}
    (h : FatInv hash P table s hist m maxOrder) (hn : hist.length / 8 < m) :
    ∃ s', ready (fatSource hash luts) hist.length s = some s' ∧ FatReady hash P table s' hist m maxOrder := by
  unfold ready
  have hb := h.bit
  have hh := h.holds
  by_cases hj : hist.length % 8 = 0
  · rw [if_pos hj]
    rw [show (hist.length + 7) / 8 = hist.length / 8 by omega] at hh
    obtain ⟨w', e, h', hmax, hst, -⟩ := hh.advance (by rw [h.max]; exact hn)
    change ∃ s', fatStart s = some s' ∧ _
    unfold fatStart
    rw [check_pos (by omega), ob_some, check_pos (by rw [h.max, hh.size]; omega), ob_some, e, ob_some]
    refine ⟨_, rfl, h', ?_, ?_, h.order, hb, h.maps⟩
    · dsimp only; rw [hst]; exact h.start
    · dsimp only; rw [hmax]; exact h.max
  · rw [if_neg hj]
    rw [show (hist.length + 7) / 8 = hist.length / 8 + 1 by omega] at hh
    exact ⟨s, rfl, hh, h.start, h.max, h.order, hb, h.maps⟩

/-- the context of order `k` as a substring -/
theorem context_sub {hist : List Bool} {n j k : Nat} (hl : hist.length = 8 * n + j) (hj : j < 8) (hk : k ≤ n) :
    context hist k = sub hist (8 * k + j) (n - k) := by
  unfold context sub ctxLen
  rw [List.take_of_length_le (by rw [List.length_drop]; omega)]
  congr 1; omega

theorem occs_cls {hist : List Bool} {n j k : Nat} (hl : hist.length = 8 * n + j) (hj : j < 8) (hk : k ≤ n) :
    occs hist k = cls hist (8 * k + j) (sub hist (8 * k + j) (n - k)) ∧
    following hist k = clsBits hist (8 * k + j) (sub hist (8 * k + j) (n - k)) := by
  have e : occs hist k = cls hist (8 * k + j) (sub hist (8 * k + j) (n - k)) := by
    unfold occs cls
    rw [context_sub hl hj hk, show ctxLen hist k = 8 * k + j by unfold ctxLen; omega]
    have : hist.length / 8 - k = posCount hist.length (8 * k + j) := by unfold posCount; omega
    rw [this]
    rfl
  refine ⟨e, ?_⟩
  unfold following clsBits
  rw [e]
  apply List.map_congr_left
  intro i _
  unfold nextBit
  rw [show ctxLen hist k = 8 * k + j by unfold ctxLen; omega]

/-- the hash computed for the current context -/
theorem fatHash_ok {s : Fat} {hist : List Bool} {n j k : Nat} (h : Holds s.input hist (n + 1))
    (hl : hist.length = 8 * n + j) (hj : j < 8) (hb : s.bitIndex = 7 - j) (hk : k ≤ n) (hkm : k ≤ s.maxOrder) :
    fatMapIndex s k = some (k * 8 + (7 - j)) ∧
    fatHash hash s k = some (keyHash hash k j (sub hist (8 * k + j) (n - k))) := by
  have hinv := h.inv
  have hsz := h.size
  have hcur : s.input.cursor = posOf s.input n := by rw [cursor_eq hinv (by omega), hsz]; rfl
  have e1 : fatMapIndex s k = some (k * 8 + (7 - j)) := by
    unfold fatMapIndex
    rw [check_pos (by rw [hb]; omega), ob_some, hb]
  refine ⟨e1, ?_⟩
  have hp := posOf_lt hinv (show n < s.input.size by omega)
  have hx : s.input.buffer[s.input.cursor]? = some ((contents s.input).getD n 0) := by
    rw [hcur, List.getElem?_eq_getElem hp, List.getD_eq_getElem?_getD,
      List.getElem?_eq_getElem (by rw [contents_length]; omega), Option.getD_some, contents_getElem,
      List.getD_eq_getElem?_getD, List.getElem?_eq_getElem hp]
    rfl
  have hx256 := contents_bytes hinv n
  unfold fatHash
  rw [e1, ob_some, hashBytes_ok h k hk, ob_some, hx, ob_some, u16_eq (by omega), ob_some,
    check_pos (by omega), ob_some, hb]
  unfold keyHash
  congr 2
  · -- the full bytes
    apply List.ext_getElem
    · simp
    · intro i h1 h2
      simp only [List.length_map, List.length_range'] at h1
      rw [List.getElem_map, List.getElem_map, List.getElem_range', List.getElem_range, Nat.one_mul,
        byte_val (contents_bytes hinv (n - k + i))]
      congr 1
      unfold sub
      rw [List.drop_take, List.take_take, List.drop_drop, show min 8 (8 * k + j - 8 * i) = 8 by omega,
        slice_eq (by omega)]
      apply List.map_congr_left
      intro t ht
      rw [List.mem_range] at ht
      rw [← bitAt_byte _ _ _ ht, h.bits _ (by omega)]
      congr 1; omega
  · rw [byte_enc hx256 hj]
    congr 1
    unfold sub
    rw [List.drop_take, List.drop_drop, show 8 * k + j - 8 * k = j by omega, slice_eq (by omega)]
    apply List.map_congr_left
    intro t ht
    rw [List.mem_range] at ht
    rw [← bitAt_byte _ _ _ (by omega), h.bits _ (by omega)]
    congr 1; omega

/-- searching a bucket -/
theorem fatFind_ok {w : Win} {hist : List Bool} {n j k : Nat} (h : Holds w hist (n + 1))
    (hst : w.start = 0)
    (hl : hist.length = 8 * n + j) (hj : j < 8) (hk : k ≤ n) : ∀ bucket : List CtxState,
    (∀ x ∈ bucket, 8 * x.dist + (8 * k + j) < hist.length) →
    (∃ pre x post, fatFind w (posOf w (n - k)) (7 - j) k bucket = some (some (pre, x, post)) ∧
      bucket = pre ++ x :: post ∧ sub hist (8 * k + j) x.dist = sub hist (8 * k + j) (n - k)) ∨
    (fatFind w (posOf w (n - k)) (7 - j) k bucket = some none ∧
      ∀ x ∈ bucket, sub hist (8 * k + j) x.dist ≠ sub hist (8 * k + j) (n - k)) := by
  have hinv := h.inv
  have hsz := h.size
  intro bucket
  induction bucket with
  | nil => intro _; right; exact ⟨rfl, by simp⟩
  | cons x bucket ih =>
    intro hall
    have hx := hall x (by simp)
    have hpos : posOf w x.dist = x.dist := posOf_zero hinv hst (by omega)
    have hm := (match_ok h hl hj (k := k) (i := x.dist) (by omega)).2
    rw [hpos, (occs_cls hl hj hk).1] at hm
    rw [fatFind, hm, ob_some]
    by_cases he : sub hist (8 * k + j) x.dist = sub hist (8 * k + j) (n - k)
    · left
      rw [if_pos (by rw [decide_eq_true_eq, mem_cls]; exact ⟨hx, he⟩)]
      exact ⟨[], x, bucket, rfl, rfl, he⟩
    · rw [if_neg (by rw [decide_eq_true_eq, mem_cls]; exact fun hh => he hh.2)]
      rcases ih (fun y hy => hall y (by simp [hy])) with ⟨pre, y, post, e1, e2, e3⟩ | ⟨e1, e2⟩
      · left
        rw [e1, ob_some]
        exact ⟨x :: pre, y, post, rfl, by rw [e2]; rfl, e3⟩
      · right
        rw [e1, ob_some]
        refine ⟨rfl, ?_⟩
        intro y hy
        rcases List.mem_cons.mp hy with rfl | hy
        · exact he
        · exact e2 y hy

theorem specState_ne_nil {d : Nat} {bits : List Bool} {c : Costs} {s : CtxState}
    (hs : specState table d bits c = some s) : bits ≠ [] := by
  rintro rfl
  unfold specState at hs
  rw [if_pos rfl] at hs
  simp at hs

/-- the gathered list -/
theorem fat_orders {s : Fat} {hist : List Bool} {m maxOrder : Nat}
    (h : FatReady hash P table s hist m maxOrder) : ∀ (n k : Nat),
    k + n = min maxOrder (hist.length / 8) + 1 →
    ∃ states, fatOrders hash s (List.range' k n) = some states ∧
      List.Forall₂ (fun k s => ∃ c, P (context hist k) (following hist k) c ∧
          specState table (lastDist hist k) (following hist k) c = some s)
        ((List.range' k n).filter fun k => occs hist k ≠ []) states := by
  have hinv := h.holds.inv
  have hsz := h.holds.size
  have hcur : s.input.cursor = posOf s.input (hist.length / 8) := by
    rw [cursor_eq hinv (by omega), hsz]; rfl
  have hcur0 : s.input.cursor = hist.length / 8 := by rw [hcur, posOf_zero hinv h.start (by omega)]
  have hl : hist.length = 8 * (hist.length / 8) + hist.length % 8 := by omega
  have hj : hist.length % 8 < 8 := by omega
  intro n
  induction n with
  | zero => intro k _; exact ⟨[], rfl, List.Forall₂.nil⟩
  | succ n ih =>
    intro k hkn
    have hk : k ≤ hist.length / 8 := by omega
    have hkm : k ≤ maxOrder := by omega
    have hsub : indexSubtract s.input s.input.cursor k = some (posOf s.input (hist.length / 8 - k)) := by
      have := (C26_add_sub hinv (a := hist.length / 8 - k) (n := k) (by omega)).2.1
      rwa [show hist.length / 8 - k + k = hist.length / 8 by omega, ← hcur] at this
    obtain ⟨e1, e2⟩ := fatHash_ok (hash := hash) h.holds hl hj h.bit hk (by rw [h.order]; exact hkm)
    have hB := h.maps k hkm _ hj
    obtain ⟨ho, hfo⟩ := occs_cls hl hj hk
    rw [List.range'_succ, fatOrders, e1, ob_some, e2, ob_some, hsub, ob_some, h.bit]
    have hB2 := hB.item (keyHash hash k (hist.length % 8)
      (sub hist (8 * k + hist.length % 8) (hist.length / 8 - k)))
    rcases fatFind_ok h.holds h.start hl hj hk (s.maps (k * 8 + (7 - hist.length % 8))
      (keyHash hash k (hist.length % 8) (sub hist (8 * k + hist.length % 8) (hist.length / 8 - k))))
      (fun x hx => (hB2 x hx).1) with ⟨pre, x, post, f1, f2, f3⟩ | ⟨f1, f2⟩
    · obtain ⟨i1, i2, i3, c, hc, i4⟩ := hB2 x (by rw [f2]; simp)
      rw [f3, ← ho] at i3
      rw [f3, ← hfo] at i4
      rw [f3, ← hfo, ← context_sub hl hj hk] at hc
      have hd : lastDist hist k = hist.length / 8 - k - x.dist := by unfold lastDist; rw [i3]
      have hne : occs hist k ≠ [] := by
        intro he
        have := specState_ne_nil i4
        unfold following at this
        rw [he] at this
        exact this rfl
      obtain ⟨rest, r1, r2⟩ := ih (k + 1) (by omega)
      refine ⟨x.setDist (hist.length / 8 - k - x.dist) :: rest, ?_, ?_⟩
      · rw [f1, ob_some]
        dsimp only
        rw [hcur0, subU_eq hk, ob_some, subU_eq (by omega), ob_some, r1, ob_some]
      · rw [List.filter_cons_of_pos (by simpa using hne)]
        refine List.Forall₂.cons ⟨c, hc, ?_⟩ r2
        rw [hd]
        exact specState_setDist i4
    · have he : occs hist k = [] := by
        rw [ho]
        apply List.eq_nil_iff_forall_not_mem.mpr
        intro i hi
        rw [mem_cls] at hi
        obtain ⟨x, hx, ex⟩ := hB.full i hi.1
        rw [hi.2] at hx ex
        exact f2 x hx ex
      refine ⟨[], by rw [f1, ob_some], ?_⟩
      have hall : (k :: List.range' (k + 1) n).filter (fun k => decide (occs hist k ≠ [])) = [] := by
        rw [List.filter_eq_nil_iff]
        intro k' hk'
        have : k ≤ k' := by
          rcases List.mem_cons.mp hk' with rfl | hk'
          · omega
          · have := (List.mem_range'_1.mp hk').1; omega
        simp [occs_empty_le this he]
      rw [hall]
      exact List.Forall₂.nil

theorem fat_gather {s : Fat} {hist : List Bool} {m maxOrder : Nat}
    (h : FatReady hash P table s hist m maxOrder) :
    ∃ states, fatGather hash s = some states ∧ GatherOk P table maxOrder hist states := by
  have hinv := h.holds.inv
  have hsz := h.holds.size
  have hcur0 : s.input.cursor = hist.length / 8 := by
    rw [cursor_eq hinv (by omega), hsz, posOf_zero hinv h.start (by omega)]; rfl
  obtain ⟨states, e, hst⟩ := fat_orders h (min maxOrder (hist.length / 8) + 1) 0 (by omega)
  refine ⟨states, ?_, ?_⟩
  · unfold fatGather
    rw [hcur0, h.order, List.range_eq_range', e]
  · unfold GatherOk orders
    rw [← List.range_eq_range'] at hst
    have hsplit : (List.range (maxOrder + 1)).filter (fun k => decide (occs hist k ≠ [])) =
        (List.range (min maxOrder (hist.length / 8) + 1)).filter (fun k => decide (occs hist k ≠ [])) := by
      have hr : List.range (maxOrder + 1) = List.range (min maxOrder (hist.length / 8) + 1) ++
          List.range' (min maxOrder (hist.length / 8) + 1) (maxOrder - min maxOrder (hist.length / 8)) := by
        have := List.range'_append_1 (s := 0) (m := min maxOrder (hist.length / 8) + 1)
          (n := maxOrder - min maxOrder (hist.length / 8))
        rw [Nat.zero_add] at this
        rw [List.range_eq_range', List.range_eq_range', this]
        congr 1; omega
      rw [hr, List.filter_append]
      have hz : (List.range' (min maxOrder (hist.length / 8) + 1)
          (maxOrder - min maxOrder (hist.length / 8))).filter (fun k => decide (occs hist k ≠ [])) = [] := by
        rw [List.filter_eq_nil_iff]
        intro k hk
        have hk' := List.mem_range'_1.mp hk
        have : ¬ occs hist k ≠ [] := by
          intro ho
          have := occs_lt ho
          omega
        simpa using this
      rw [hz, List.append_nil]
    rw [hsplit]
    exact hst

/-- one more bit after a run -/
theorem leadRun_snoc {q : List Bool} (h : leadRun q = q.length) (b : Bool) :
    (q ++ [b]).length ≤ leadRun (q ++ [b]) + 1 := by
  unfold leadRun at *
  cases q with
  | nil => simp
  | cons a q =>
    have hq := leadRun_full h
    rw [hq]
    by_cases hb : b = a
    · subst hb
      rw [← List.replicate_succ', headRun_replicate]
      simp
    · rw [headRun_replicate_append (by simp) hb]
      simp

theorem fresh_snoc {d : Nat} {bits : List Bool} {c : Costs} {s : CtxState} (h : specState table d bits c = some s)
    (hn : ¬ s.isNode = true) (b : Bool) : (bits ++ [b]).length ≤ leadRun (bits ++ [b]) + 1 := by
  apply leadRun_snoc
  by_contra h2
  unfold specState at h
  rw [if_neg (specState_ne_nil h), if_neg h2] at h
  obtain ⟨e, he⟩ := replay_some (capRun bits)
  rw [he, ob_some] at h
  cases ht : Log2.costForNewNode table (min (leadRun bits) 1000) with
  | none => rw [ht, ob_none] at h; simp at h
  | some t =>
    rw [ht, ob_some, Option.some.injEq] at h
    rw [← h] at hn
    exact hn rfl

/-- one order of an update -/
theorem fat_processOne {luts : Luts} (hL : LutsOk luts) (ht : luts.costs = table) {s : Fat} {hist : List Bool}
    {k : Nat}
    (hholds : Holds s.input hist (hist.length / 8 + 1)) (hst : s.input.start = 0)
    (hbit : s.bitIndex = 7 - hist.length % 8) (hk : k ≤ hist.length / 8) (hkm : k ≤ s.maxOrder)
    (hB : BucketInv P table hist (8 * k + hist.length % 8) (keyHash hash k (hist.length % 8))
      (s.maps (k * 8 + (7 - hist.length % 8))))
    (b : Bool) {costs : List Costs} (hlen : k < costs.length ↔ Branching hist k) (hP : Supplied P hist b costs)
    (hP0 : Fresh P) :
    ∃ maps', fatProcessOne hash luts b costs s k = some { s with maps := maps' } ∧
      BucketInv P table (hist ++ [b]) (8 * k + hist.length % 8) (keyHash hash k (hist.length % 8))
        (maps' (k * 8 + (7 - hist.length % 8))) ∧
      ∀ m', m' ≠ k * 8 + (7 - hist.length % 8) → maps' m' = s.maps m' := by
  have hinv := hholds.inv
  have hsz := hholds.size
  have hcur : s.input.cursor = posOf s.input (hist.length / 8) := by
    rw [cursor_eq hinv (by omega), hsz]; rfl
  have hl : hist.length = 8 * (hist.length / 8) + hist.length % 8 := by omega
  have hj : hist.length % 8 < 8 := by omega
  have hsub : indexSubtract s.input s.input.cursor k = some (posOf s.input (hist.length / 8 - k)) := by
    have := (C26_add_sub hinv (a := hist.length / 8 - k) (n := k) (by omega)).2.1
    rwa [show hist.length / 8 - k + k = hist.length / 8 by omega, ← hcur] at this
  have hpos : posOf s.input (hist.length / 8 - k) = hist.length / 8 - k := posOf_zero hinv hst (by omega)
  obtain ⟨e1, e2⟩ := fatHash_ok (hash := hash) hholds hl hj hbit hk hkm
  obtain ⟨ho, hfo⟩ := occs_cls hl hj hk
  have hp : 8 * (hist.length / 8 - k) + (8 * k + hist.length % 8) = hist.length := by omega
  have hset : ∀ v h', setBucket s.maps (k * 8 + (7 - hist.length % 8)) h' v (k * 8 + (7 - hist.length % 8)) =
      setOne (s.maps (k * 8 + (7 - hist.length % 8))) h' v := by
    intro v h'
    funext x
    unfold setBucket setOne
    simp
  have hset' : ∀ v h' m', m' ≠ k * 8 + (7 - hist.length % 8) →
      setBucket s.maps (k * 8 + (7 - hist.length % 8)) h' v m' = s.maps m' := by
    intro v h' m' hm
    funext x
    unfold setBucket
    rw [if_neg (fun hh => hm hh.1)]
  unfold fatProcessOne
  rw [e2, ob_some, e1, ob_some, hsub, ob_some, hbit]
  have hB2 := hB.item (keyHash hash k (hist.length % 8)
    (sub hist (8 * k + hist.length % 8) (hist.length / 8 - k)))
  rcases fatFind_ok hholds hst hl hj hk (s.maps (k * 8 + (7 - hist.length % 8))
    (keyHash hash k (hist.length % 8) (sub hist (8 * k + hist.length % 8) (hist.length / 8 - k))))
    (fun x hx => (hB2 x hx).1) with ⟨pre, x, post, f1, f2, f3⟩ | ⟨f1, f2⟩
  · obtain ⟨i1, i2, i3, c, hc, i4⟩ := hB2 x (by rw [f2]; simp)
    rw [f3] at i4
    have hnode := specState_isNode i4
    rw [← hfo] at hnode
    have hbits := specState_ne_nil i4
    -- the cost trackers passed
    obtain ⟨c', hc', hcosts⟩ : ∃ c', P (context hist k) (following hist k ++ [b]) c' ∧
        fatCosts x k costs = some (if x.isNode then some c' else none) := by
      unfold fatCosts
      by_cases hn : x.isNode = true
      · have hlt : k < costs.length := hlen.mpr (hnode.mp hn)
        refine ⟨costs[k], hP _ _ (List.getElem?_eq_getElem hlt), ?_⟩
        rw [if_pos hn, if_pos hn, List.getElem?_eq_getElem hlt, ob_some]
      · obtain ⟨c0, hc0⟩ := hP0 (context hist k) (following hist k ++ [b]) (by
          rw [hfo]; exact fresh_snoc i4 hn b)
        refine ⟨c0, hc0, ?_⟩
        rw [if_neg hn, if_neg hn, check_pos (Nat.not_lt.mp (fun hh => hn (hnode.mpr (hlen.mp hh)))), ob_some]
    obtain ⟨b0, l, hbl⟩ := List.exists_cons_of_ne_nil hbits
    rw [hbl] at i4
    obtain ⟨t, t', ht1, -, ht2, ht3⟩ := specState_snoc hL x.dist b0 l c (hist.length / 8 - k) b c'
    rw [ht, i4, Option.some.injEq] at ht1
    subst ht1
    rw [f1, ob_some]
    dsimp only
    rw [hcosts, ob_some, hpos, ht2, ob_some]
    refine ⟨_, rfl, ?_, hset' _ _⟩
    rw [hset]
    refine hB.update b hp f2 f3 (by rw [← hfo, ← context_sub hl hj hk]; exact hc') ?_
    rw [hbl, ← ht]
    exact ht3
  · rw [f1, ob_some]
    dsimp only
    have hnb : ¬ k < costs.length := by
      rw [hlen]
      intro hbr
      obtain ⟨i, hi⟩ := List.exists_mem_of_ne_nil _ (branching_occs hbr)
      rw [ho, mem_cls] at hi
      obtain ⟨x, hx, ex⟩ := hB.full i hi.1
      rw [hi.2] at hx ex
      exact f2 x hx ex
    rw [check_pos (Nat.not_lt.mp hnb), ob_some]
    refine ⟨_, rfl, ?_, hset' _ _⟩
    rw [hset, hpos]
    exact hB.insert b hp f2 hP0

/-- all orders of an update -/
theorem fat_processOrders {luts : Luts} (hL : LutsOk luts) (ht : luts.costs = table) {hist : List Bool}
    {maxOrder : Nat} (b : Bool) {costs : List Costs}
    (hlen : ∀ k, k < costs.length ↔ k ≤ maxOrder ∧ Branching hist k)
    (hP : Supplied P hist b costs) (hP0 : Fresh P) : ∀ (n k : Nat) (s : Fat),
    k + n ≤ min maxOrder (hist.length / 8) + 1 →
    Holds s.input hist (hist.length / 8 + 1) → s.input.start = 0 → s.bitIndex = 7 - hist.length % 8 →
    s.maxOrder = maxOrder →
    (∀ k' ≤ maxOrder, BucketInv P table (if k' < k then hist ++ [b] else hist) (8 * k' + hist.length % 8)
      (keyHash hash k' (hist.length % 8)) (s.maps (k' * 8 + (7 - hist.length % 8)))) →
    ∃ maps', fatProcessOrders hash luts b costs (List.range' k n) s = some { s with maps := maps' } ∧
      (∀ k' ≤ maxOrder, BucketInv P table (if k' < k + n then hist ++ [b] else hist)
        (8 * k' + hist.length % 8) (keyHash hash k' (hist.length % 8))
        (maps' (k' * 8 + (7 - hist.length % 8)))) ∧
      ∀ m', (∀ k', m' ≠ k' * 8 + (7 - hist.length % 8)) → maps' m' = s.maps m' := by
  intro n
  induction n with
  | zero => intro k s _ _ _ _ _ hm; exact ⟨s.maps, rfl, hm, fun _ _ => rfl⟩
  | succ n ih =>
    intro k s hkn h1 h2 h3 h4 hm
    have hB := hm k (by omega)
    rw [if_neg (by omega)] at hB
    obtain ⟨maps1, e1, b1, o1⟩ := fat_processOne hL ht h1 h2 h3 (by omega) (by omega) hB b
      ((hlen k).trans ⟨fun h => h.2, fun h => ⟨by omega, h⟩⟩) hP hP0
    obtain ⟨maps2, e2, b2, o2⟩ := ih (k + 1) { s with maps := maps1 } (by omega) h1 h2 h3 h4 (by
      intro k' hk'
      dsimp only
      by_cases hkk : k' = k
      · subst hkk
        rw [if_pos (by omega)]; exact b1
      · rw [o1 _ (by omega)]
        have := hm k' hk'
        by_cases hlt : k' < k
        · rw [if_pos hlt] at this
          rw [if_pos (by omega)]; exact this
        · rw [if_neg hlt] at this
          rw [if_neg (by omega)]; exact this)
    refine ⟨maps2, ?_, ?_, ?_⟩
    · rw [List.range'_succ, fatProcessOrders, e1, ob_some, e2]
    · rw [show k + (n + 1) = k + 1 + n by omega]; exact b2
    · intro m' hm'
      rw [o2 m' hm']
      exact o1 m' (hm' k)

theorem fat_process {luts : Luts} (hL : LutsOk luts) (ht : luts.costs = table) {s : Fat} {hist : List Bool}
    {m maxOrder : Nat} (h : FatReady hash P table s hist m maxOrder) (b : Bool) {costs : List Costs}
    (hlen : ∀ k, k < costs.length ↔ k ≤ maxOrder ∧ Branching hist k)
    (hP : Supplied P hist b costs) (hP0 : Fresh P) :
    ∃ s', fatProcess hash luts s b costs = some s' ∧ FatInv hash P table s' (hist ++ [b]) m maxOrder := by
  have hinv := h.holds.inv
  have hsz := h.holds.size
  have hcur0 : s.input.cursor = hist.length / 8 := by
    rw [cursor_eq hinv (by omega), hsz, posOf_zero hinv h.start (by omega)]; rfl
  have hj : hist.length % 8 < 8 := by omega
  obtain ⟨maps', e1, b1, o1⟩ := fat_processOrders hL ht b hlen hP hP0
    (min maxOrder (hist.length / 8) + 1) 0 s (by omega) h.holds h.start h.bit h.order (by
      intro k' hk'
      rw [if_neg (by omega)]
      exact h.maps k' hk' _ hj)
  obtain ⟨w', e, h', hmax, hst⟩ := h.holds.setBit (j := hist.length % 8) (by omega) (by omega) b
  unfold fatProcess
  rw [hcur0, h.order, List.range_eq_range', e1, ob_some, h.bit, e, ob_some]
  refine ⟨_, rfl, ?_, ?_, ?_, h.order, ?_, ?_⟩
  · rw [List.length_append, List.length_singleton, show (hist.length + 1 + 7) / 8 = hist.length / 8 + 1 by omega]
    exact h'
  · dsimp only; rw [hst]; exact h.start
  · dsimp only; rw [hmax]; exact h.max
  · dsimp only
    rw [List.length_append, List.length_singleton]
    split <;> omega
  · intro k hk j hj'
    dsimp only
    by_cases hjj : j = hist.length % 8
    · have := b1 k hk
      subst hjj
      by_cases hlt : k < 0 + (min maxOrder (hist.length / 8) + 1)
      · rw [if_pos hlt] at this; exact this
      · rw [if_neg hlt] at this
        exact this.other b (fun p => by omega)
    · rw [o1 _ (fun k' => by omega)]
      exact (h.maps k hk j hj').other b (fun p => by omega)

/-- feeding bits to the hash map source -/
theorem fat_feed {luts : Luts} (hL : LutsOk luts) (ht : luts.costs = table) {m maxOrder : Nat}
    {upd : List CtxState → Bool → List Costs} (hP0 : Fresh P)
    (hu : ∀ l b, (upd l b).length = (l.filter CtxState.isNode).length)
    (hS : ∀ hist l b, Supplied P hist b (upd l b)) (bits : List Bool) :
    ∀ (s : Fat) (hist : List Bool), FatInv hash P table s hist m maxOrder →
    (hist.length + bits.length) ≤ 8 * m →
    ∃ s', feed (fatSource hash luts) upd hist.length s bits = some s' ∧
      FatInv hash P table s' (hist ++ bits) m maxOrder := by
  induction bits with
  | nil => intro s hist h _; exact ⟨s, rfl, by rw [List.append_nil]; exact h⟩
  | cons b bits ih =>
    intro s hist h hlen
    rw [List.length_cons] at hlen
    obtain ⟨s1, e1, h1⟩ := fat_ready luts h (by omega)
    obtain ⟨states, e2, hst⟩ := fat_gather h1
    have hst' := hst
    rw [← ht] at hst'
    obtain ⟨s2, e3, h2⟩ := fat_process hL ht h1 b (costs := upd states b)
      (fun k => by rw [hu]; exact hst'.costs_line_up hL k) (hS _ _ _) hP0
    obtain ⟨s3, e4, h3⟩ := ih s2 (hist ++ [b]) h2 (by simp; omega)
    refine ⟨s3, ?_, by rw [List.append_assoc] at h3; exact h3⟩
    rw [feed, e1, ob_some]
    change (fatGather hash s1 >>= _) = _
    rw [e2, ob_some]
    change (fatProcess hash luts s1 b (upd states b) >>= _) = _
    rw [e3, ob_some]
    rw [List.length_append, List.length_singleton] at e4
    exact e4

theorem fat_observe {luts : Luts} (hL : LutsOk luts) (m maxOrder : Nat) (hm : m < 2 ^ 63) (hist : List Bool)
    (hlen : hist.length < 8 * m) {upd : List CtxState → Bool → List Costs} (hP0 : Fresh P)
    (hu : ∀ l b, (upd l b).length = (l.filter CtxState.isNode).length)
    (hS : ∀ hist l b, Supplied P hist b (upd l b)) :
    ∃ states, observe (fatSource hash luts) upd (fatNew m maxOrder) hist = some states ∧
      GatherOk P luts.costs maxOrder hist states := by
  obtain ⟨s0, e0, h0⟩ := fat_new hash P luts.costs (m := m) maxOrder (by omega) hm
  obtain ⟨s1, e1, h1⟩ := fat_feed hL rfl hP0 hu hS hist s0 [] h0 (by simp; omega)
  rw [List.nil_append] at h1
  obtain ⟨s2, e2, h2⟩ := fat_ready luts h1 (by omega)
  obtain ⟨states, e3, hst⟩ := fat_gather h2
  refine ⟨states, ?_, hst⟩
  unfold observe
  rw [List.length_nil] at e1
  rw [e0, ob_some, e1, ob_some, e2, ob_some]
  exact e3

/-- states with the same replay differ only in cost trackers -/
theorem neutral_eq {d : Nat} {bits : List Bool} {c c' : Costs} {s s' : CtxState}
    (h : specState table d bits c = some s) (h' : specState table d bits c' = some s') :
    s.neutralize = s'.neutralize := by
  unfold specState at h h'
  by_cases h1 : bits = []
  · rw [if_pos h1] at h; simp at h
  · rw [if_neg h1] at h h'
    by_cases h2 : leadRun bits = bits.length
    · rw [if_pos h2, Option.some.injEq] at h h'
      rw [← h, ← h']
    · rw [if_neg h2] at h h'
      obtain ⟨e, he⟩ := replay_some (capRun bits)
      rw [he, ob_some] at h h'
      cases ht : Log2.costForNewNode table (min (leadRun bits) 1000) with
      | none => rw [ht, ob_none] at h; simp at h
      | some t =>
        rw [ht, ob_some, Option.some.injEq] at h h'
        rw [← h, ← h']
        rfl

theorem neutral_map {P' : List Bool → List Bool → Costs → Prop} {maxOrder : Nat} {hist : List Bool} {l l' : List CtxState}
    (h : GatherOk P table maxOrder hist l) (h' : GatherOk P' table maxOrder hist l') :
    l.map CtxState.neutralize = l'.map CtxState.neutralize := by
  unfold GatherOk at h h'
  generalize orders hist maxOrder = ks at h h'
  induction h generalizing l' with
  | nil => cases h'; rfl
  | cons a _ ih =>
    cases h' with
    | cons a' h2 =>
      obtain ⟨c, -, hc⟩ := a
      obtain ⟨c', -, hc'⟩ := a'
      rw [List.map_cons, List.map_cons, neutral_eq hc hc', ih h2]

/-- **C28.** For every hash function, window size, maximal order, input that fits in the window and every
way of updating the cost trackers (one per branching context), at every bit the hash map source does not
panic and reports the same states as the naive source, up to cost trackers. -/
theorem C28_fat_map (luts : Luts) (h : LutsOk luts) (hash : HashFn) (m maxOrder : Nat) (hm : m < 2 ^ 63)
    (hist : List Bool) (hlen : hist.length < 8 * m) (upd : List CtxState → Bool → List Costs)
    (hu : ∀ l b, (upd l b).length = (l.filter CtxState.isNode).length) :
    ∃ fat naive, observe (fatSource hash luts) upd (fatNew m maxOrder) hist = some fat ∧
      observe (naiveSource luts) (fun _ _ => []) (naiveNew m maxOrder) hist = some naive ∧
      fat.map CtxState.neutralize = naive.map CtxState.neutralize := by
  obtain ⟨naive, n1, n2⟩ := C27_naive luts h m maxOrder hm hist hlen (fun _ _ => []) (by simp)
  obtain ⟨fat, f1, f2⟩ := fat_observe (P := fun _ _ _ => True) (hash := hash) h m maxOrder hm hist hlen (upd := upd)
    (fun _ _ _ => ⟨costsDefault, trivial⟩) hu (fun _ _ _ _ _ _ => trivial)
  refine ⟨fat, naive, f1, n1, ?_⟩
  exact neutral_map f2 (gatherOk_of_spec n2)

/-- **C28 (exact).** With default cost trackers, as the naive source requires, the states are equal. -/
theorem C28_fat_map_exact (luts : Luts) (h : LutsOk luts) (hash : HashFn) (m maxOrder : Nat) (hm : m < 2 ^ 63)
    (hist : List Bool) (hlen : hist.length < 8 * m) (upd : List CtxState → Bool → List Costs)
    (hu : ∀ l b, (upd l b).length = (l.filter CtxState.isNode).length ∧ ∀ c ∈ upd l b, c = costsDefault) :
    ∃ states, observe (fatSource hash luts) upd (fatNew m maxOrder) hist = some states ∧
      observe (naiveSource luts) upd (naiveNew m maxOrder) hist = some states := by
  obtain ⟨naive, n1, n2⟩ := C27_naive luts h m maxOrder hm hist hlen upd (fun l b => (hu l b).2)
  obtain ⟨fat, f1, f2⟩ := fat_observe (P := fun _ _ c => c = costsDefault) (hash := hash) h m maxOrder hm hist hlen
    (upd := upd) (fun _ _ _ => ⟨costsDefault, rfl⟩) (fun l b => (hu l b).1)
    (fun _ l b _ c hc => (hu l b).2 c (List.mem_of_getElem? hc))
  have := spec_of_gatherOk f2
  rw [n2, Option.some.injEq] at this
  exact ⟨fat, f1, by rw [n1, this]⟩

/-- the hypotheses are met, for example, by the constant hash function, for which every context collides -/
example : ∃ luts, LutsOk luts ∧ ∃ states,
    observe (fatSource (fun _ _ _ => 0) luts) (fun l _ => List.replicate (l.filter CtxState.isNode).length
      costsDefault) (fatNew 4 2) [true, false, true, true, false, false, true, false, true, false] = some states := by
  obtain ⟨luts, h⟩ := luts_exist
  obtain ⟨states, h1, -⟩ := C28_fat_map_exact luts h (fun _ _ _ => 0) 4 2 (by norm_num)
    [true, false, true, true, false, false, true, false, true, false] (by simp)
    (fun l _ => List.replicate (l.filter CtxState.isNode).length costsDefault)
    (fun l b => ⟨by simp, fun c hc => (List.mem_replicate.mp hc).2⟩)
  exact ⟨luts, h, states, h1⟩

end Verif.History
