import Verif.Util.Model
import Verif.Bits
import Mathlib.Data.Nat.ModEq
import Mathlib.Algebra.BigOperators.Group.List.Basic
import Mathlib.Algebra.Order.Ring.Nat

/-!
# C20 to C23: quantizer, indexer, last bytes cache, hashes
-/

namespace Verif.Util

open Verif Verif.Bits

/-! ## C20: quantizer -/

/-- smallest count that belongs to bucket `k`: 0, 1, 2, 3, 4, 6, 8, 12, 16, 24, ... -/
def bucketStart (k : Nat) : Nat :=
  if k < 2 then k else if k % 2 = 0 then 2 ^ (k / 2) else 3 * 2 ^ (k / 2 - 1)

theorem quantize_eq {n : Nat} (h : n < 65536) :
    quantize n = some (if n < 2 then n else 2 * (Nat.log2 n - 1) + n / 2 ^ (Nat.log2 n - 1)) := by
  unfold quantize
  by_cases h2 : n < 2
  · rw [if_pos h2, if_pos h2]
  · rw [if_neg h2, if_neg h2]
    have hl : Nat.log2 n < 16 := (Nat.log2_lt (by omega)).mpr (by omega)
    have hl1 : 1 ≤ Nat.log2 n := (Nat.le_log2 (by omega)).mpr (by omega)
    dsimp only
    have hs := Nat.log2_self_le (n := n) (by omega)
    rw [subU_eq (by omega), ob_some, subU_eq (by omega), ob_some, subU_eq (by omega), ob_some]
    rw [show 16 - (15 - n.log2) - 1 - 1 = n.log2 - 1 by omega]
    have : n / 2 ^ (n.log2 - 1) ≤ n := Nat.div_le_self _ _
    rw [usize_eq (by omega)]
    congr 1; omega

/-- **C20 (buckets).** Quantising never panics, and a count is in bucket `k` or higher exactly when it is
at least the start of bucket `k`. -/
theorem C20_buckets (n : Nat) (h : n < 65536) :
    ∃ q, quantize n = some q ∧ q ≤ 31 ∧ ∀ k, k ≤ q ↔ bucketStart k ≤ n := by
  refine ⟨_, quantize_eq h, ?_⟩
  by_cases h2 : n < 2
  · rw [if_pos h2]
    refine ⟨by omega, fun k => ?_⟩
    unfold bucketStart
    by_cases hk : k < 2
    · rw [if_pos hk]
    · rw [if_neg hk]
      have h1 : 2 ≤ 2 ^ (k / 2) := by
        calc 2 = 2 ^ 1 := rfl
          _ ≤ 2 ^ (k / 2) := Nat.pow_le_pow_right (by norm_num) (by omega)
      have h3 : 1 ≤ 2 ^ (k / 2 - 1) := Nat.one_le_two_pow
      split <;> omega
  · rw [if_neg h2]
    have hl : Nat.log2 n < 16 := (Nat.log2_lt (by omega)).mpr (by omega)
    have hl1 : 1 ≤ Nat.log2 n := (Nat.le_log2 (by omega)).mpr (by omega)
    have hs := Nat.log2_self_le (n := n) (by omega)
    have hu := Nat.lt_log2_self (n := n)
    obtain ⟨c, hc⟩ : ∃ c, n.log2 = c + 1 := ⟨n.log2 - 1, by omega⟩
    rw [hc] at hs hu hl ⊢
    rw [show c + 1 - 1 = c by omega]
    have hp : 0 < 2 ^ c := by positivity
    rw [pow_succ, pow_succ] at hu
    rw [pow_succ] at hs
    have hd2 : 2 ≤ n / 2 ^ c := (Nat.le_div_iff_mul_le hp).mpr (by omega)
    have hd4 : n / 2 ^ c < 4 := (Nat.div_lt_iff_lt_mul hp).mpr (by omega)
    have hd3 : 3 ≤ n / 2 ^ c ↔ 3 * 2 ^ c ≤ n := Nat.le_div_iff_mul_le hp
    refine ⟨by omega, fun k => ?_⟩
    unfold bucketStart
    by_cases hk : k < 2
    · rw [if_pos hk]
      have : 2 ≤ n := by omega
      omega
    · rw [if_neg hk]
      rcases lt_trichotomy (k / 2) (c + 1) with hlt | heq | hgt
      · -- lower octave
        have hle : 2 ^ (k / 2) ≤ 2 ^ c := Nat.pow_le_pow_right (by norm_num) (by omega)
        have e : 2 ^ (k / 2) = 2 * 2 ^ (k / 2 - 1) := by
          rw [← pow_succ']; congr 1; omega
        constructor
        · intro _; split <;> omega
        · intro _; omega
      · rw [heq, show c + 1 - 1 = c by omega, pow_succ]
        split <;> constructor <;> intro _ <;> omega
      · have hle : 2 ^ (c + 2) ≤ 2 ^ (k / 2) := Nat.pow_le_pow_right (by norm_num) (by omega)
        have e : 2 ^ (k / 2) = 2 * 2 ^ (k / 2 - 1) := by
          rw [← pow_succ']; congr 1; omega
        rw [pow_succ, pow_succ] at hle
        constructor
        · intro _; omega
        · intro h'; exfalso; revert h'; split <;> omega

/-- the value returned by the quantizer -/
theorem C20_monotone {a b qa qb : Nat} (hab : a ≤ b) (hb : b < 65536) (ha' : quantize a = some qa)
    (hb' : quantize b = some qb) : qa ≤ qb := by
  obtain ⟨q, e, _, hq⟩ := C20_buckets a (by omega)
  obtain ⟨r, f, _, hr⟩ := C20_buckets b hb
  rw [ha', Option.some.injEq] at e
  rw [hb', Option.some.injEq] at f
  subst e; subst f
  exact (hr qa).mpr (le_trans ((hq qa).mp le_rfl) hab)

theorem bucketStart_step (k : Nat) : bucketStart k + 1 ≤ bucketStart (k + 1) := by
  unfold bucketStart
  by_cases h0 : k = 0
  · subst h0; norm_num
  by_cases h1 : k = 1
  · subst h1; norm_num
  rw [if_neg (show ¬k < 2 by omega), if_neg (show ¬k + 1 < 2 by omega)]
  obtain ⟨j, hj⟩ : ∃ j, k / 2 = j + 1 := ⟨k / 2 - 1, by omega⟩
  have hp : 0 < 2 ^ j := by positivity
  by_cases hp2 : k % 2 = 0
  · rw [if_pos hp2, if_neg (by omega), show (k + 1) / 2 = j + 1 by omega, hj, pow_succ,
      show j + 1 - 1 = j by omega]
    omega
  · rw [if_neg hp2, if_pos (by omega), show (k + 1) / 2 = j + 2 by omega, hj, pow_succ, pow_succ,
      show j + 1 - 1 = j by omega]
    omega

/-- **C20 (no gaps).** Consecutive counts differ by at most one bucket. -/
theorem C20_step {a qa qb : Nat} (h : a + 1 < 65536) (ha : quantize a = some qa)
    (hb : quantize (a + 1) = some qb) : qb ≤ qa + 1 := by
  obtain ⟨q, e, _, hq⟩ := C20_buckets a (by omega)
  obtain ⟨r, f, _, hr⟩ := C20_buckets (a + 1) h
  rw [ha, Option.some.injEq] at e
  rw [hb, Option.some.injEq] at f
  subst e; subst f
  by_contra hc
  have h1 := (hr (qa + 2)).mp (by omega)
  have h2 : bucketStart (qa + 1) + 1 ≤ bucketStart (qa + 2) := bucketStart_step (qa + 1)
  have h3 := (hq (qa + 1)).mpr (by omega)
  omega

/-- **C20 (onto).** `max_output` is 31 and every bucket up to it occurs. -/
theorem C20_onto : quantizeMax = some 31 ∧
    ∀ k ≤ 31, ∃ n < 65536, quantize n = some k := by
  refine ⟨by decide +kernel, fun k hk => ⟨bucketStart k, ?_, ?_⟩⟩ <;>
    · revert k; decide +kernel

example : quantize 1000 = some 19 ∧ bucketStart 19 = 768 ∧ bucketStart 20 = 1024 := by decide +kernel

/-! ## C21: indexer -/

/-- a tuple with one component per dimension, each below its limit -/
def Valid (ls vs : List Nat) : Prop := List.Forall₂ (fun v l => v < l) vs ls

/-- an indexer for the given dimensions with no pending sub-index; the stored values are arbitrary, as left
behind by earlier queries -/
structure Ready (ls : List Nat) (x : Idx) : Prop where
  limits : x.limits = ls
  values : x.values.length = ls.length
  current : x.current = 0

/-- mixed radix value -/
def rank : List Nat → List Nat → Nat
  | _ :: ls, v :: vs => v * ls.prod + rank ls vs
  | _, _ => 0

theorem rank_lt {ls vs : List Nat} (h : Valid ls vs) : rank ls vs < ls.prod := by
  unfold Valid at h
  induction h with
  | nil => simp [rank]
  | @cons v l vs ls hv _ ih =>
    rw [rank, List.prod_cons]
    have : (v + 1) * ls.prod ≤ l * ls.prod := Nat.mul_le_mul_right _ hv
    rw [Nat.add_mul] at this
    omega

theorem prod_pos_of_valid {ls vs : List Nat} (h : Valid ls vs) : 0 < ls.prod :=
  lt_of_le_of_lt (Nat.zero_le _) (rank_lt h)

theorem prod_pos' {ls : List Nat} (h : ∀ l ∈ ls, 0 < l) : 0 < ls.prod := by
  induction ls with
  | nil => simp
  | cons l ls ih =>
    rw [List.prod_cons]
    exact Nat.mul_pos (h l (by simp)) (ih (fun a ha => h a (List.mem_cons_of_mem _ ha)))

theorem size_fold : ∀ (ls : List Nat) (r s : Nat),
    ls.foldlM (fun r l => usize (r * l)) r = some s → s = r * ls.prod ∧ (0 < ls.length → s < 2 ^ 64) := by
  intro ls
  induction ls with
  | nil => intro r s h; simp at h; simp [h]
  | cons l ls ih =>
    intro r s h
    rw [List.foldlM_cons] at h
    unfold usize at h
    split at h
    · rename_i hlt
      rw [ob_some] at h
      obtain ⟨h1, h2⟩ := ih _ _ h
      refine ⟨by rw [h1, List.prod_cons, mul_assoc], fun _ => ?_⟩
      cases ls with
      | nil => simp at h1; omega
      | cons => exact h2 (by simp)
    · simp [ob_none] at h

theorem size_fold_some : ∀ (ls : List Nat) (r : Nat), (∀ l ∈ ls, 0 < l) → r * ls.prod < 2 ^ 64 →
    ls.foldlM (fun r l => usize (r * l)) r = some (r * ls.prod) := by
  intro ls
  induction ls with
  | nil => intro r _ _; simp
  | cons l ls ih =>
    intro r hpos h
    rw [List.prod_cons, ← mul_assoc] at h
    have hp : 0 < ls.prod := prod_pos' (fun a ha => hpos a (List.mem_cons_of_mem _ ha))
    have h1 : r * l ≤ r * l * ls.prod := Nat.le_mul_of_pos_right _ hp
    rw [List.foldlM_cons, usize_eq (by omega), ob_some,
      ih _ (fun a ha => hpos a (List.mem_cons_of_mem _ ha)) h, List.prod_cons, mul_assoc]

/-- **C21 (size).** The array size is the product of the dimensions; it is reported whenever it fits and no
dimension is zero, and an overflowing product is never reported wrongly. -/
theorem C21_size {ls : List Nat} {x : Idx} (h : Ready ls x) :
    (∀ s, idxSize x = some s → s = ls.prod) ∧
    ((∀ l ∈ ls, 0 < l) → ls.prod < 2 ^ 64 → idxSize x = some ls.prod) := by
  unfold idxSize
  rw [check_pos h.current, ob_some, h.limits]
  refine ⟨fun s hs => by simpa using (size_fold ls 1 s hs).1, fun hp hl => ?_⟩
  have := size_fold_some ls 1 hp (by omega)
  rwa [one_mul] at this

theorem index_fold : ∀ {ls vs : List Nat}, Valid ls vs → ∀ r, r * ls.prod + rank ls vs < 2 ^ 64 →
    (ls.zip vs).foldlM (fun r (d : Nat × Nat) => do
      let r ← usize (r * d.1)
      usize (r + d.2)) r = some (r * ls.prod + rank ls vs) := by
  intro ls vs h
  unfold Valid at h
  induction h with
  | nil => intro r _; simp [rank]
  | @cons v l vs ls hv hvs ih =>
    intro r hlt
    have hp : 0 < ls.prod := prod_pos_of_valid hvs
    rw [rank, List.prod_cons] at hlt ⊢
    have e : r * (l * ls.prod) + (v * ls.prod + rank ls vs) = (r * l + v) * ls.prod + rank ls vs := by ring
    rw [e] at hlt ⊢
    have h1 : r * l + v ≤ (r * l + v) * ls.prod := Nat.le_mul_of_pos_right _ hp
    rw [List.zip_cons_cons, List.foldlM_cons]
    dsimp only
    rw [usize_eq (by omega), ob_some, usize_eq (by omega), ob_some]
    exact ih _ hlt

theorem idxSub_some {x : Idx} {v : Nat} {y : Idx} (h : idxSub x v = some y) :
    ∃ l, x.limits[x.current]? = some l ∧ v < l ∧
      y = { x with values := x.values.set x.current v, current := x.current + 1 } := by
  unfold idxSub at h
  by_cases hc : x.current < x.limits.length
  · rw [check_pos hc, ob_some, List.getElem?_eq_getElem hc, ob_some] at h
    by_cases hv : v < x.limits[x.current]
    · rw [check_pos hv, ob_some, Option.some.injEq] at h
      exact ⟨_, List.getElem?_eq_getElem hc, hv, h.symm⟩
    · rw [check_neg hv, ob_none] at h; simp at h
  · rw [check_neg hc, ob_none] at h; simp at h

theorem idxSub_eq {x : Idx} {v l : Nat} (h : x.limits[x.current]? = some l) (hv : v < l) :
    idxSub x v = some { x with values := x.values.set x.current v, current := x.current + 1 } := by
  unfold idxSub
  obtain ⟨hc, e⟩ := List.getElem?_eq_some_iff.mp h
  rw [check_pos hc, ob_some, h, ob_some, check_pos hv, ob_some]

theorem subs_eq : ∀ (vs : List Nat) (x : Idx), x.values.length = x.limits.length →
    List.Forall₂ (fun v l => v < l) vs (x.limits.drop x.current) →
    x.current ≤ x.limits.length →
    idxSubs x vs = some ⟨x.limits, x.values.take x.current ++ vs, x.limits.length⟩ := by
  intro vs
  induction vs with
  | nil =>
    intro x hv h hc
    have hd : x.limits.drop x.current = [] := List.forall₂_nil_left_iff.mp h
    rw [List.drop_eq_nil_iff] at hd
    rw [idxSubs, List.append_nil, List.take_of_length_le (by omega)]
    have : x.current = x.limits.length := by omega
    rw [← this]
  | cons v vs ih =>
    intro x hv h hc
    generalize hd : x.limits.drop x.current = d at h
    cases h with
    | @cons _ l _ ls hvl hvs =>
      have hlt : x.current < x.limits.length := by
        by_contra hcon
        rw [List.drop_of_length_le (by omega)] at hd
        simp at hd
      have hget : x.limits[x.current]? = some l := by
        have := congrArg List.head? hd
        rwa [List.head?_drop] at this
      have htl : x.limits.drop (x.current + 1) = ls := by
        have := congrArg List.tail hd
        rwa [List.tail_drop] at this
      rw [idxSubs, idxSub_eq hget hvl, ob_some, ih _ (by simp [hv]) (by simpa [htl] using hvs) (Nat.succ_le_of_lt hlt)]
      simp only [Option.some.injEq, Idx.mk.injEq, true_and, and_true]
      rw [List.take_succ_eq_append_getElem (by simp; omega), List.getElem_set_self,
        List.take_set_of_le (by omega), List.append_assoc, List.singleton_append]

theorem query_valid : ∀ (vs : List Nat) (x y : Idx), x.values.length = x.limits.length →
    x.current ≤ x.limits.length → idxSubs x vs = some y → y.current = y.limits.length →
    List.Forall₂ (fun v l => v < l) vs (x.limits.drop x.current) := by
  intro vs
  induction vs with
  | nil =>
    intro x y hv hc h hy
    rw [idxSubs, Option.some.injEq] at h
    subst h
    rw [hy, List.drop_length]
    exact List.Forall₂.nil
  | cons v vs ih =>
    intro x y hv hc h hy
    rw [idxSubs] at h
    cases hs : idxSub x v with
    | none => rw [hs, ob_none] at h; simp at h
    | some z =>
      rw [hs, ob_some] at h
      obtain ⟨l, hl, hvl, rfl⟩ := idxSub_some hs
      obtain ⟨hlt, e⟩ := List.getElem?_eq_some_iff.mp hl
      have := ih _ y (by simp [hv]) (Nat.succ_le_of_lt hlt) h hy
      rw [List.drop_eq_getElem_cons hlt, e]
      exact List.Forall₂.cons hvl this

/-- **C21 (queries).** For an indexer whose array size is representable, whatever earlier queries left
behind, every tuple in range gives an array index without a panic, the same index each time, and leaves
the indexer ready for the next query. -/
theorem C21_query {ls vs : List Nat} {x : Idx} {s : Nat} (h : Ready ls x) (hs : idxSize x = some s)
    (hv : Valid ls vs) : ∃ y, idxQuery x vs = some (rank ls vs, y) ∧ Ready ls y := by
  have hsz := (C21_size h).1 s hs
  have hs64 : s < 2 ^ 64 := by
    unfold idxSize at hs
    rw [check_pos h.current, ob_some] at hs
    have := size_fold _ _ _ hs
    cases hl : x.limits with
    | nil => rw [hl] at this; simp at this; omega
    | cons => exact this.2 (by rw [hl]; simp)
  obtain ⟨h1, h2, h3⟩ := h
  subst h1
  have hlt := rank_lt hv
  unfold idxQuery
  rw [subs_eq vs x h2 (by rw [h3, List.drop_zero]; exact hv) (by omega), ob_some]
  unfold idxGet
  rw [check_pos rfl, ob_some]
  dsimp only
  rw [h3, List.take_zero, List.nil_append, index_fold hv 0 (by omega), ob_some, zero_mul, zero_add]
  exact ⟨_, rfl, rfl, hv.length_eq, rfl⟩

/-- **C21 (rejections).** A tuple of the wrong length or with a component out of range panics. -/
theorem C21_rejects {ls vs : List Nat} {x : Idx} (h : Ready ls x) (hv : ¬Valid ls vs) :
    idxQuery x vs = none := by
  obtain ⟨h1, h2, h3⟩ := h
  subst h1
  unfold idxQuery
  cases hs : idxSubs x vs with
  | none => rfl
  | some y =>
    rw [ob_some]
    unfold idxGet
    by_cases hc : y.current = y.limits.length
    · have := query_valid vs x y h2 (by omega) hs hc
      rw [h3, List.drop_zero] at this
      exact absurd this hv
    · rw [check_neg hc, ob_none]

/-- **C21 (order isomorphism).** The array index is strictly increasing in the lexicographic order of the
tuples, below the array size, and every number below the array size is the index of a tuple. So it is the
position of the tuple in the lexicographic enumeration. -/
theorem C21_bijection (ls : List Nat) :
    (∀ vs, Valid ls vs → rank ls vs < ls.prod) ∧
    (∀ vs ws, Valid ls vs → Valid ls ws → List.Lex (· < ·) vs ws → rank ls vs < rank ls ws) ∧
    (∀ n < ls.prod, ∃ vs, Valid ls vs ∧ rank ls vs = n) := by
  refine ⟨fun vs h => rank_lt h, ?_, ?_⟩
  · intro vs ws hv hw hlex
    induction hlex generalizing ls with
    | nil => cases hv; cases hw
    | @cons a vs ws _ ih =>
      cases hv with
      | @cons _ l _ ls' h1 h2 =>
        cases hw with
        | @cons _ _ _ _ h3 h4 =>
          rw [rank, rank]
          have := ih ls' h2 h4
          omega
    | @rel a vs b ws hab =>
      cases hv with
      | @cons _ l _ ls' h1 h2 =>
        cases hw with
        | @cons _ _ _ _ h3 h4 =>
          rw [rank, rank]
          have := rank_lt h2
          have h5 : (a + 1) * ls'.prod ≤ b * ls'.prod := Nat.mul_le_mul_right _ hab
          rw [Nat.add_mul] at h5
          omega
  · induction ls with
    | nil =>
      intro n hn
      simp at hn
      exact ⟨[], List.Forall₂.nil, by simp [rank, hn]⟩
    | cons l ls ih =>
      intro n hn
      rw [List.prod_cons] at hn
      have hp : 0 < ls.prod := by
        rcases Nat.eq_zero_or_pos ls.prod with h | h
        · rw [h] at hn; simp at hn
        · exact h
      obtain ⟨vs, hv, e⟩ := ih (n % ls.prod) (Nat.mod_lt _ hp)
      refine ⟨n / ls.prod :: vs, List.Forall₂.cons ?_ hv, ?_⟩
      · exact (Nat.div_lt_iff_lt_mul hp).mpr hn
      · rw [rank, e]
        exact Nat.div_add_mod' n ls.prod

/-- a new indexer is ready, and construction checks the number of dimensions -/
theorem C21_new (n : Nat) (dims : List Nat) :
    (dims.length = n → ∃ x, idxNew n dims = some x ∧ Ready dims x) ∧
    (dims.length ≠ n → idxNew n dims = none) := by
  unfold idxNew
  constructor
  · intro h
    rw [check_pos h, ob_some]
    exact ⟨_, rfl, rfl, by simp [h], rfl⟩
  · intro h; rw [check_neg h, ob_none]

example : (idxNew 2 [3, 5]).bind (fun x => (idxQuery x [2, 4]).bind (fun r => (idxQuery r.2 [1, 3]).map
    (fun q => (r.1, q.1)))) = some (14, 8) := by decide +kernel

/-! ## C23: FNV -/

/-- specification of the hash: 64-bit FNV-1a of the bytes, the four 16-bit quarters combined with
exclusive or -/
def fnvSpec (bytes : List Nat) : Nat :=
  let h := bytes.foldl (fun h b => (h ^^^ b) * 1099511628211 % 18446744073709551616)
    14695981039346656037
  (h ^^^ (h / 2 ^ 16) ^^^ (h / 2 ^ 32) ^^^ (h / 2 ^ 48)) % 2 ^ 16

theorem fnvU16_eq (h : Nat) :
    fnvU16 h = (h ^^^ (h / 2 ^ 16) ^^^ (h / 2 ^ 32) ^^^ (h / 2 ^ 48)) % 2 ^ 16 := by
  unfold fnvU16 fnvU32 wrapU16 wrapU32
  rw [show (0x100000000 : Nat) = 2 ^ 32 by norm_num, show (0x10000 : Nat) = 2 ^ 16 by norm_num]
  apply Nat.eq_of_testBit_eq
  intro i
  simp only [Nat.testBit_mod_two_pow, Nat.testBit_xor, Nat.testBit_div_two_pow]
  by_cases hi : i < 16
  · have h1 : i < 32 := by omega
    have h2 : i + 16 < 32 := by omega
    simp only [hi, h1, h2, decide_true, Bool.true_and]
    rw [show i + 16 + 32 = i + 48 by omega]
    cases h.testBit i <;> cases h.testBit (i + 32) <;> cases h.testBit (i + 16) <;>
      cases h.testBit (i + 48) <;> rfl
  · simp [hi]

theorem foldl3 {α β : Type} (f : α → β → α) (a : α) (x y z : β) :
    List.foldl f a [x, y, z] = f (f (f a x) y) z := rfl

theorem foldl4 {α β : Type} (f : α → β → α) (a : α) (x y z w : β) :
    List.foldl f a [x, y, z, w] = f (f (f (f a x) y) z) w := rfl

theorem fnv_chain (bytes : List Nat) : fnvU16 (bytes.foldl fnvMix fnvNew) = fnvSpec bytes := by
  rw [fnvU16_eq]
  unfold fnvSpec fnvNew
  have e : fnvMix = fun h b => (h ^^^ b) * 1099511628211 % 18446744073709551616 := by
    funext h b
    unfold fnvMix wrapU64
    exact Eq.refl _
  rw [e]

theorem odd_mul_inj {a b : Nat} (ha : a < 2 ^ 64) (hb : b < 2 ^ 64)
    (h : a * 0x100000001b3 % 2 ^ 64 = b * 0x100000001b3 % 2 ^ 64) : a = b := by
  have h1 : (a * 0x100000001b3) * 0xce965057aff6957b ≡ (b * 0x100000001b3) * 0xce965057aff6957b [MOD 2 ^ 64] :=
    Nat.ModEq.mul_right _ h
  have inv : ∀ x : Nat, x * 0x100000001b3 * 0xce965057aff6957b % 2 ^ 64 = x % 2 ^ 64 := by
    intro x
    rw [mul_assoc, Nat.mul_mod, show 0x100000001b3 * 0xce965057aff6957b % 2 ^ 64 = 1 by norm_num, mul_one,
      Nat.mod_mod]
  unfold Nat.ModEq at h1
  rw [inv, inv, Nat.mod_eq_of_lt ha, Nat.mod_eq_of_lt hb] at h1
  exact h1

theorem xor_lt64 {a b : Nat} (ha : a < 2 ^ 64) (hb : b < 256) : a ^^^ b < 2 ^ 64 :=
  Nat.xor_lt_two_pow ha (by omega)

/-- **C23 (hash step).** One FNV-1a step is injective in the state for a fixed byte and in the byte for a
fixed state. -/
theorem C23_fnv_step {h h' b b' : Nat} (hh : h < 2 ^ 64) (hh' : h' < 2 ^ 64) (hb : b < 256)
    (hb' : b' < 256) :
    (fnvMix h b = fnvMix h' b → h = h') ∧ (fnvMix h b = fnvMix h b' → b = b') ∧ fnvMix h b < 2 ^ 64 := by
  unfold fnvMix wrapU64
  refine ⟨fun e => ?_, fun e => ?_, by omega⟩
  · have := odd_mul_inj (xor_lt64 hh hb) (xor_lt64 hh' hb) e
    have := congrArg (· ^^^ b) this
    simpa only [Nat.xor_assoc, Nat.xor_self, Nat.xor_zero] using this
  · have := odd_mul_inj (xor_lt64 hh hb) (xor_lt64 hh hb') e
    have := congrArg (h ^^^ ·) this
    simpa only [← Nat.xor_assoc, Nat.xor_self, Nat.zero_xor] using this

/-! ## C22: last bytes cache -/

/-- calls for complete bytes (each a list of eight bits) -/
def fullCalls (bytes : List (List Bool)) : List LBEvent :=
  (bytes.map (fun byte => LBEvent.start :: byte.map LBEvent.bit)).flatten

/-- calls for complete bytes followed by the leading bits of a further byte -/
def partCalls (bytes : List (List Bool)) (ps : List Bool) : List LBEvent :=
  fullCalls bytes ++ LBEvent.start :: ps.map LBEvent.bit

/-- value of the `k`-th most recent complete byte, zero when there is none -/
def prevByte (k : Nat) (bytes : List (List Bool)) : Nat :=
  if k ≤ bytes.length then val (bytes.getD (bytes.length - k) []) else 0

theorem lbRun_append (es fs : List LBEvent) : ∀ s, lbRun s (es ++ fs) = (lbRun s es).bind (fun s => lbRun s fs) := by
  induction es with
  | nil => intro s; rfl
  | cons e es ih =>
    intro s
    rw [List.cons_append, lbRun, lbRun]
    cases lbStep s e with
    | none => rfl
    | some t => rw [ob_some, ob_some, ih]

theorem or_low {x k b : Nat} (hb : b ≤ 1) (h : x % 2 ^ (k + 1) = 0) : x ||| b * 2 ^ k = x + b * 2 ^ k := by
  have e : x = 2 ^ (k + 1) * (x / 2 ^ (k + 1)) := by
    have := Nat.div_add_mod x (2 ^ (k + 1)); omega
  have hlt : b * 2 ^ k < 2 ^ (k + 1) := by
    rw [pow_succ]
    have : 0 < 2 ^ k := by positivity
    nlinarith
  rw [e, ← Nat.two_pow_add_eq_or_of_lt hlt]

/-- state after the leading bits `ps` of a byte, all earlier bits being `all` -/
def stateOf (all ps : List Bool) : LB :=
  ⟨7 - ps.length, val (all ++ ps) * 2 ^ (8 - ps.length) % 2 ^ 32⟩

theorem lbNext_state (all ps : List Bool) (h : ps.length < 8) (b : Bool) :
    lbNext (stateOf all ps) b = some (stateOf all (ps ++ [b])) := by
  have hb : b.toNat ≤ 1 := by cases b <;> simp
  unfold lbNext lbBitIndex stateOf
  rw [check_pos (by simp only [ge_iff_le]; omega), ob_some, ob_some]
  dsimp only
  have e0 : ((7 : Int) - (ps.length : Int)).toNat = 7 - ps.length := by omega
  have hlen : (ps ++ [b]).length = ps.length + 1 := by simp
  rw [e0, hlen, ← List.append_assoc, val_snoc]
  generalize val (all ++ ps) = v
  obtain ⟨k, hk⟩ : ∃ k, 7 - ps.length = k := ⟨_, rfl⟩
  have hk7 : k ≤ 7 := by omega
  rw [hk, show 8 - ps.length = k + 1 by omega, show 8 - (ps.length + 1) = k by omega]
  have hp : 2 ^ k ≤ 2 ^ 7 := Nat.pow_le_pow_right (by norm_num) hk7
  have hsmall : b.toNat * 2 ^ k < 2 ^ 32 := by
    calc b.toNat * 2 ^ k ≤ 1 * 2 ^ 7 := Nat.mul_le_mul hb hp
      _ < 2 ^ 32 := by norm_num
  have hw : wrapU32 (b.toNat * 2 ^ k) = b.toNat * 2 ^ k := Nat.mod_eq_of_lt hsmall
  have hdvd : v * 2 ^ (k + 1) % 2 ^ 32 % 2 ^ (k + 1) = 0 := by
    rw [Nat.mod_mod_of_dvd _ (pow_dvd_pow 2 (by omega)), Nat.mul_mod_left]
  rw [hw, or_low hb hdvd]
  simp only [Option.some.injEq, LB.mk.injEq]
  refine ⟨by push_cast; omega, ?_⟩
  have e1 : (2 * v + b.toNat) * 2 ^ k = v * 2 ^ (k + 1) + b.toNat * 2 ^ k := by rw [pow_succ]; ring
  rw [e1, Nat.add_mod, Nat.mod_eq_of_lt hsmall]
  symm
  apply Nat.mod_eq_of_lt
  -- no carry: the low part is below the granularity
  have hm : v * 2 ^ (k + 1) % 2 ^ 32 < 2 ^ 32 := Nat.mod_lt _ (by norm_num)
  have hlow : b.toNat * 2 ^ k < 2 ^ (k + 1) := by
    rw [pow_succ]
    have : 0 < 2 ^ k := by positivity
    nlinarith
  generalize v * 2 ^ (k + 1) % 2 ^ 32 = m at *
  obtain ⟨q, hq⟩ : ∃ q, m = 2 ^ (k + 1) * q := ⟨m / 2 ^ (k + 1), by
    have := Nat.div_add_mod m (2 ^ (k + 1)); omega⟩
  have h32 : (2 : Nat) ^ 32 = 2 ^ (k + 1) * 2 ^ (31 - k) := by
    rw [← pow_add]; congr 1; omega
  rw [h32] at hm ⊢
  rw [hq] at hm ⊢
  have hq' : q + 1 ≤ 2 ^ (31 - k) := Nat.lt_of_mul_lt_mul_left hm
  calc 2 ^ (k + 1) * q + b.toNat * 2 ^ k < 2 ^ (k + 1) * q + 2 ^ (k + 1) := by omega
    _ = 2 ^ (k + 1) * (q + 1) := by ring
    _ ≤ _ := Nat.mul_le_mul_left _ hq'

theorem lbBits_state (all : List Bool) (qs : List Bool) : ∀ ps : List Bool, ps.length + qs.length ≤ 8 →
    lbRun (stateOf all ps) (qs.map LBEvent.bit) = some (stateOf all (ps ++ qs)) := by
  induction qs with
  | nil => intro ps _; rw [List.append_nil]; rfl
  | cons b qs ih =>
    intro ps h
    simp only [List.length_cons] at h
    rw [List.map_cons, lbRun, lbStep, lbNext_state all ps (by omega) b, ob_some, ih _ (by simp; omega),
      List.append_assoc, List.singleton_append]

/-- state between bytes -/
def idleOf (all : List Bool) : LB := ⟨-1, val all % 2 ^ 32⟩

theorem lbStart_state (all : List Bool) : lbStart (idleOf all) = some (stateOf all []) := by
  unfold lbStart idleOf stateOf
  rw [check_pos rfl, ob_some, List.append_nil]
  simp only [Option.some.injEq, LB.mk.injEq, List.length_nil]
  refine ⟨by norm_num, ?_⟩
  unfold wrapU32
  omega

theorem stateOf_full (all ps : List Bool) (h : ps.length = 8) : stateOf all ps = idleOf (all ++ ps) := by
  unfold stateOf idleOf
  rw [h]; norm_num

theorem lbFull_state (bytes : List (List Bool)) : ∀ all : List Bool, (∀ b ∈ bytes, b.length = 8) →
    lbRun (idleOf all) (fullCalls bytes) = some (idleOf (all ++ bytes.flatten)) := by
  induction bytes with
  | nil => intro all _; rw [List.flatten_nil, List.append_nil]; rfl
  | cons b bytes ih =>
    intro all h
    have hb := h b (by simp)
    rw [show fullCalls (b :: bytes) = (LBEvent.start :: b.map LBEvent.bit) ++ fullCalls bytes from rfl,
      List.cons_append, lbRun, lbStep, lbStart_state, ob_some, lbRun_append,
      lbBits_state all b [] (by simp [hb]), Option.bind_some, List.nil_append, stateOf_full all b hb,
      ih _ (fun c hc => h c (List.mem_cons_of_mem _ hc)), List.flatten_cons, List.append_assoc]

theorem prev_eq (bytes : List (List Bool)) (h : ∀ b ∈ bytes, b.length = 8) (k : Nat) :
    val bytes.flatten / 2 ^ (8 * k) % 256 = prevByte (k + 1) bytes := by
  induction bytes using List.reverseRecOn generalizing k with
  | nil => simp [prevByte]
  | append_singleton bytes b ih =>
    have hb : b.length = 8 := h b (by simp)
    have hv := val_lt b
    rw [hb] at hv
    rw [List.flatten_append, List.flatten_cons, List.flatten_nil, List.append_nil, val_append, hb]
    cases k with
    | zero =>
      unfold prevByte
      rw [if_pos (by simp)]
      simp
      omega
    | succ k =>
      have := ih (fun c hc => h c (by simp [hc])) k
      have e : (val bytes.flatten * 2 ^ 8 + val b) / 2 ^ (8 * (k + 1)) = val bytes.flatten / 2 ^ (8 * k) := by
        rw [show 8 * (k + 1) = 8 + 8 * k by ring, pow_add, ← Nat.div_div_eq_div_mul]
        congr 1; omega
      rw [e, this]
      unfold prevByte
      rw [List.length_append, List.length_singleton]
      by_cases hk : k + 1 ≤ bytes.length
      · rw [if_pos hk, if_pos (by omega), List.getD_eq_getElem?_getD, List.getD_eq_getElem?_getD,
          List.getElem?_append_left (by omega), show bytes.length + 1 - (k + 1 + 1) = bytes.length - (k + 1) by omega]
      · rw [if_neg hk, if_neg (by omega)]

theorem div_pow_mod (x k : Nat) (h : k ≤ 3) :
    ∀ j ≤ 8, ∀ p < 2 ^ j, (x * 2 ^ j + p) * 2 ^ (8 - j) % 2 ^ 32 / 2 ^ (8 * k) % 256 =
      (x * 256 + p * 2 ^ (8 - j)) / 2 ^ (8 * k) % 256 := by
  intro j hj p hp
  have e : (x * 2 ^ j + p) * 2 ^ (8 - j) = x * 256 + p * 2 ^ (8 - j) := by
    rw [Nat.add_mul, mul_assoc, ← pow_add, show j + (8 - j) = 8 by omega]; norm_num
  rw [e]
  generalize x * 256 + p * 2 ^ (8 - j) = y
  have : k = 0 ∨ k = 1 ∨ k = 2 ∨ k = 3 := by omega
  rcases this with rfl | rfl | rfl | rfl <;> omega

/-- **C22.** After any complete bytes and any leading bits of a further byte, no call panics and every query
is the documented function of the bits seen: the unfinished byte is its bits with a leading one, the
previous bytes are the last complete ones (zero before the start), and the hashes are the stated functions
of those. -/
theorem C22_history (bytes : List (List Bool)) (ps : List Bool) (h8 : ∀ b ∈ bytes, b.length = 8)
    (hp : ps.length < 8) :
    ∃ s, lbRun lbNew (partCalls bytes ps) = some s ∧
      lbUnfinished s = some (enc ps) ∧
      lbPrev1 s = some (prevByte 1 bytes) ∧ lbPrev2 s = some (prevByte 2 bytes) ∧
      lbPrev3 s = some (prevByte 3 bytes) ∧
      lbHash01 s = some (2 ^ (8 + ps.length) + (prevByte 1 bytes * 2 ^ ps.length + val ps)) ∧
      lbHash02 s = some (fnvSpec [prevByte 2 bytes, prevByte 1 bytes, enc ps]) ∧
      lbHash03 s = some (fnvSpec [prevByte 3 bytes, prevByte 2 bytes, prevByte 1 bytes, enc ps]) := by
  have hrun : lbRun lbNew (partCalls bytes ps) = some (stateOf bytes.flatten ps) := by
    unfold partCalls
    have := lbFull_state bytes [] h8
    rw [lbRun_append, show lbNew = idleOf [] from rfl, this, Option.bind_some, List.nil_append, lbRun,
      lbStep, lbStart_state, ob_some, lbBits_state _ ps [] (by simp; omega), List.nil_append]
  refine ⟨_, hrun, ?_⟩
  have hv := val_lt ps
  have hbi : (stateOf bytes.flatten ps).bitIndex = 7 - (ps.length : Int) := rfl
  have hnn : (stateOf bytes.flatten ps).bitIndex ≥ 0 := by rw [hbi]; omega
  have hidx : lbBitIndex (stateOf bytes.flatten ps) = some (7 - ps.length) := by
    unfold lbBitIndex
    rw [check_pos hnn, ob_some, hbi]
    congr 1; omega
  have hcache : (stateOf bytes.flatten ps).cache =
      (val bytes.flatten * 2 ^ ps.length + val ps) * 2 ^ (8 - ps.length) % 2 ^ 32 := by
    show val (bytes.flatten ++ ps) * 2 ^ (8 - ps.length) % 2 ^ 32 = _
    rw [val_append]
  have hps : val ps * 2 ^ (8 - ps.length) < 256 := by
    calc val ps * 2 ^ (8 - ps.length) < 2 ^ ps.length * 2 ^ (8 - ps.length) :=
          Nat.mul_lt_mul_of_pos_right hv (by positivity)
      _ = 256 := by rw [← pow_add, show ps.length + (8 - ps.length) = 8 by omega]; norm_num
  -- previous bytes
  have hprev : ∀ k, k ≤ 2 → wrapU8 ((stateOf bytes.flatten ps).cache / 2 ^ (8 * (k + 1))) =
      prevByte (k + 1) bytes := by
    intro k hk
    unfold wrapU8
    rw [hcache, div_pow_mod _ (k + 1) (by omega) ps.length (by omega) _ hv, ← prev_eq bytes h8 k,
      show 8 * (k + 1) = 8 + 8 * k by ring, pow_add, ← Nat.div_div_eq_div_mul]
    congr 2; omega
  have hp1 : lbPrev1 (stateOf bytes.flatten ps) = some (prevByte 1 bytes) := by
    have e := hprev 0 (by omega)
    rw [show 8 * (0 + 1) = 8 by norm_num, show 0 + 1 = 1 by norm_num] at e
    unfold lbPrev1; rw [check_pos hnn, ob_some, e]
  have hp2 : lbPrev2 (stateOf bytes.flatten ps) = some (prevByte 2 bytes) := by
    have e := hprev 1 (by omega)
    rw [show 8 * (1 + 1) = 16 by norm_num, show 1 + 1 = 2 by norm_num] at e
    unfold lbPrev2; rw [check_pos hnn, ob_some, e]
  have hp3 : lbPrev3 (stateOf bytes.flatten ps) = some (prevByte 3 bytes) := by
    have e := hprev 2 (by omega)
    rw [show 8 * (2 + 1) = 24 by norm_num, show 2 + 1 = 3 by norm_num] at e
    unfold lbPrev3; rw [check_pos hnn, ob_some, e]
  have hpow : 0 < 2 ^ (8 - ps.length) := by positivity
  have hlow : (stateOf bytes.flatten ps).cache % 256 = val ps * 2 ^ (8 - ps.length) := by
    have := div_pow_mod (val bytes.flatten) 0 (by omega) ps.length (by omega) _ hv
    simp only [mul_zero, pow_zero, Nat.div_one] at this
    rw [hcache, this]; omega
  have hunf : lbUnfinished (stateOf bytes.flatten ps) = some (enc ps) := by
    unfold lbUnfinished
    rw [hidx, ob_some, subU_eq (by omega), ob_some, hlow,
      show 7 - ps.length + 1 = 8 - ps.length by omega, Nat.mul_div_cancel _ hpow,
      show 7 - (7 - ps.length) = ps.length by omega]
    have hp7 : 2 ^ ps.length ≤ 2 ^ 7 := Nat.pow_le_pow_right (by norm_num) (by omega)
    unfold wrapU8 enc
    rw [Nat.mod_eq_of_lt (by omega), Nat.mod_eq_of_lt (by omega), u8_eq (by omega)]
  have hpb : prevByte 1 bytes < 256 := by
    rw [← prev_eq bytes h8 0]; omega
  refine ⟨hunf, hp1, hp2, hp3, ?_, ?_, ?_⟩
  · have hl2 : (stateOf bytes.flatten ps).cache % 65536 =
        (prevByte 1 bytes * 2 ^ ps.length + val ps) * 2 ^ (8 - ps.length) := by
      have h1 := hprev 0 (by omega)
      rw [show 8 * (0 + 1) = 8 by norm_num, show 0 + 1 = 1 by norm_num] at h1
      unfold wrapU8 at h1
      have h2 := hlow
      have e : (prevByte 1 bytes * 2 ^ ps.length + val ps) * 2 ^ (8 - ps.length) =
          prevByte 1 bytes * 256 + val ps * 2 ^ (8 - ps.length) := by
        rw [Nat.add_mul, mul_assoc, ← pow_add, show ps.length + (8 - ps.length) = 8 by omega]
        norm_num
      rw [e, ← h1, ← h2]
      generalize (stateOf bytes.flatten ps).cache = c
      omega
    unfold lbHash01
    rw [hidx, ob_some, subU_eq (by omega), ob_some, hl2,
      show 7 - ps.length + 1 = 8 - ps.length by omega, Nat.mul_div_cancel _ hpow,
      show 15 - (7 - ps.length) = 8 + ps.length by omega]
    have hp7 : 2 ^ ps.length ≤ 2 ^ 7 := Nat.pow_le_pow_right (by norm_num) (by omega)
    have e8 : 2 ^ (8 + ps.length) = 256 * 2 ^ ps.length := by rw [pow_add]; norm_num
    have hb : prevByte 1 bytes * 2 ^ ps.length + val ps < 256 * 2 ^ ps.length := by
      have : (prevByte 1 bytes + 1) * 2 ^ ps.length ≤ 256 * 2 ^ ps.length := Nat.mul_le_mul_right _ hpb
      rw [Nat.add_mul] at this
      omega
    unfold wrapU16
    rw [e8, Nat.mod_eq_of_lt (by omega), Nat.mod_eq_of_lt (by omega), u16_eq (by omega)]
  · unfold lbHash02
    rw [check_pos hnn, ob_some, hp2, ob_some, hp1, ob_some, hunf, ob_some, ← fnv_chain, foldl3]
  · unfold lbHash03
    rw [check_pos hnn, ob_some, hp3, ob_some, hp2, ob_some, hp1, ob_some, hunf, ob_some, ← fnv_chain, foldl4]

/-- **C22 (protocol).** Between bytes only `start_new_byte` is accepted and no query is; inside a byte
`start_new_byte` panics; complete bytes never panic. -/
theorem C22_protocol (bytes : List (List Bool)) (h8 : ∀ b ∈ bytes, b.length = 8) :
    (∃ s, lbRun lbNew (fullCalls bytes) = some s ∧ (∀ b, lbNext s b = none) ∧ lbUnfinished s = none ∧
      lbPrev1 s = none ∧ lbPrev2 s = none ∧ lbPrev3 s = none ∧ lbHash01 s = none ∧ lbHash02 s = none ∧
      lbHash03 s = none) ∧
    (∀ ps s, ps.length < 8 → lbRun lbNew (partCalls bytes ps) = some s → lbStart s = none) := by
  constructor
  · refine ⟨idleOf bytes.flatten, lbFull_state bytes [] h8, ?_⟩
    have hneg : ¬(idleOf bytes.flatten).bitIndex ≥ 0 := by unfold idleOf; norm_num
    have hidx : lbBitIndex (idleOf bytes.flatten) = none := by
      unfold lbBitIndex; rw [check_neg hneg, ob_none]
    refine ⟨fun b => ?_, ?_, ?_, ?_, ?_, ?_, ?_, ?_⟩
    · unfold lbNext; rw [hidx, ob_none]
    · unfold lbUnfinished; rw [hidx, ob_none]
    · unfold lbPrev1; rw [check_neg hneg, ob_none]
    · unfold lbPrev2; rw [check_neg hneg, ob_none]
    · unfold lbPrev3; rw [check_neg hneg, ob_none]
    · unfold lbHash01; rw [hidx, ob_none]
    · unfold lbHash02; rw [check_neg hneg, ob_none]
    · unfold lbHash03; rw [check_neg hneg, ob_none]
  · intro ps s hp h
    unfold partCalls at h
    have := lbFull_state bytes [] h8
    rw [lbRun_append, show lbNew = idleOf [] from rfl, this, Option.bind_some, List.nil_append, lbRun,
      lbStep, lbStart_state, ob_some, lbBits_state _ ps [] (by simp; omega), List.nil_append,
      Option.some.injEq] at h
    subst h
    unfold lbStart
    rw [check_neg (by unfold stateOf; simp; omega), ob_none]

/-- **C23 (order-1 hash).** Two situations with the same order-1 hash have the same previous byte and the
same unfinished bits. -/
theorem C23_hash01_injective {bytes bytes' : List (List Bool)} {ps ps' : List Bool} {s s' : LB} {x : Nat}
    (h8 : ∀ b ∈ bytes, b.length = 8) (h8' : ∀ b ∈ bytes', b.length = 8)
    (hp : ps.length < 8) (hp' : ps'.length < 8)
    (hs : lbRun lbNew (partCalls bytes ps) = some s) (hs' : lbRun lbNew (partCalls bytes' ps') = some s')
    (h : lbHash01 s = some x) (h' : lbHash01 s' = some x) :
    prevByte 1 bytes = prevByte 1 bytes' ∧ ps = ps' := by
  obtain ⟨t, ht, _, _, _, _, hx, _⟩ := C22_history bytes ps h8 hp
  obtain ⟨t', ht', _, _, _, _, hx', _⟩ := C22_history bytes' ps' h8' hp'
  rw [hs, Option.some.injEq] at ht
  rw [hs', Option.some.injEq] at ht'
  subst ht; subst ht'
  rw [h, Option.some.injEq] at hx
  rw [h', Option.some.injEq] at hx'
  have hb : ∀ (bytes : List (List Bool)), (∀ b ∈ bytes, b.length = 8) → prevByte 1 bytes < 256 := by
    intro bytes h; rw [← prev_eq bytes h 0]; omega
  have hb1 := hb bytes h8
  have hb2 := hb bytes' h8'
  have hv := val_lt ps
  have hv' := val_lt ps'
  have bound : ∀ (p n v : Nat), p < 256 → v < 2 ^ n → p * 2 ^ n + v < 2 ^ (8 + n) := by
    intro p n v h1 h2
    have : (p + 1) * 2 ^ n ≤ 256 * 2 ^ n := Nat.mul_le_mul_right _ h1
    rw [Nat.add_mul] at this
    rw [pow_add]; norm_num; omega
  have hlen : ps.length = ps'.length := by
    have b1 := bound _ _ _ hb1 hv
    have b2 := bound _ _ _ hb2 hv'
    rcases lt_trichotomy ps.length ps'.length with hc | hc | hc
    · have : 2 ^ (8 + ps.length + 1) ≤ 2 ^ (8 + ps'.length) := Nat.pow_le_pow_right (by norm_num) (by omega)
      rw [pow_succ] at this; omega
    · exact hc
    · have : 2 ^ (8 + ps'.length + 1) ≤ 2 ^ (8 + ps.length) := Nat.pow_le_pow_right (by norm_num) (by omega)
      rw [pow_succ] at this; omega
  rw [hlen] at hx hv
  have e : prevByte 1 bytes * 2 ^ ps'.length + val ps = prevByte 1 bytes' * 2 ^ ps'.length + val ps' := by
    omega
  have hpow : 0 < 2 ^ ps'.length := by positivity
  have e1 := congrArg (· % 2 ^ ps'.length) e
  have e2 := congrArg (· / 2 ^ ps'.length) e
  simp only [Nat.mul_add_mod_self_right, Nat.mod_eq_of_lt hv, Nat.mod_eq_of_lt hv'] at e1
  simp only [Nat.add_comm _ (val _), Nat.add_mul_div_right _ _ hpow, Nat.div_eq_of_lt hv,
    Nat.div_eq_of_lt hv', zero_add] at e2
  exact ⟨e2, val_inj hlen e1⟩

example : (lbRun lbNew (partCalls [[false, true, true, false, false, false, false, true]] [true, false])).bind
    lbHash01 = some (1024 + 97 * 4 + 2) := by decide +kernel

end Verif.Util
