import Verif.Random.Props

/-!
# The published test vector

Direct evaluation of the model in the kernel takes much memory, since lists are evaluated lazily. Here the words are
computed by the recurrences that C43 proves.
-/

namespace Verif.Random

/-- continues with the value of a number -/
def forceNat {β : Type} (n : Nat) (k : Nat → β) : β :=
  match n with
  | 0 => k 0
  | m + 1 => k (m + 1)

theorem forceNat_eq {β : Type} (n : Nat) (k : Nat → β) : forceNat n k = k n := by cases n <;> rfl

/-- continues with the values of a list -/
def forceList {β : Type} : List Nat → (List Nat → β) → β
  | [], k => k []
  | x :: xs, k => forceNat x fun x => forceList xs fun xs => k (x :: xs)

theorem forceList_eq {β : Type} : ∀ (l : List Nat) (k : List Nat → β), forceList l k = k l
  | [], _ => rfl
  | x :: xs, k => by rw [forceList, forceNat_eq, forceList_eq xs]

/-- value `t` of the seeding from the word before it and the word it replaces -/
def seedVal (key : List Nat) (t prev old : Nat) : Nat :=
  if t < max 312 key.length then
    ((old ^^^ ((prev ^^^ (prev / 2 ^ 62)) * 3935559000370003845 % 2 ^ 64)) + key.getD (t % key.length) 0 +
      t % key.length) % 2 ^ 64
  else ((old ^^^ ((prev ^^^ (prev / 2 ^ 62)) * 2862933555777941757 % 2 ^ 64)) + (2 ^ 64 - (1 + t % 311))) % 2 ^ 64

theorem seedSeq_val (key : List Nat) (x : Nat → Nat) (t : Nat) :
    seedSeq key x t = seedVal key t (prevOf x (seedSeq key x) t) (oldOf x (seedSeq key x) t) := by
  unfold seedVal
  split_ifs with h
  · exact seedSeq_first h
  · exact seedSeq_second h

/-- values of the seeding that replace a list of words -/
def scan (key : List Nat) : Nat → Nat → List Nat → List Nat
  | _, _, [] => []
  | t, prev, old :: olds => forceNat (seedVal key t prev old) fun v => v :: scan key (t + 1) v olds

theorem scan_eq (key : List Nat) (x : Nat → Nat) : ∀ n t, scan key t (prevOf x (seedSeq key x) t)
    ((List.range' t n).map (oldOf x (seedSeq key x))) = (List.range' t n).map (seedSeq key x)
  | 0, _ => rfl
  | n + 1, t => by
    rw [List.range'_succ, List.map_cons, List.map_cons, scan, forceNat_eq, ← seedSeq_val]
    have : seedSeq key x t = prevOf x (seedSeq key x) (t + 1) := by
      unfold prevOf
      rw [if_neg (by omega), Nat.add_sub_cancel]
    rw [this, scan_eq key x n (t + 1), ← this]

/-- the scalar initialisation -/
def lcgList : Nat → Nat → Nat → List Nat
  | 0, _, _ => []
  | n + 1, k, v => v :: forceNat ((6364136223846793005 * (v ^^^ (v / 2 ^ 62)) + (k + 1)) % 2 ^ 64) fun w => lcgList n (k + 1) w

theorem lcgList_eq (seed : Nat) : ∀ n k, lcgList n k (lcg seed k) = (List.range' k n).map (lcg seed)
  | 0, _ => rfl
  | n + 1, k => by
    rw [lcgList, forceNat_eq, List.range'_succ, List.map_cons]
    exact congrArg _ (lcgList_eq seed n (k + 1))

/-- the words after the seeding, from the second; `s` is the seed of the scalar initialisation -/
def seededWords (s : Nat) (key : List Nat) : List Nat :=
  forceList (lcgList 311 1 (lcg s 1)) fun x =>
  forceList (scan key 0 s x) fun u =>
  forceList (scan key 311 (u.getD 310 0) u) fun v =>
  seedVal key 622 (v.getD 310 0) (v.getD 0 0) :: v.drop 1

section

attribute [local irreducible] scan lcgList lcg seedVal

theorem seededWords_eq (s : Nat) (hs : lcg s 0 = s) {key : List Nat} {i : Nat} (hi : i < 311) :
    (seededWords s key)[i]? = some (seedSeq key (lcg s) (if i = 0 then 622 else 311 + i)) := by
  set u := seedSeq key (lcg s) with hu
  have h1 : lcgList 311 1 (lcg s 1) = (List.range' 0 311).map (oldOf (lcg s) u) := by
    rw [lcgList_eq]
    apply List.ext_getElem?
    intro i
    by_cases hi : i < 311
    · rw [List.getElem?_map, List.getElem?_map, List.getElem?_range' hi, List.getElem?_range' hi]
      unfold oldOf
      simp only [Option.map_some, Nat.one_mul, Nat.zero_add]
      rw [if_pos hi, Nat.add_comm]
    · rw [List.getElem?_eq_none (by simp; omega), List.getElem?_eq_none (by simp; omega)]
  have h2 : scan key 0 s (lcgList 311 1 (lcg s 1)) = (List.range' 0 311).map u := by
    have h := scan_eq key (lcg s) 311 0
    rw [prevOf, if_pos rfl, hs] at h
    rw [h1, h]
  have h3 : (List.range' 0 311).map u = (List.range' 311 311).map (oldOf (lcg s) u) := by
    apply List.ext_getElem?
    intro i
    by_cases hi : i < 311
    · rw [List.getElem?_map, List.getElem?_map, List.getElem?_range' hi, List.getElem?_range' hi]
      unfold oldOf
      simp only [Option.map_some, Nat.one_mul, Nat.zero_add]
      rw [if_neg (by omega), Nat.add_sub_cancel_left]
    · rw [List.getElem?_eq_none (by simp; omega), List.getElem?_eq_none (by simp; omega)]
  have hget : ∀ a k, k < 311 → ((List.range' a 311).map u).getD k 0 = u (a + k) := by
    intro a k hk
    rw [List.getD_eq_getElem?_getD, List.getElem?_map, List.getElem?_range' hk]
    simp
  have h4 : scan key 311 (((List.range' 0 311).map u).getD 310 0) ((List.range' 0 311).map u) =
      (List.range' 311 311).map u := by
    rw [hget 0 310 (by omega), h3]
    have h := scan_eq key (lcg s) 311 311
    rw [prevOf, if_neg (by omega)] at h
    exact h
  have h5 : seededWords s key = u 622 :: ((List.range' 311 311).map u).drop 1 := by
    unfold seededWords
    rw [forceList_eq, forceList_eq, forceList_eq, h2, h4, hget 311 310 (by omega), hget 311 0 (by omega)]
    congr 1
    have h := seedSeq_val key (lcg s) 622
    rw [prevOf, oldOf, if_neg (by omega), if_neg (by omega)] at h
    exact h.symm
  rw [h5]
  cases i with
  | zero => rfl
  | succ i =>
    rw [List.getElem?_cons_succ, List.getElem?_drop, List.getElem?_map, List.getElem?_range' (by omega), if_neg (by omega)]
    simp only [Option.map_some, Nat.one_mul]
    congr 2
    omega

end

/-- a number of the generator after a seed of few words -/
theorem vector_number {key : List Nat} (h0 : key ≠ []) (hk : key.length ≤ 312) (n : Nat) {words : List Nat}
    (hw : seededWords 19650218 key = words) (hn : n ≤ 155) : (newByVectorSeed key >>= stream n) = some ((List.range n).map fun k =>
      temper (nextWord ((2 ^ 63 :: words).getD k 0) ((2 ^ 63 :: words).getD (k + 1) 0)
        ((2 ^ 63 :: words).getD (k + 156) 0))) := by
  obtain ⟨g, h1, h2, h3, h4⟩ := vector_eq h0
  have hg : ∀ k, k < 312 → (2 ^ 63 :: words).getD k 0 = g k := by
    intro k hk'
    cases k with
    | zero => rw [List.getD_cons_zero]; exact h2.symm
    | succ k =>
      have hc : ∀ t, 312 ≤ t → t < 623 → 1 + t % 311 = k + 1 → seedSeq key (lcg 19650218) t = g (k + 1) := by
        intro t ht1 ht2 ht3
        rw [← ht3]
        exact (h4 t (by omega) (by omega)).symm
      have he := seededWords_eq 19650218 (lcg_spec _).1 (key := key) (i := k) (by omega)
      rw [hw] at he
      rw [List.getD_cons_succ, List.getD_eq_getElem?_getD, he, Option.getD_some]
      by_cases hz : k = 0
      · rw [if_pos hz]
        exact hc 622 (by omega) (by omega) (by omega)
      · rw [if_neg hz]
        exact hc (311 + k) (by omega) (by omega) (by omega)
  rw [h1, ob_some, stream_eq (wordsFrom_lt h3) (wordsFrom_step g) n 312 _ ⟨⟨0, tab_congr fun k hk => by
    rw [Nat.zero_add, wordsFrom_start hk], rfl⟩, le_refl _⟩, List.range'_eq_map_range, List.map_map]
  refine congrArg some (List.map_congr_left fun k hk => ?_)
  rw [List.mem_range] at hk
  rw [Function.comp_apply, Nat.add_comm, wordsFrom_step, wordsFrom_start (by omega), wordsFrom_start (by omega),
    wordsFrom_start (by omega), hg k (by omega), hg (k + 1) (by omega), hg (k + 156) (by omega)]

set_option maxRecDepth 100000 in
/-- the first numbers of the published test vector (`src/random/mt19937-64.out.txt:2`) -/
example : (newByVectorSeed [0x12345, 0x23456, 0x34567, 0x45678] >>= stream 5) =
    some [7266447313870364031, 4946485549665804864, 16945909448695747420, 16394063075524226720, 4873882236456199058] := by
  rw [vector_number (by simp) (by simp) 5 rfl (by omega)]
  decide +kernel

set_option maxRecDepth 100000 in
/-- the first number of the default generator -/
example : (default >>= stream 1) = some [14514284786278117030] := by
  unfold default
  rw [scalar_eq, ob_some, stream_eq (wordsFrom_lt (g := lcg 5489) fun k _ => lcg_lt (seed := 5489) (by norm_num) k) (wordsFrom_step _) 1 312 _
    ⟨⟨0, tab_congr fun k hk => by rw [Nat.zero_add, wordsFrom_start hk], rfl⟩, le_refl _⟩]
  simp only [List.range'_one, List.map_cons, List.map_nil]
  rw [show (312 : Nat) = 0 + 312 from rfl, wordsFrom_step, wordsFrom_start (by omega), wordsFrom_start (by omega),
    wordsFrom_start (by omega)]
  decide +kernel

end Verif.Random
