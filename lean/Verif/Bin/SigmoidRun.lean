import Verif.Bin.SigmoidProps

/-!
# C70: the run of the sigmoid benchmark

The program has no input, so its checksums are constants. They are computed by the kernel, from the recurrence of
C43 and the closed forms of squash and stretch.
-/

namespace Verif.Bin

open Verif Verif.Fixed Verif.Lut Verif.Random

/-- new words from three sequences of words -/
def zip3 : List Nat → List Nat → List Nat → List Nat
  | u :: us, l :: ls, m :: ms => nextWord u l m :: zip3 us ls ms
  | _, _, _ => []

theorem zip3_eq {x : Nat → Nat} (hrec : ∀ k, x (k + 312) = nextWord (x k) (x (k + 1)) (x (k + 156))) (a b : Nat) :
    ∀ n k, zip3 ((List.range' k (n + a)).map x) ((List.range' (k + 1) (n + b)).map x) ((List.range' (k + 156) n).map x) =
      (List.range' (k + 312) n).map x
  | 0, k => by
    rw [List.range'_zero, List.range'_zero, List.map_nil]
    unfold zip3
    split <;> simp_all
  | n + 1, k => by
    rw [Nat.succ_add, Nat.succ_add, List.range'_succ, List.range'_succ, List.range'_succ, List.range'_succ, List.map_cons, List.map_cons,
      List.map_cons, List.map_cons, zip3, ← hrec, zip3_eq hrec a b n (k + 1)]

/-- continues with the next 312 words -/
def block {β : Type} (l : List Nat) (k : List Nat → β) : β :=
  forceList (zip3 l (l.drop 1) (l.drop 156)) fun a =>
  forceList (zip3 (l.drop 156) (l.drop 157 ++ a) a) fun b => k (a ++ b)

theorem drop_range (x : Nat → Nat) (b n d : Nat) (h : d ≤ n) :
    ((List.range' b n).map x).drop d = (List.range' (b + d) (n - d)).map x := by
  rw [← List.map_drop]
  congr 1
  apply List.ext_getElem?
  intro i
  rw [List.getElem?_drop]
  by_cases hi : d + i < n
  · rw [List.getElem?_range' hi, List.getElem?_range' (by omega)]
    congr 1
    omega
  · rw [List.getElem?_eq_none (by simp; omega), List.getElem?_eq_none (by simp; omega)]

theorem append_range (x : Nat → Nat) (b n m : Nat) :
    (List.range' b n).map x ++ (List.range' (b + n) m).map x = (List.range' b (n + m)).map x := by
  rw [← List.map_append]
  congr 1
  have := List.range'_append (s := b) (m := n) (n := m) (step := 1)
  rw [Nat.one_mul] at this
  exact this

theorem block_eq {β : Type} {x : Nat → Nat} (hrec : ∀ k, x (k + 312) = nextWord (x k) (x (k + 1)) (x (k + 156))) (b : Nat)
    (k : List Nat → β) : block ((List.range' b 312).map x) k = k ((List.range' (b + 312) 312).map x) := by
  unfold block
  rw [forceList_eq, forceList_eq, drop_range x b 312 1 (by norm_num), drop_range x b 312 156 (by norm_num),
    drop_range x b 312 157 (by norm_num)]
  have h1 := zip3_eq hrec 156 155 156 b
  rw [show 312 = 156 + 156 from rfl] at *
  norm_num at h1 ⊢
  rw [h1]
  have h2 := append_range x (b + 157) 155 156
  have h3 := zip3_eq hrec 0 155 156 (b + 156)
  have h4 := append_range x (b + 312) 156 156
  rw [show b + 157 + 155 = b + 312 by omega] at h2
  rw [show b + 156 + 1 = b + 157 by omega, show b + 156 + 156 = b + 312 by omega, show b + 156 + 312 = b + 312 + 156 by omega] at h3
  norm_num at h2 h3 h4
  rw [h2, h3, h4]

/-- random words of several blocks -/
def drawn : Nat → List Nat → List Nat
  | 0, _ => []
  | n + 1, l => block l fun m => m.map temper ++ drawn n m

theorem drawn_eq {x : Nat → Nat} (hrec : ∀ k, x (k + 312) = nextWord (x k) (x (k + 1)) (x (k + 156))) :
    ∀ n b, drawn n ((List.range' b 312).map x) = (List.range' (b + 312) (312 * n)).map fun k => temper (x k)
  | 0, b => rfl
  | n + 1, b => by
    rw [drawn, block_eq hrec, drawn_eq hrec n, List.map_map, Nat.mul_succ, Nat.add_comm (312 * n)]
    exact append_range (fun k => temper (x k)) (b + 312) 312 (312 * n)

/-- an offset of `2^31` removes the sign -/
def shifted (x : Nat) : Nat := (x + 2147483648) % 4294967296

/-- the words that give test values, as offset values; `d` is the limit for the depth, `left` what is left of it -/
def pick (d : Nat) : Nat → Nat → List Nat → Option (List Nat)
  | 0, _, _ => some []
  | _ + 1, _, [] => none
  | _ + 1, 0, _ :: _ => none
  | n + 1, left + 1, x :: xs =>
    if 536870912 ≤ shifted x ∧ shifted x ≤ 3758096384 then
      (pick d n d xs).map fun l => (shifted x / 64 - 8388608) :: l
    else pick d (n + 1) left xs

theorem shifted_eq (x : Nat) : (shifted x : Int) = signed x + 2147483648 := by
  unfold shifted signed
  split_ifs <;> omega

theorem pick_ok {x : Nat → Nat} (hx : ∀ k, x k < 2 ^ 64)
    (hrec : ∀ k, x (k + 312) = nextWord (x k) (x (k + 1)) (x (k + 156))) (d : Nat) : ∀ (len n left m : Nat) (t : Twister)
    (l : List Nat), At x m t → pick d (n + 1) left ((List.range' m len).map fun k => temper (x k)) = some l →
    ∃ p ps t1 t2 , generateProb left t = some (p, t1) ∧ generateProbs d n t1 = some (ps, t2) ∧
      p :: ps = l.map (fun n : Nat => (n : Int) - 25165824) ∧ l.all (fun n => decide (n ≤ 50331648)) := by
  intro len
  induction len with
  | zero =>
    intro n left m t l _ h
    rw [List.range'_zero, List.map_nil, pick] at h
    cases h
  | succ len ih =>
    intro n left m t l ht h
    rw [List.range'_succ, List.map_cons] at h
    cases left with
    | zero => rw [pick] at h; cases h
    | succ left =>
      obtain ⟨t', h1, h2⟩ := next_eq hx hrec ht
      rw [pick] at h
      have hs := shifted_eq (temper (x m))
      by_cases hc : 536870912 ≤ shifted (temper (x m)) ∧ shifted (temper (x m)) ≤ 3758096384
      · rw [if_pos hc, Option.map_eq_some_iff] at h
        obtain ⟨l', h3, rfl⟩ := h
        have ha : Accepted (temper (x m)) := by rw [accepted_iff]; omega
        have hv : valueOf (temper (x m)) = ((shifted (temper (x m)) / 64 - 8388608 : Nat) : Int) - 25165824 := by
          rw [valueOf_eq]; omega
        cases n with
        | zero =>
          rw [pick] at h3
          obtain rfl := Option.some.inj h3
          refine ⟨_, [], t', t', generate_accept h1 ha, rfl, by rw [hv]; rfl, ?_⟩
          simp only [List.all_cons, List.all_nil, Bool.and_true, decide_eq_true_eq]
          omega
        | succ n =>
          obtain ⟨p, ps, t1, t2, e1, e2, e3, e4⟩ := ih n d (m + 1) t' l' h2 h3
          refine ⟨_, p :: ps, t', t2, generate_accept h1 ha, ?_, by rw [hv, e3]; rfl, ?_⟩
          · rw [generateProbs, e1, ob_some]
            dsimp only
            rw [e2]
            rfl
          · rw [List.all_cons, e4, Bool.and_true, decide_eq_true_eq]
            omega
      · rw [if_neg hc] at h
        have ha : ¬Accepted (temper (x m)) := by rw [accepted_iff]; omega
        obtain ⟨p, ps, t1, t2, e1, e2⟩ := ih n left (m + 1) t' l h2 h
        exact ⟨p, ps, t1, t2, by rw [generate_reject h1 ha, e1], e2⟩

/-- the value of squash at an offset value -/
def sqFast (n : Nat) : Nat := sqOut (n / 16384) (n % 16384)

/-- the value of stretch, with an offset -/
def stFast (p : Nat) : Nat := if p < 1073741824 then 33554432 - stretchMag p else 33554432 + stMag p

/-- sums over the values of squash and stretch, the latter with offsets -/
def sums : List Nat → Nat → Nat → Nat × Nat
  | [], a, b => (a, b)
  | n :: l, a, b => forceNat (sqFast n) fun q => forceNat (a + q) fun a => forceNat (b + stFast q) fun b => sums l a b

theorem sums_eq : ∀ l a b, sums l a b = (a + (l.map sqFast).sum, b + (l.map fun n => stFast (sqFast n)).sum)
  | [], a, b => by simp [sums]
  | n :: l, a, b => by
    rw [sums, forceNat_eq, forceNat_eq, forceNat_eq, sums_eq l, List.map_cons, List.sum_cons, List.map_cons, List.sum_cons]
    congr 1 <;> omega

/-- the whole computation for at most five blocks of words -/
def fastBench (d : Nat) : Option (Nat × Nat) :=
  forceList (lcgList 312 0 5489) fun l =>
  (pick d 1000 d (drawn 5 l)).map fun l => sums l 0 0

set_option maxRecDepth 1000000 in
theorem fastBench_eq : fastBench 6 = some (1069986437122, 33134666048) := by decide +kernel

theorem generateProb_mono : ∀ {d e : Nat} {t : Twister} {r : Int × Twister}, d ≤ e → generateProb d t = some r → generateProb e t = some r
  | 0, _, _, _, _, h => by rw [generateProb] at h; cases h
  | d + 1, 0, _, _, h, _ => by omega
  | d + 1, e + 1, t, r, h, hr => by
    rw [generateProb] at hr ⊢
    cases hn : nextInt64 t with
    | none => rw [hn] at hr; cases hr
    | some a =>
      rw [hn, ob_some] at hr
      rw [ob_some]
      dsimp only at hr ⊢
      split_ifs at hr ⊢ with hc
      · exact generateProb_mono (by omega) hr
      · exact hr

theorem generateProbs_mono {d e : Nat} (h : d ≤ e) : ∀ {n : Nat} {t : Twister} {r : List Int × Twister}, generateProbs d n t = some r →
    generateProbs e n t = some r
  | 0, _, _, hr => hr
  | n + 1, t, r, hr => by
    rw [generateProbs] at hr ⊢
    cases hn : generateProb d t with
    | none => rw [hn] at hr; cases hr
    | some a =>
      rw [hn, ob_some] at hr
      rw [generateProb_mono h hn, ob_some]
      dsimp only at hr ⊢
      cases hm : generateProbs d n a.2 with
      | none => rw [hm] at hr; cases hr
      | some b => rw [hm] at hr; rw [generateProbs_mono h hm]; exact hr

theorem stFast_eq {p : Nat} (h0 : 0 < p) (h : p < 2 ^ 31) : (stFast p : Int) = stOut p + 33554432 := by
  obtain ⟨-, h1, h2⟩ := stretch_eq stretchTable_ok h0 h
  unfold stFast
  unfold stOut at h1 h2 ⊢
  norm_num at h1 h2 ⊢
  split_ifs at h1 h2 ⊢ <;> omega

theorem sum_map_offset (f : Nat → Nat) (g : Nat → Int) (c : Int) : ∀ l : List Nat, (∀ a ∈ l, (f a : Int) = g a + c) →
    (((l.map f).sum : Nat) : Int) = (l.map g).sum + l.length * c
  | [], _ => by simp
  | a :: l, h => by
    rw [List.map_cons, List.sum_cons, List.map_cons, List.sum_cons, List.length_cons]
    rw [Nat.cast_add, Nat.cast_add, Nat.cast_one, h a (by simp), sum_map_offset f g c l fun a ha => h a (by simp [ha])]
    ring

theorem sqFast_range {n : Nat} (h : n ≤ 50331648) : squash squashTable ((n : Int) - 25165824) = some (sqFast n) :=
  squash_at (j := n / 16384) (d := n % 16384) (Nat.mod_lt _ (by norm_num)) (by omega) (by rw [Nat.div_add_mod])

/-- **C70 (run).** The benchmark finishes. Each test value takes at most six random words, and these checksums are printed. -/
theorem C70_run (depth : Nat) (h : 6 ≤ depth) : bench depth = some (10699864371220000, 10699864371220000, -4197659520000) := by
  have hf := fastBench_eq
  unfold fastBench at hf
  rw [forceList_eq, Option.map_eq_some_iff] at hf
  obtain ⟨l, hl, hs⟩ := hf
  have hlt : ∀ k, wordsFrom (lcg 5489) k < 2 ^ 64 := wordsFrom_lt fun k _ => lcg_lt (seed := 5489) (by norm_num) k
  have hrec := wordsFrom_step (lcg 5489)
  have hseed : lcgList 312 0 5489 = (List.range' 0 312).map (wordsFrom (lcg 5489)) := by
    have := lcgList_eq 5489 312 0
    rw [show lcg 5489 0 = 5489 from rfl] at this
    rw [this]
    refine List.map_congr_left fun k hk => ?_
    rw [List.mem_range'_1] at hk
    rw [wordsFrom_start (by omega)]
  rw [hseed, drawn_eq hrec] at hl
  have hat : At (wordsFrom (lcg 5489)) (0 + 312) { state := tab (lcg 5489), index := 312 } :=
    ⟨⟨0, tab_congr fun k hk => by rw [Nat.zero_add, wordsFrom_start hk], rfl⟩, le_refl _⟩
  obtain ⟨p, ps, t1, t2, e1, e2, e3, e4⟩ := pick_ok hlt hrec 6 _ 999 6 _ _ l hat hl
  have hgen : generateProbs depth 1000 { state := tab (lcg 5489), index := 312 } = some (p :: ps, t2) := by
    apply generateProbs_mono h
    rw [generateProbs, e1, ob_some]
    dsimp only
    rw [e2]
    rfl
  obtain ⟨tables, ht⟩ := Pred.C52_tables
  obtain ⟨hst, hsq⟩ := tables_luts ht
  have hst' : tables.stretch = stretchTable := by
    rw [stretchLut_eq] at hst
    exact (Option.some.inj hst).symm
  have hsq' : tables.squash = squashTable := by
    rw [hst', squashLut_eq stretchTable_ok] at hsq
    exact (Option.some.inj hsq).symm
  rw [List.all_eq_true] at e4
  have hrange : ∀ q ∈ p :: ps, |q| ≤ 12 * 2 ^ 21 := by
    intro q hq
    rw [e3, List.mem_map] at hq
    obtain ⟨n, hn, rfl⟩ := hq
    have := e4 n hn
    rw [decide_eq_true_eq] at this
    rw [abs_le]
    omega
  have hplen : ps.length = 999 := by
    clear hl hs e1 e3 hgen hrange
    have : ∀ n (t : Twister) qs t', generateProbs 6 n t = some (qs, t') → qs.length = n := by
      intro n
      induction n with
      | zero => intro t qs t' h; rw [generateProbs] at h; cases h; rfl
      | succ n ih =>
        intro t qs t' h
        rw [generateProbs] at h
        simp only [Option.bind_eq_bind, Option.bind_eq_some_iff] at h
        obtain ⟨a, -, b, hb, hc⟩ := h
        cases hc
        rw [List.length_cons, ih _ _ _ hb]
    exact this _ _ _ _ e2
  have hllen : l.length = 1000 := by
    have := congrArg List.length e3
    rw [List.length_cons, List.length_map, hplen] at this
    omega
  obtain ⟨qs, rs, m1, m2, m3⟩ := C70_checksums ht (p :: ps) hrange 10000 10000 (by rw [List.length_cons, hplen]; norm_num)
    (by rw [List.length_cons, hplen]; norm_num)
  have hq : qs = l.map sqFast := by
    have : (p :: ps).mapM (squash tables.squash) = some (l.map sqFast) := by
      rw [e3, hsq']
      apply forall2_mapM
      rw [List.forall₂_map_left_iff, List.forall₂_map_right_iff, List.forall₂_same]
      intro n hn
      have := e4 n hn
      rw [decide_eq_true_eq] at this
      exact sqFast_range this
    rw [m1] at this
    exact Option.some.inj this
  have hb : ∀ n ∈ l, 0 < sqFast n ∧ sqFast n < 2 ^ 31 := by
    intro n hn
    have h1 := e4 n hn
    rw [decide_eq_true_eq] at h1
    obtain ⟨lut, table, a1, a2, -, a3⟩ := C36_squash
    rw [stretchLut_eq] at a1
    obtain rfl := Option.some.inj a1
    rw [squashLut_eq stretchTable_ok] at a2
    obtain rfl := Option.some.inj a2
    obtain ⟨r, b1, -, b2, b3⟩ := a3 ((n : Int) - 25165824) (by rw [abs_le]; omega)
    rw [sqFast_range h1] at b1
    obtain rfl := Option.some.inj b1
    omega
  have hr : rs = l.map fun n => stOut (sqFast n) := by
    have : qs.mapM (stretch tables.stretch) = some (l.map fun n => stOut (sqFast n)) := by
      rw [hq, hst']
      apply forall2_mapM
      rw [List.forall₂_map_left_iff, List.forall₂_map_right_iff, List.forall₂_same]
      intro n hn
      exact (stretch_eq stretchTable_ok (hb n hn).1 (hb n hn).2).1
    rw [m2] at this
    exact Option.some.inj this
  rw [sums_eq, Nat.zero_add, Nat.zero_add, Prod.mk.injEq] at hs
  have h2 := sum_map_offset (fun n => stFast (sqFast n)) (fun n => stOut (sqFast n)) 33554432 l
    fun n hn => stFast_eq (hb n hn).1 (hb n hn).2
  rw [hs.2, ← hr, hllen] at h2
  have h3 : rs.sum = -419765952 := by push_cast at h2; omega
  unfold bench
  rw [ht, ob_some]
  unfold Random.default
  rw [scalar_eq, ob_some, hgen, ob_some]
  dsimp only
  rw [m3, hq, hs.1, h3]
  rfl

end Verif.Bin
