import Verif.State.Model
import Verif.Bits
import Mathlib.Data.List.TakeWhile

/-!
# C18, C19: bit history trackers

Specification: `Bits.enc` (bits with a leading one) of the last 15 bits; lengths of maximal runs computed
from the reversed bit list.
-/

namespace Verif.State

open Verif Verif.Bits

/-! ## C18 -/

theorem or_top {y : Nat} (h : y < 2 ^ 16) : y ||| 2 ^ 15 = 2 ^ 15 + y % 2 ^ 15 := by
  by_cases hc : y < 2 ^ 15
  · rw [Nat.mod_eq_of_lt hc, Nat.or_comm]
    have := Nat.two_pow_add_eq_or_of_lt hc 1
    rw [mul_one] at this
    exact this.symm
  · have h2 : y % 2 ^ 15 < 2 ^ 15 := Nat.mod_lt _ (by norm_num)
    have e : y = 2 ^ 15 ||| y % 2 ^ 15 := by
      have := Nat.two_pow_add_eq_or_of_lt h2 1
      rw [mul_one] at this
      rw [← this]; omega
    have h3 := Nat.two_pow_add_eq_or_of_lt h2 1
    rw [mul_one] at h3
    rw [h3]
    conv_lhs => rw [e]
    rw [Nat.or_assoc, Nat.or_comm (y % 2 ^ 15), ← Nat.or_assoc, Nat.or_self]

/-- one update of a history holding the bits `l` -/
theorem recentUpdated_enc (l : List Bool) (hl : l.length ≤ 15) (b : Bool) :
    recentUpdated (enc l) b = some (enc (lastN 15 (l ++ [b]))) := by
  have hb : b.toNat ≤ 1 := by cases b <;> simp
  have hlt := enc_lt l
  rcases Nat.lt_or_eq_of_le hl with h | h
  · have h15 : enc l < 2 ^ 15 :=
      lt_of_lt_of_le hlt (Nat.pow_le_pow_right (by norm_num) (by omega))
    unfold recentUpdated
    rw [u16_eq (by omega), ob_some, Nat.div_eq_of_lt h15, Nat.zero_mod, zero_mul]
    dsimp only
    rw [Nat.or_zero, lastN_of_le (by simp; omega), enc_snoc]
    congr 1; omega
  · -- full history: the oldest bit is dropped
    obtain ⟨a, m, rfl⟩ : ∃ a m, l = a :: m := by
      cases l with
      | nil => simp at h
      | cons a m => exact ⟨a, m, rfl⟩
    have hm : m.length = 14 := by simpa using h
    have hv := val_lt m
    rw [hm] at hv
    have e : enc (a :: m) = 2 ^ 15 + (a.toNat * 2 ^ 14 + val m) := by
      unfold enc; rw [val_cons, hm]; simp [hm]
    have ha : a.toNat ≤ 1 := by cases a <;> simp
    have e2 : lastN 15 ((a :: m) ++ [b]) = m ++ [b] := by unfold lastN; simp [hm]
    rw [e2, enc_snoc]
    have e3 : enc m = 2 ^ 14 + val m := by unfold enc; rw [hm]
    unfold recentUpdated
    rw [e, u16_eq (by omega), ob_some]
    dsimp only
    have e4 : (2 ^ 15 + (a.toNat * 2 ^ 14 + val m)) / 2 ^ 15 % 2 * 2 ^ 15 = 2 ^ 15 := by omega
    rw [e4, or_top (by omega), e3]
    congr 1
    omega

theorem recentRun_enc (bits : List Bool) : ∀ l : List Bool, l.length ≤ 15 →
    recentRun (enc l) bits = some (enc (lastN 15 (l ++ bits))) := by
  induction bits with
  | nil => intro l h; rw [List.append_nil, lastN_of_le h]; rfl
  | cons b bits ih =>
    intro l h
    rw [recentRun, recentUpdated_enc l h b, ob_some, ih _ (by rw [lastN_length]; omega)]
    congr 2
    unfold lastN
    simp only [List.length_append, List.length_drop, List.length_cons, List.length_nil]
    by_cases hc : l.length + (0 + 1) ≤ 15
    · rw [show l.length + (0 + 1) - 15 = 0 by omega, List.drop_zero, List.append_assoc,
        List.singleton_append]
      congr 1; omega
    · rw [show l.length + (0 + 1) - 15 = 1 by omega]
      obtain ⟨a, m, rfl⟩ : ∃ a m, l = a :: m := by
        cases l with
        | nil => simp at hc
        | cons a m => exact ⟨a, m, rfl⟩
      simp only [List.cons_append, List.drop_succ_cons, List.drop_zero, List.append_assoc,
        List.nil_append, List.length_cons]
      rw [show m.length + 1 + (bits.length + 1) - 15 = (m.length + 1 + (0 + 1) - 1 + bits.length - 15) + 1
        by simp only [List.length_cons] at hc h; omega]
      rw [List.drop_succ_cons]

/-- **C18.** For every bit sequence fed to the empty history the update never panics and the history holds
exactly the last 15 bits, and exactly those: two sequences give the same history only if their last 15
bits agree. -/
theorem C18_last_bits (bits : List Bool) :
    ∃ x, (recentForBitRun false 0).bind (fun x => recentRun x bits) = some x ∧
      x = enc (lastN 15 bits) ∧ x ≠ 0 ∧ x < 2 ^ 16 ∧
      ∀ bits', recentRun (enc []) bits' = some x → lastN 15 bits' = lastN 15 bits := by
  have h0 : recentForBitRun false 0 = some (enc []) := by decide +kernel
  refine ⟨enc (lastN 15 bits), ?_, rfl, ?_, ?_, ?_⟩
  · rw [h0, Option.bind_some, recentRun_enc bits [] (by simp), List.nil_append]
  · unfold enc; positivity
  · refine lt_of_lt_of_le (enc_lt _) (Nat.pow_le_pow_right (by norm_num) ?_)
    rw [lastN_length]; omega
  · intro bits' h
    rw [recentRun_enc bits' [] (by simp), Option.some.injEq, List.nil_append] at h
    exact enc_inj h

/-- **C18 (constructors).** The run and new-context constructors equal feeding the bits one by one. -/
theorem C18_constructors (b : Bool) (n : Nat) :
    recentForBitRun b n = some (enc (lastN 15 (List.replicate n b))) ∧
    recentForNewNode b n = some (enc (lastN 15 (List.replicate n (!b) ++ [b]))) := by
  have hrep : ∀ (b : Bool) (n : Nat), lastN 15 (List.replicate n b) = List.replicate (min n 15) b := by
    intro b n
    unfold lastN
    rw [List.drop_replicate, List.length_replicate]
    congr 1; omega
  have hrun : ∀ (b : Bool) (n : Nat),
      recentForBitRun b n = some (enc (List.replicate (min n 15) b)) := by
    intro b n
    unfold recentForBitRun enc
    dsimp only
    have hk : min n 15 ≤ 15 := by omega
    generalize min n 15 = k at *
    have hp : 2 ^ k ≤ 2 ^ 15 := Nat.pow_le_pow_right (by norm_num) hk
    have hp1 : 1 ≤ 2 ^ k := Nat.one_le_two_pow
    rw [List.length_replicate]
    cases b
    · rw [val_replicate_false]
      simp only [Bool.toNat_false, zero_mul]
      rw [subU_eq (by omega), ob_some, u16_eq (by omega), ob_some]
      simp
    · rw [val_replicate_true]
      simp only [Bool.toNat_true, one_mul]
      rw [subU_eq hp1, ob_some, u16_eq (by omega), ob_some]
      have h1 := Nat.two_pow_add_eq_or_of_lt (show 2 ^ k - 1 < 2 ^ k by omega) 1
      rw [mul_one] at h1
      rw [Nat.add_comm (2 ^ k - 1), h1, ← Nat.or_assoc, Nat.or_self, ← h1]
  refine ⟨by rw [hrun, hrep], ?_⟩
  unfold recentForNewNode
  rw [hrun, ob_some, recentUpdated_enc _ (by simp)]
  congr 2
  unfold lastN
  rw [List.length_append, List.length_append, List.length_replicate, List.length_replicate,
    List.length_singleton]
  by_cases h : n ≤ 15
  · rw [show min n 15 = n by omega]
  · rw [show min n 15 = 15 by omega, List.drop_append_of_le_length (by simp),
      List.drop_append_of_le_length (by simp), List.drop_replicate, List.drop_replicate]
    congr 2; omega

theorem countOnes_enc (k : Nat) (l : List Bool) (h : l.length < k) :
    countOnes k (enc l) = l.count true + 1 := by
  induction l using List.reverseRecOn generalizing k with
  | nil =>
    obtain ⟨k, rfl⟩ : ∃ j, k = j + 1 := ⟨k - 1, by omega⟩
    have hz : ∀ k, countOnes k 0 = 0 := by
      intro k; induction k with
      | zero => rfl
      | succ k ih => rw [countOnes]; simp [ih]
    rw [countOnes]; simp [enc, hz]
  | append_singleton l b ih =>
    rw [List.length_append, List.length_singleton] at h
    obtain ⟨k, rfl⟩ : ∃ j, k = j + 1 := ⟨k - 1, by omega⟩
    rw [countOnes, enc_snoc]
    have hb : b.toNat ≤ 1 := by cases b <;> simp
    rw [show (2 * enc l + b.toNat) / 2 = enc l by omega, ih k (by omega),
      show (2 * enc l + b.toNat) % 2 = b.toNat by omega, List.count_append]
    cases b <;> simp <;> omega

/-- **C18 (queries).** For every stored history the histogram is the pair (ones, zeros) of the stored
bits and `last_7_bits` is the encoding of the last seven. Neither panics. -/
theorem C18_queries (l : List Bool) (h : l.length ≤ 15) :
    recentHistogram (enc l) = some (16 * l.count true + l.count false) ∧
    recentLast7 (enc l) = enc (lastN 7 l) := by
  have hcount : l.count true + l.count false = l.length := by
    induction l with
    | nil => rfl
    | cons b l ih =>
      have := ih (by simp at h; omega)
      cases b <;> simp <;> omega
  have hpos : enc l ≠ 0 := by unfold enc; positivity
  constructor
  · unfold recentHistogram
    rw [check_pos hpos, ob_some, if_neg hpos, log2_enc]
    dsimp only
    rw [subU_eq (by omega), ob_some, countOnes_enc 16 l (by omega), subU_eq (by omega), ob_some,
      subU_eq (by omega), ob_some, check_pos (by omega), ob_some]
    rw [show l.count true + 1 - 1 = l.count true by omega,
      show 15 - (15 - l.length) - l.count true = l.count false by omega]
    have hw : wrapU8 (l.count true * 2 ^ 4) = 2 ^ 4 * l.count true := by unfold wrapU8; omega
    rw [hw, ← Nat.two_pow_add_eq_or_of_lt (by omega)]
  · unfold recentLast7
    dsimp only
    have hsplit : enc l = enc (l.take (l.length - 7)) * 2 ^ (lastN 7 l).length + val (lastN 7 l) := by
      have : l = l.take (l.length - 7) ++ lastN 7 l := by unfold lastN; rw [List.take_append_drop]
      conv_lhs => rw [this]
      unfold enc
      rw [List.length_append, val_append, pow_add]; ring
    have hv := val_lt (lastN 7 l)
    have hlen := lastN_length 7 l
    by_cases hc : 7 ≤ l.length
    · have h7 : (lastN 7 l).length = 7 := by omega
      rw [h7] at hsplit hv
      have hge : 1 ≤ enc (l.take (l.length - 7)) := by
        unfold enc
        have : 1 ≤ 2 ^ (l.take (l.length - 7)).length := Nat.one_le_two_pow
        omega
      rw [if_pos (by omega), show enc l % 128 = val (lastN 7 l) by omega]
      have := Nat.two_pow_add_eq_or_of_lt hv 1
      norm_num at this
      rw [← this]
      unfold wrapU8 enc
      rw [h7]; norm_num; omega
    · rw [lastN_of_le (by omega)]
      have := enc_lt l
      have h2 : 2 ^ (l.length + 1) ≤ 2 ^ 7 := Nat.pow_le_pow_right (by norm_num) (by omega)
      rw [if_neg (by omega), Nat.zero_or]
      unfold wrapU8; omega

example : (recentForBitRun false 0).bind (fun x => recentRun x [true, false, true, true]) = some 27 ∧
    enc (lastN 15 [true, false, true, true]) = 27 ∧ recentHistogram 27 = some 0x31 := by decide +kernel

/-! ## C19 -/

/-- length of the maximal run of equal bits at the head of a list -/
def headRun : List Bool → Nat
  | [] => 0
  | b :: l => (l.takeWhile (· == b)).length + 1

/-- the list without its leading run -/
def dropRun : List Bool → List Bool
  | [] => []
  | b :: l => l.dropWhile (· == b)

/-- the last bit fed (zero for the empty history) and the lengths of the last, last but one and last but
two maximal runs; specification on the plain bit list -/
def specRuns (bits : List Bool) : Bool × Nat × Nat × Nat :=
  let r := bits.reverse
  (r.headD false, headRun r, headRun (dropRun r), headRun (dropRun (dropRun r)))

/-- packing of the four fields -/
def packRuns (b : Bool) (x y z : Nat) : Nat := b.toNat + 2 * x + 2 ^ 11 * y + 2 ^ 21 * z

theorem or3 {b x y : Nat} (hb : b ≤ 1) (hx : x ≤ 1000) (hy : y ≤ 1000) :
    ((b ||| 2) ||| wrapU32 (x * 2 ^ 11)) ||| wrapU32 (y * 2 ^ 21) = b + 2 + 2 ^ 11 * x + 2 ^ 21 * y := by
  have w1 : wrapU32 (x * 2 ^ 11) = 2 ^ 11 * x := by unfold wrapU32; omega
  have w2 : wrapU32 (y * 2 ^ 21) = 2 ^ 21 * y := by unfold wrapU32; omega
  have e1 : b ||| 2 = b + 2 := by
    have : b = 0 ∨ b = 1 := by omega
    rcases this with rfl | rfl <;> rfl
  rw [w1, w2, e1, Nat.or_comm (b + 2), ← Nat.two_pow_add_eq_or_of_lt (by omega), Nat.or_comm,
    ← Nat.two_pow_add_eq_or_of_lt (by omega)]
  omega

theorem runsLastBit_pack (b : Bool) (x y z : Nat) : runsLastBit (packRuns b x y z) = b := by
  unfold runsLastBit packRuns
  cases b <;> simp <;> omega

theorem runs_fields (b : Bool) {x y z : Nat} (hx : x ≤ 1000) (hy : y ≤ 1000) (hz : z ≤ 1000) :
    runsLast (packRuns b x y z) = x ∧ runsOpposite (packRuns b x y z) = y ∧
      runsPrevious (packRuns b x y z) = z ∧ packRuns b x y z < 2 ^ 32 := by
  have hb : b.toNat ≤ 1 := by cases b <;> simp
  unfold runsLast runsOpposite runsPrevious packRuns wrapU16
  omega

theorem runsUpdated_pack (a b : Bool) {x y z : Nat} (hx : x ≤ 1000) (hy : y ≤ 1000) (hz : z ≤ 1000) :
    runsUpdated (packRuns a x y z) b =
      some (if b = a then packRuns a (min (x + 1) 1000) y z else packRuns b 1 x y) := by
  obtain ⟨h1, h2, h3, h4⟩ := runs_fields a hx hy hz
  unfold runsUpdated
  rw [runsLastBit_pack]
  by_cases hab : b = a
  · rw [if_pos hab, if_pos hab, h1]
    by_cases hc : x < 1000
    · rw [if_pos hc, show min (x + 1) 1000 = x + 1 by omega]
      unfold packRuns at *
      have hb : a.toNat ≤ 1 := by cases a <;> simp
      rw [u32_eq (by omega)]
      congr 1; ring
    · rw [if_neg hc, show min (x + 1) 1000 = x by omega]
  · have hb : b.toNat ≤ 1 := by cases b <;> simp
    rw [if_neg hab, if_neg hab, h1, h2, or3 hb hx hy]
    unfold packRuns
    congr 1

/-- the packed word for a bit history -/
def specWord (bits : List Bool) : Nat :=
  let s := specRuns bits
  packRuns s.1 (min s.2.1 1000) (min s.2.2.1 1000) (min s.2.2.2 1000)

theorem headRun_cons_same (b : Bool) (l : List Bool) : headRun (b :: b :: l) = headRun (b :: l) + 1 := by
  simp [headRun]

theorem dropRun_cons_same (b : Bool) (l : List Bool) : dropRun (b :: b :: l) = dropRun (b :: l) := by
  simp [dropRun]

theorem headRun_cons_diff {a b : Bool} (h : a ≠ b) (l : List Bool) : headRun (b :: a :: l) = 1 := by
  simp [headRun, h]

theorem dropRun_cons_diff {a b : Bool} (h : a ≠ b) (l : List Bool) : dropRun (b :: a :: l) = a :: l := by
  simp [dropRun, h]

theorem runsUpdated_spec (bits : List Bool) (b : Bool) :
    runsUpdated (specWord bits) b = some (specWord (bits ++ [b])) := by
  unfold specWord specRuns
  dsimp only
  rw [runsUpdated_pack _ _ (by omega) (by omega) (by omega), List.reverse_append, List.reverse_singleton,
    List.singleton_append]
  generalize bits.reverse = r
  cases r with
  | nil =>
    cases b
    · rfl
    · rfl
  | cons a l =>
    rw [show (a :: l).headD false = a from rfl, show (b :: a :: l).headD false = b from rfl]
    by_cases h : b = a
    · subst h
      rw [if_pos rfl, headRun_cons_same, dropRun_cons_same]
      congr 2; omega
    · rw [if_neg h, headRun_cons_diff (Ne.symm h), dropRun_cons_diff (Ne.symm h)]
      rfl

theorem runsRun_spec (more : List Bool) : ∀ bits : List Bool,
    runsRun (specWord bits) more = some (specWord (bits ++ more)) := by
  induction more with
  | nil => intro bits; rw [List.append_nil]; rfl
  | cons b more ih =>
    intro bits
    rw [runsRun, runsUpdated_spec, ob_some, ih, List.append_assoc, List.singleton_append]

/-- **C19.** For every bit sequence, feeding it to a new tracker never panics, and the four getters report
the last bit and the lengths of the last three maximal runs, each capped at 1000. -/
theorem C19_runs (bits : List Bool) :
    ∃ x, runsRun runsNew bits = some x ∧ x < 2 ^ 32 ∧
      runsLastBit x = (specRuns bits).1 ∧ runsLast x = min (specRuns bits).2.1 1000 ∧
      runsOpposite x = min (specRuns bits).2.2.1 1000 ∧
      runsPrevious x = min (specRuns bits).2.2.2 1000 := by
  have h : runsRun runsNew bits = some (specWord bits) := runsRun_spec bits []
  refine ⟨_, h, ?_⟩
  obtain ⟨h1, h2, h3, h4⟩ := runs_fields (specRuns bits).1 (x := min (specRuns bits).2.1 1000)
    (y := min (specRuns bits).2.2.1 1000) (z := min (specRuns bits).2.2.2 1000)
    (by omega) (by omega) (by omega)
  exact ⟨h4, runsLastBit_pack _ _ _ _, h1, h2, h3⟩

/-- **C19 (single run).** The single-run query holds exactly when all bits fed so far are equal. -/
theorem C19_single (bits : List Bool) (x : Nat) (h : runsRun runsNew bits = some x) :
    runsIsSingle x = true ↔ ∃ b n, bits = List.replicate n b := by
  have h' : runsRun runsNew bits = some (specWord bits) := runsRun_spec bits []
  rw [h, Option.some.injEq] at h'
  subst h'
  have hrev : (∃ b n, bits = List.replicate n b) ↔ ∃ b n, bits.reverse = List.replicate n b := by
    constructor
    · rintro ⟨b, n, rfl⟩; exact ⟨b, n, by simp⟩
    · rintro ⟨b, n, e⟩
      exact ⟨b, n, by rw [← List.reverse_reverse bits, e, List.reverse_replicate]⟩
  rw [hrev]
  unfold runsIsSingle specWord specRuns packRuns
  dsimp only
  generalize bits.reverse = r
  have hb : (r.headD false).toNat ≤ 1 := by cases r.headD false <;> simp
  have key : decide (((r.headD false).toNat + 2 * min (headRun r) 1000 +
      2 ^ 11 * min (headRun (dropRun r)) 1000 + 2 ^ 21 * min (headRun (dropRun (dropRun r))) 1000) / 2 ≤ 1000)
      = true ↔ headRun (dropRun r) = 0 := by
    rw [decide_eq_true_iff]
    constructor
    · intro h; omega
    · intro h
      have : dropRun r = [] := by
        cases hd : dropRun r with
        | nil => rfl
        | cons a l => rw [hd] at h; simp [headRun] at h
      rw [this, show headRun [] = 0 from rfl, show dropRun [] = [] from rfl,
        show headRun [] = 0 from rfl]
      omega
  rw [key]
  cases r with
  | nil => simp [dropRun, headRun]
  | cons b l =>
    have : headRun (dropRun (b :: l)) = 0 ↔ l.dropWhile (· == b) = [] := by
      simp only [dropRun]
      cases l.dropWhile (· == b) with
      | nil => simp [headRun]
      | cons a m => simp [headRun]
    rw [this, List.dropWhile_eq_nil_iff]
    constructor
    · intro h
      exact ⟨b, l.length + 1, by
        rw [List.replicate_succ]; congr 1
        exact List.eq_replicate_of_mem (fun x hx => by simpa using h x hx)⟩
    · rintro ⟨c, n, e⟩ x hx
      cases n with
      | zero => simp at e
      | succ n =>
        rw [List.replicate_succ, List.cons.injEq] at e
        rw [e.2] at hx
        have := List.eq_of_mem_replicate hx
        simp [this, e.1]

/-- **C19 (constructors).** The constructors for a run and for a new context equal feeding the bits. -/
theorem C19_constructors (b : Bool) (n : Nat) :
    (0 < n → runsForBitRun b n = runsRun runsNew (List.replicate n b)) ∧
    runsForNewNode b n = runsRun runsNew (List.replicate n (!b) ++ [b]) := by
  have hrun : ∀ (b : Bool) (n : Nat), 0 < n → runsForBitRun b n = some (specWord (List.replicate n b)) := by
    intro b n hn
    obtain ⟨n, rfl⟩ : ∃ m, n = m + 1 := ⟨n - 1, by omega⟩
    unfold runsForBitRun specWord specRuns
    dsimp only
    have hb : b.toNat ≤ 1 := by cases b <;> simp
    rw [List.reverse_replicate, u32_eq (by omega), List.replicate_succ]
    have e1 : headRun (b :: List.replicate n b) = n + 1 := by simp [headRun]
    have e2 : dropRun (b :: List.replicate n b) = [] := by simp [dropRun]
    rw [e1, e2]
    simp [headRun, dropRun, packRuns]
    omega
  have hspec : ∀ bits, runsRun runsNew bits = some (specWord bits) := fun bits => runsRun_spec bits []
  refine ⟨fun hn => by rw [hrun b n hn, hspec], ?_⟩
  unfold runsForNewNode
  rw [hspec]
  by_cases hn : 0 < n
  · rw [hrun _ n hn, ob_some, runsUpdated_spec]
  · obtain rfl : n = 0 := by omega
    cases b <;> decide +kernel

example : (runsRun runsNew [false, false, true, true, true, false]).map
    (fun x => (runsLastBit x, runsLast x, runsOpposite x, runsPrevious x)) = some (false, 1, 3, 2) := by
  decide +kernel

end Verif.State
