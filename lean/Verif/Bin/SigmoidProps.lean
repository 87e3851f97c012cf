import Verif.Bin.Sigmoid
import Verif.Bin.SigmoidSpec
import Verif.Float.Props
import Verif.Lut.Props
import Verif.Pred.Props
import Verif.Random.Vector

/-!
# C70: the sigmoid benchmark

The test values are uniformly distributed over the range of stretched probabilities, all calls succeed, and the
checksums are determined.
-/

namespace Verif.Bin

open Verif Verif.Fixed Verif.Lut Verif.Random

theorem wrap_signed (x : Nat) : wrapI32 x = signed x := by
  unfold wrapI32 signed
  split_ifs <;> omega

theorem signed_range (x : Nat) : -2147483648 ≤ signed x ∧ signed x < 2147483648 := by
  rw [← wrap_signed]
  unfold wrapI32
  omega

theorem accepted_iff (x : Nat) : Accepted x ↔ ¬(signed x < -12 * 2 ^ 27 ∨ signed x > 12 * 2 ^ 27) := by
  unfold Accepted
  rw [abs_le]
  constructor
  · rintro ⟨h1, h2⟩
    rw [le_div_iff₀ (by norm_num)] at h1
    rw [div_le_iff₀ (by norm_num)] at h2
    have h1' : (-12 * 2 ^ 27 : Int) ≤ signed x := by exact_mod_cast h1
    have h2' : signed x ≤ (12 * 2 ^ 27 : Int) := by exact_mod_cast h2
    omega
  · intro h
    have h1 : (-12 * 2 ^ 27 : Int) ≤ signed x := by omega
    have h2 : signed x ≤ (12 * 2 ^ 27 : Int) := by omega
    rw [le_div_iff₀ (by norm_num), div_le_iff₀ (by norm_num)]
    exact ⟨by exact_mod_cast h1, by exact_mod_cast h2⟩

theorem valueOf_eq (x : Nat) : valueOf x = signed x / 64 := by
  unfold valueOf
  have : (signed x : ℚ) / 2 ^ 27 * 2 ^ 21 = (signed x : ℚ) / (64 : ℕ) := by push_cast; ring
  rw [this, Int.floor_div_natCast, Int.floor_intCast]
  rfl

theorem value_range {x : Nat} (h : Accepted x) : -25165824 ≤ valueOf x ∧ valueOf x ≤ 25165824 := by
  rw [accepted_iff] at h
  rw [valueOf_eq]
  omega

theorem generate_accept {d : Nat} {t t' : Twister} {x : Nat} (hn : nextInt64 t = some (x, t')) (h : Accepted x) :
    generateProb (d + 1) t = some (valueOf x, t') := by
  have hr := value_range h
  rw [accepted_iff] at h
  rw [generateProb, hn, ob_some]
  dsimp only
  rw [wrap_signed, if_neg h, valueOf_eq] at *
  unfold FixI.new stretchedProbD
  dsimp only
  rw [show (2 : Int) ^ (32 - 5 - 21) = 64 by norm_num, check_pos hr, ob_some, ob_some]

theorem generate_reject {d : Nat} {t t' : Twister} {x : Nat} (hn : nextInt64 t = some (x, t')) (h : ¬Accepted x) :
    generateProb (d + 1) t = generateProb d t' := by
  rw [accepted_iff, not_not] at h
  rw [generateProb, hn, ob_some]
  dsimp only
  rw [wrap_signed, if_pos h]

theorem generate_at {x : Nat → Nat} (hx : ∀ k, x k < 2 ^ 64)
    (hrec : ∀ k, x (k + 312) = nextWord (x k) (x (k + 1)) (x (k + 156))) : ∀ (d n : Nat) (t : Twister), At x n t →
    ∃ xs, stream d t = some xs ∧
      (((∀ y ∈ xs, ¬Accepted y) ∧ generateProb d t = none) ∨
        ∃ pre y post t', xs = pre ++ y :: post ∧ (∀ z ∈ pre, ¬Accepted z) ∧ Accepted y ∧
          generateProb d t = some (valueOf y, t') ∧ stream post.length t' = some post)
  | 0, n, t, _ => ⟨[], rfl, .inl ⟨by simp, rfl⟩⟩
  | d + 1, n, t, h => by
    obtain ⟨t', h1, h2⟩ := next_eq hx hrec h
    obtain ⟨xs, h3, h4⟩ := generate_at hx hrec d _ t' h2
    refine ⟨temper (x n) :: xs, by rw [stream, h1, ob_some]; dsimp only; rw [h3]; rfl, ?_⟩
    by_cases ha : Accepted (temper (x n))
    · right
      refine ⟨[], _, xs, t', rfl, by simp, ha, generate_accept h1 ha, ?_⟩
      have hl : xs.length = d := by
        rw [stream_eq hx hrec d _ t' h2] at h3
        rw [← Option.some.inj h3]
        simp
      rw [hl, h3]
    · rw [generate_reject h1 ha]
      rcases h4 with ⟨h4, h5⟩ | ⟨pre, y, post, t'', h4, h5, h6⟩
      · left
        refine ⟨fun y hy => ?_, h5⟩
        rcases List.mem_cons.mp hy with rfl | hy
        · exact ha
        · exact h4 y hy
      · right
        refine ⟨temper (x n) :: pre, y, post, t'', by rw [h4]; rfl, fun z hz => ?_, h6⟩
        rcases List.mem_cons.mp hz with rfl | hz
        · exact ha
        · exact h5 z hz

/-- **C70 (test values).** Whatever the seed and however often the generator was used before: a test value is that of the
first accepted word of the generator, it is in the range of stretched probabilities, the words behind it are left,
and the generation never panics, unless all words are rejected. -/
theorem C70_test_value (t : Twister) (ht : Float.Reached t) (depth : Nat) :
    ∃ xs, stream depth t = some xs ∧
      (((∀ y ∈ xs, ¬Accepted y) ∧ generateProb depth t = none) ∨
        ∃ pre y post t', xs = pre ++ y :: post ∧ (∀ z ∈ pre, ¬Accepted z) ∧ Accepted y ∧
          generateProb depth t = some (valueOf y, t') ∧ |valueOf y| ≤ 12 * 2 ^ 21 ∧
          stream post.length t' = some post) := by
  obtain ⟨x, n, h1, h2, h3⟩ := Float.reached_at ht
  obtain ⟨xs, h4, h5⟩ := generate_at h1 h2 depth n t h3
  refine ⟨xs, h4, ?_⟩
  rcases h5 with h5 | ⟨pre, y, post, t', a, b, c, d, e⟩
  · exact .inl h5
  · refine .inr ⟨pre, y, post, t', a, b, c, d, ?_, e⟩
    have := value_range c
    rw [abs_le]
    omega

/-- the generator of the program meets the hypothesis -/
example : ∃ t, Random.default = some t ∧ Float.Reached t := by
  obtain ⟨t, x, h, -⟩ := C43_scalar 5489 (by norm_num)
  exact ⟨t, h, .scalar (by norm_num) h⟩

/-- **C70 (distribution).** Every value below 12 comes from exactly 64 of the `2^32` low words, and 12 itself from one. -/
theorem C70_uniform (r : Int) :
    (-(12 * 2 ^ 21) ≤ r → r < 12 * 2 ^ 21 → {w : ℕ | w < 2 ^ 32 ∧ Accepted w ∧ valueOf w = r}.ncard = 64) ∧
    (r = 12 * 2 ^ 21 → {w : ℕ | w < 2 ^ 32 ∧ Accepted w ∧ valueOf w = r}.ncard = 1) := by
  have inv : ∀ w : ℕ, w < 2 ^ 32 → (signed w % 2 ^ 32).toNat = w := by
    intro w hw
    unfold signed
    split_ifs <;> omega
  have back : ∀ z : ℤ, -2147483648 ≤ z → z < 2147483648 → signed ((z % 2 ^ 32).toNat) = z := by
    intro z h1 h2
    unfold signed
    split_ifs <;> omega
  constructor
  · intro h1 h2
    have : {w : ℕ | w < 2 ^ 32 ∧ Accepted w ∧ valueOf w = r} =
        (fun i : ℕ => ((64 * r + i : ℤ) % 2 ^ 32).toNat) '' (Finset.range 64 : Set ℕ) := by
      ext w
      simp only [Set.mem_ofPred_eq, Set.mem_image, Finset.coe_range, Set.mem_Iio]
      constructor
      · rintro ⟨hw, ha, hv⟩
        rw [valueOf_eq] at hv
        refine ⟨(signed w % 64).toNat, by omega, ?_⟩
        have : 64 * r + ((signed w % 64).toNat : ℤ) = signed w := by omega
        rw [this, inv w hw]
      · rintro ⟨i, hi, rfl⟩
        have hb := back (64 * r + i) (by omega) (by omega)
        refine ⟨by omega, ?_, ?_⟩
        · rw [accepted_iff, hb]; omega
        · rw [valueOf_eq, hb]; omega
    rw [this, Set.InjOn.ncard_image, Set.ncard_coe_finset, Finset.card_range]
    intro i hi j hj hij
    simp only [Finset.coe_range, Set.mem_Iio] at hi hj
    have hb := back (64 * r + i) (by omega) (by omega)
    have hc := back (64 * r + j) (by omega) (by omega)
    dsimp only at hij
    rw [hij, hc] at hb
    omega
  · intro hr
    have : {w : ℕ | w < 2 ^ 32 ∧ Accepted w ∧ valueOf w = r} = {1610612736} := by
      ext w
      simp only [Set.mem_ofPred_eq, Set.mem_singleton_iff, accepted_iff, valueOf_eq]
      constructor
      · rintro ⟨hw, ha, hv⟩
        have := inv w hw
        omega
      · rintro rfl
        have e : signed 1610612736 = 1610612736 := by decide
        rw [e]
        omega
    rw [this, Set.ncard_singleton]

/-- the values that occur -/
example : -(12 * 2 ^ 21) ≤ (-2368838 : Int) ∧ (-2368838 : Int) < 12 * 2 ^ 21 := by decide

/-! ## the checksums -/

theorem sum_squash_eq {table : List Nat} : ∀ (ps : List Int) (qs : List Nat), List.Forall₂ (fun p q => squash table p = some q) ps qs →
    ∀ s, s + qs.sum < 2 ^ 64 → sumSquash table ps s = some (s + qs.sum)
  | _, _, .nil, s, _ => rfl
  | p :: ps, q :: qs, .cons h hs, s, hb => by
    rw [List.sum_cons] at hb ⊢
    have h64 : u64 (s + q) = some (s + q) := by unfold u64; rw [if_pos (by omega)]
    have ih := sum_squash_eq ps qs hs (s + q) (by omega)
    unfold sumSquash at ih ⊢
    rw [List.foldlM_cons, h, ob_some, h64, ob_some, ih]
    congr 1
    omega

theorem sum_stretch_eq {lut : List (List Int)} (B : Int) : ∀ (ps : List Nat) (rs : List Int), List.Forall₂ (fun p r => stretch lut p = some r) ps rs →
    (∀ r ∈ rs, |r| ≤ B) → ∀ s, |s| + ps.length * B < 2 ^ 63 → sumStretch lut ps s = some (s + rs.sum) ∧ |s + rs.sum| ≤ |s| + ps.length * B
  | _, _, .nil, _, s, h => ⟨by rw [List.sum_nil, add_zero]; rfl, by simp⟩
  | p :: ps, r :: rs, .cons h hs, hB, s, hb => by
    have hB0 : |r| ≤ B := hB r (by simp)
    have hBn : 0 ≤ B := le_trans (abs_nonneg r) hB0
    have hl : 0 ≤ (ps.length : Int) * B := by positivity
    have hc : ((p :: ps).length : Int) * B = ps.length * B + B := by rw [List.length_cons]; push_cast; ring
    rw [hc] at hb ⊢
    have ht := abs_add_le s r
    have hs1 := neg_abs_le (s + r)
    have hs2 := le_abs_self (s + r)
    have h64 : i64 (s + r) = some (s + r) := by unfold i64; rw [if_pos (by constructor <;> omega)]
    obtain ⟨ih1, ih2⟩ := sum_stretch_eq B ps rs hs (fun r hr => hB r (by simp [hr])) (s + r) (by omega)
    rw [List.sum_cons]
    refine ⟨?_, by rw [← add_assoc]; omega⟩
    unfold sumStretch at ih1 ⊢
    rw [List.foldlM_cons, h, ob_some, h64, ob_some, ih1]
    congr 1
    omega

theorem repeat_squash {table : List Nat} {ps : List Int} {qs : List Nat} (h : List.Forall₂ (fun p q => squash table p = some q) ps qs) :
    ∀ n s, s + n * qs.sum < 2 ^ 64 → Random.repeatM (sumSquash table ps) n s = some (s + n * qs.sum)
  | 0, s, _ => by simp [Random.repeatM]
  | n + 1, s, hb => by
    rw [Nat.succ_mul] at hb ⊢
    rw [Random.repeatM, sum_squash_eq ps qs h s (by omega), ob_some, repeat_squash h n _ (by omega)]
    congr 1
    omega

theorem repeat_stretch {lut : List (List Int)} {B : Int} {ps : List Nat} {rs : List Int}
    (h : List.Forall₂ (fun p r => stretch lut p = some r) ps rs) (hB : ∀ r ∈ rs, |r| ≤ B) (hB0 : 0 ≤ B) :
    ∀ (n : Nat) s, |s| + n * (ps.length * B) < 2 ^ 63 → Random.repeatM (sumStretch lut ps) n s = some (s + n * rs.sum)
  | 0, s, _ => by simp [Random.repeatM]
  | n + 1, s, hb => by
    have e : ((n + 1 : Nat) : Int) * (ps.length * B) = n * (ps.length * B) + ps.length * B := by push_cast; ring
    have hl : 0 ≤ (n : Int) * (ps.length * B) := by positivity
    rw [e] at hb
    obtain ⟨h1, h2⟩ := sum_stretch_eq B ps rs h hB s (by omega)
    rw [Random.repeatM, h1, ob_some, repeat_stretch h hB hB0 n _ (by omega)]
    congr 1
    push_cast
    ring

theorem forall2_mapM {α β : Type} {f : α → Option β} : ∀ {l : List α} {l' : List β}, List.Forall₂ (fun a b => f a = some b) l l' →
    l.mapM f = some l'
  | _, _, .nil => rfl
  | a :: l, b :: l', .cons h hs => by
    rw [List.mapM_cons, h, ob_some, forall2_mapM hs]
    rfl

theorem forall2_of {α β : Type} {P : α → β → Prop} {Q : β → Prop} : ∀ (l : List α), (∀ a ∈ l, ∃ b, P a b ∧ Q b) →
    ∃ l', List.Forall₂ P l l' ∧ ∀ b ∈ l', Q b
  | [], _ => ⟨[], .nil, by simp⟩
  | a :: l, h => by
    obtain ⟨b, hb, hq⟩ := h a (by simp)
    obtain ⟨l', h1, h2⟩ := forall2_of l fun a ha => h a (by simp [ha])
    exact ⟨b :: l', .cons hb h1, by simpa using ⟨hq, h2⟩⟩

theorem sum_le_of {B : Nat} : ∀ {l : List Nat}, (∀ a ∈ l, a ≤ B) → l.sum ≤ l.length * B
  | [], _ => by simp
  | a :: l, h => by
    have h1 := h a (by simp)
    have h2 := sum_le_of (l := l) fun a ha => h a (by simp [ha])
    rw [List.sum_cons, List.length_cons, Nat.succ_mul]
    omega

/-- tables of the program -/
theorem tables_luts {t : Pred.Tables} (h : Pred.tablesNew = some t) : stretchLutNew = some t.stretch ∧ squashLutNew t.stretch = some t.squash := by
  unfold Pred.tablesNew at h
  simp only [Option.bind_eq_bind, Option.bind_eq_some_iff] at h
  obtain ⟨a, -, b, -, c, -, d, -, e, he, f, hf, g, -, i, -, j, -, k, -, hk⟩ := h
  obtain rfl := Option.some.inj hk
  exact ⟨he, hf⟩

/-- **C70 (checksums).** For all test values in range, at most `2^32` calls: no call panics, no sum overflows, and the
checksums are the number of rounds times the sums over the values of squash and over the values of stretch at them. -/
theorem C70_checksums {tables : Pred.Tables} (ht : Pred.tablesNew = some tables) (ps : List Int)
    (hps : ∀ p ∈ ps, |p| ≤ 12 * 2 ^ 21) (warmUp loops : Nat) (h1 : warmUp * ps.length ≤ 2 ^ 32)
    (h2 : loops * ps.length ≤ 2 ^ 32) :
    ∃ qs rs, ps.mapM (squash tables.squash) = some qs ∧ qs.mapM (stretch tables.stretch) = some rs ∧
      benchSums tables ps warmUp loops = some (warmUp * qs.sum, loops * qs.sum, loops * rs.sum) := by
  obtain ⟨hst, hsq⟩ := tables_luts ht
  obtain ⟨lut, table, e1, e2, -, hq⟩ := C36_squash
  rw [hst] at e1
  obtain rfl := Option.some.inj e1
  rw [hsq] at e2
  obtain rfl := Option.some.inj e2
  obtain ⟨lut, e1, -, hs⟩ := C35_stretch
  rw [hst] at e1
  obtain rfl := Option.some.inj e1
  obtain ⟨qs, f1, b1⟩ := forall2_of (P := fun p q => squash tables.squash p = some q) (Q := fun q => 0 < q ∧ q < 2 ^ 31) ps (by
    intro p hp
    obtain ⟨r, a, -, b, c⟩ := hq p (hps p hp)
    exact ⟨r, a, by omega⟩)
  obtain ⟨rs, f2, b2⟩ := forall2_of (P := fun q r => stretch tables.stretch q = some r) (Q := fun r => |r| ≤ 2 ^ 25) qs (by
    intro q hq
    obtain ⟨c1, c2⟩ := b1 q hq
    obtain ⟨r, a, -, -, c, -⟩ := hs q c1 c2
    exact ⟨r, a, by omega⟩)
  have hl : qs.length = ps.length := f1.length_eq.symm
  have hb := sum_le_of (l := qs) (B := 2 ^ 31) fun q hq => (b1 q hq).2.le
  have mul_lt : ∀ n, n * ps.length ≤ 2 ^ 32 → 0 + n * qs.sum < 2 ^ 64 := by
    intro n hn
    calc 0 + n * qs.sum ≤ n * (qs.length * 2 ^ 31) := by rw [Nat.zero_add]; exact Nat.mul_le_mul_left _ hb
      _ = n * ps.length * 2 ^ 31 := by rw [hl, Nat.mul_assoc]
      _ ≤ 2 ^ 32 * 2 ^ 31 := Nat.mul_le_mul_right _ hn
      _ < 2 ^ 64 := by norm_num
  refine ⟨qs, rs, forall2_mapM f1, forall2_mapM f2, ?_⟩
  unfold benchSums
  rw [forall2_mapM f1, ob_some, repeat_squash f1 warmUp 0 (mul_lt _ h1), ob_some, repeat_squash f1 loops 0 (mul_lt _ h2), ob_some,
    repeat_stretch f2 b2 (by norm_num) loops 0 ?_, ob_some, Nat.zero_add, Nat.zero_add, zero_add]
  have : (loops : Int) * (qs.length * 2 ^ 25) ≤ 2 ^ 32 * 2 ^ 25 := by
    rw [← mul_assoc, hl]
    exact mul_le_mul_of_nonneg_right (by exact_mod_cast h2) (by norm_num)
  rw [abs_zero]
  omega

/-- the program makes 10000 rounds over 1000 values -/
example : 10000 * 1000 ≤ 2 ^ 32 := by norm_num

end Verif.Bin
