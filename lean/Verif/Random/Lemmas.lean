import Verif.Random.Model
import Verif.Random.Spec
import Mathlib.Data.Nat.Bitwise
import Mathlib.Logic.Function.Basic
import Mathlib.Tactic.Ring

/-! # Helper lemmas about the random number generator -/

namespace Verif.Random

open Verif

/-- a state given by a function -/
def tab (g : Nat → Nat) : List Nat := (List.range 312).map g

theorem tab_length (g : Nat → Nat) : (tab g).length = 312 := by simp [tab]

theorem tab_get {g : Nat → Nat} {i : Nat} (h : i < 312) : (tab g)[i]? = some (g i) := by
  unfold tab
  rw [List.getElem?_map, List.getElem?_range h]; rfl

theorem tab_set {g : Nat → Nat} {i v : Nat} (h : i < 312) : setAt (tab g) i v = some (tab (Function.update g i v)) := by
  unfold setAt
  rw [if_pos (by rw [tab_length]; exact h)]
  congr 1
  apply List.ext_getElem?
  intro k
  by_cases hk : k < 312
  · by_cases hki : i = k
    · subst hki
      rw [List.getElem?_set_self (by rw [tab_length]; exact h), tab_get h, Function.update_self]
    · rw [List.getElem?_set_ne hki, tab_get hk, tab_get hk, Function.update_of_ne (Ne.symm hki)]
  · rw [List.getElem?_eq_none (by rw [List.length_set, tab_length]; omega),
      List.getElem?_eq_none (by rw [tab_length]; omega)]

theorem tab_congr {f g : Nat → Nat} (h : ∀ i, i < 312 → f i = g i) : tab f = tab g := by
  unfold tab
  exact List.map_congr_left fun i hi => h i (List.mem_range.mp hi)

theorem fold_range {f : List Nat → Nat → Option (List Nat)} {I : Nat → List Nat} {a : Nat} : ∀ (n : Nat) (b : Nat), a ≤ b →
    (∀ i, b ≤ i → i < b + n → f (I i) i = some (I (i + 1))) →
    (List.range' b n).foldlM f (I b) = some (I (b + n)) := by
  intro n
  induction n with
  | zero => intro b _ _; rfl
  | succ n ih =>
    intro b hb h
    rw [List.range'_succ, List.foldlM_cons, h b (le_refl _) (by omega), ob_some,
      ih (b + 1) (by omega) fun i h1 h2 => h i (by omega) (by omega)]
    rw [show b + 1 + n = b + (n + 1) by omega]

/-! ## Scalar seed -/

/-- the linear congruential sequence -/
def lcg (seed : Nat) : Nat → Nat
  | 0 => seed
  | k + 1 => (6364136223846793005 * (lcg seed k ^^^ (lcg seed k / 2 ^ 62)) + (k + 1)) % 2 ^ 64

theorem lcg_spec (seed : Nat) : ScalarSeed seed (lcg seed) := ⟨rfl, fun _ _ => rfl⟩

theorem lcg_lt {seed : Nat} (h : seed < 2 ^ 64) (k : Nat) : lcg seed k < 2 ^ 64 := by
  cases k with
  | zero => exact h
  | succ k => exact Nat.mod_lt _ (by norm_num)

theorem scalarStep_eq {seed i : Nat} (h1 : 1 ≤ i) (h2 : i < 312) :
    scalarStep (tab fun k => if k < i then lcg seed k else 0) i =
      some (tab fun k => if k < i + 1 then lcg seed k else 0) := by
  obtain ⟨m, rfl⟩ : ∃ m, i = m + 1 := ⟨i - 1, by omega⟩
  unfold scalarStep
  rw [tab_get (by omega), ob_some, tab_set (by omega)]
  congr 1
  apply tab_congr
  intro k hk
  by_cases hkm : k = m + 1
  · subst hkm
    rw [Function.update_self, if_pos (by omega), if_pos (by omega), lcg, Nat.add_sub_cancel, Nat.shiftRight_eq_div_pow]
    unfold wrapU64
    rw [Nat.mod_add_mod]; rfl
  · rw [Function.update_of_ne hkm]
    by_cases h : k < m + 1
    · rw [if_pos h, if_pos (by omega)]
    · rw [if_neg h, if_neg (by omega)]

theorem scalar_eq (seed : Nat) : newByScalarSeed seed = some { state := tab (lcg seed), index := 312 } := by
  unfold newByScalarSeed
  have e : List.replicate NN 0 = tab fun _ => 0 := by unfold tab NN; rw [List.map_const', List.length_range]
  rw [e, tab_set (by omega), ob_some]
  have e2 : tab (Function.update (fun _ => 0) 0 seed) = tab fun k => if k < 1 then lcg seed k else 0 := by
    apply tab_congr
    intro k _
    by_cases hk : k = 0
    · subst hk; rfl
    · rw [Function.update_of_ne hk, if_neg (by omega)]
  rw [e2, fold_range (I := fun i => tab fun k => if k < i then lcg seed k else 0) (a := 1) (NN - 1) 1 (le_refl _)
    (fun i h1 h2 => scalarStep_eq h1 (by unfold NN at h2; omega)), ob_some]
  rw [show (tab fun k => if k < 1 + (NN - 1) then lcg seed k else 0) = tab (lcg seed) from
    tab_congr fun k hk => if_pos (by unfold NN; omega)]
  rfl

/-! ## The recurrence -/

theorem masks (u l : Nat) (h : u < 2 ^ 64) : (u &&& UM) ||| (l &&& LM) = u / 2 ^ 31 * 2 ^ 31 + l % 2 ^ 31 := by
  have e1 : l &&& LM = l % 2 ^ 31 := Nat.and_two_pow_sub_one_eq_mod l 31
  have e2 : u &&& UM = 2 ^ 31 * (u / 2 ^ 31) := by
    apply Nat.eq_of_testBit_eq
    intro i
    rw [Nat.testBit_and, show UM = (2 ^ 33 - 1) <<< 31 from rfl, Nat.testBit_shiftLeft, Nat.testBit_two_pow_mul,
      Nat.testBit_div_two_pow, Nat.testBit_two_pow_sub_one]
    by_cases h1 : 31 ≤ i
    · rw [show i - 31 + 31 = i by omega]
      by_cases h2 : i < 64
      · simp [h1, show i - 31 < 33 by omega]
      · have : u.testBit i = false := Nat.testBit_lt_two_pow (lt_of_lt_of_le h (Nat.pow_le_pow_right (by norm_num) (by omega)))
        simp [this]
    · simp [h1]
  rw [e1, e2, ← Nat.two_pow_add_eq_or_of_lt (Nat.mod_lt _ (by norm_num)), Nat.mul_comm]

/-- right hand side of the recurrence -/
def nextWord (u l m : Nat) : Nat :=
  let y := u / 2 ^ 31 * 2 ^ 31 + l % 2 ^ 31
  m ^^^ (y / 2) ^^^ (if y % 2 = 1 then 0xB5026F5AA96619E9 else 0)

theorem mixWords_eq {u l m : Nat} (h : u < 2 ^ 64) : mixWords u l m = nextWord u l m := by
  unfold mixWords nextWord matrixA
  dsimp only
  rw [masks u l h, Nat.shiftRight_eq_div_pow, pow_one]

theorem nextWord_lt {u l m : Nat} (h : u < 2 ^ 64) (hm : m < 2 ^ 64) : nextWord u l m < 2 ^ 64 := by
  unfold nextWord
  dsimp only
  have : u / 2 ^ 31 < 2 ^ 33 := Nat.div_lt_of_lt_mul (by norm_num at *; omega)
  refine Nat.xor_lt_two_pow (Nat.xor_lt_two_pow hm ?_) ?_
  · have := Nat.mod_lt l (show 0 < 2 ^ 31 by norm_num)
    omega
  · split
    · decide
    · norm_num

/-- the sequence that continues the words of a state -/
def wordsFrom (g : Nat → Nat) (k : Nat) : Nat :=
  if k < 312 then g k else nextWord (wordsFrom g (k - 312)) (wordsFrom g (k - 311)) (wordsFrom g (k - 156))
termination_by k

theorem wordsFrom_start {g : Nat → Nat} {k : Nat} (h : k < 312) : wordsFrom g k = g k := by
  rw [wordsFrom, if_pos h]

theorem wordsFrom_step (g : Nat → Nat) (k : Nat) :
    wordsFrom g (k + 312) = nextWord (wordsFrom g k) (wordsFrom g (k + 1)) (wordsFrom g (k + 156)) := by
  rw [wordsFrom, if_neg (by omega), show k + 312 - 312 = k by omega, show k + 312 - 311 = k + 1 by omega,
    show k + 312 - 156 = k + 156 by omega]

theorem wordsFrom_rec (g : Nat → Nat) : Recurrence (wordsFrom g) := wordsFrom_step g

theorem wordsFrom_lt {g : Nat → Nat} (h : ∀ k, k < 312 → g k < 2 ^ 64) (k : Nat) : wordsFrom g k < 2 ^ 64 := by
  induction k using Nat.strong_induction_on with
  | _ k ih =>
    by_cases hk : k < 312
    · rw [wordsFrom_start hk]; exact h k hk
    · obtain ⟨m, rfl⟩ : ∃ m, k = m + 312 := ⟨k - 312, by omega⟩
      rw [wordsFrom_step]
      exact nextWord_lt (ih m (by omega)) (ih (m + 156) (by omega))

/-- a state in the middle of generating -/
def half (x : Nat → Nat) (b i : Nat) : List Nat := tab fun k => if k < i then x (b + 312 + k) else x (b + k)

theorem gen_eq {x : Nat → Nat} {b i a c : Nat} (hx : ∀ k, x k < 2 ^ 64)
    (hrec : ∀ k, x (k + 312) = nextWord (x k) (x (k + 1)) (x (k + 156))) (hi : i < 312)
    (ha : a < 312) (hc : c < 312) (ha2 : (if a < i then x (b + 312 + a) else x (b + a)) = x (b + i + 1))
    (hc2 : (if c < i then x (b + 312 + c) else x (b + c)) = x (b + i + 156)) :
    genStep (half x b i) i a c = some (half x b (i + 1)) := by
  unfold genStep half
  rw [tab_get hi, ob_some, tab_get ha, ob_some, tab_get hc, ob_some, tab_set hi]
  congr 1
  apply tab_congr
  intro k hk
  by_cases hki : k = i
  · subst hki
    rw [Function.update_self, if_neg (lt_irrefl k), if_pos (Nat.lt_succ_self k), ha2, hc2, mixWords_eq (hx _), ← hrec,
      show b + k + 312 = b + 312 + k by omega]
  · rw [Function.update_of_ne hki]
    by_cases h : k < i
    · rw [if_pos h, if_pos (by omega)]
    · rw [if_neg h, if_neg (by omega)]

theorem generate_eq {x : Nat → Nat} {b : Nat} (hx : ∀ k, x k < 2 ^ 64)
    (hrec : ∀ k, x (k + 312) = nextWord (x k) (x (k + 1)) (x (k + 156))) :
    generate (tab fun k => x (b + k)) = some (tab fun k => x (b + 312 + k)) := by
  unfold generate NN MM
  have e0 : (tab fun k => x (b + k)) = half x b 0 := by
    unfold half; apply tab_congr; intro k _; rw [if_neg (by omega)]
  rw [e0, fold_range (I := half x b) (a := 0) (312 - 156) 0 (le_refl _) (fun i h1 h2 =>
    gen_eq hx hrec (by omega) (by omega) (by omega) (by rw [if_neg (by omega)]; exact congrArg x (by omega))
      (by rw [if_neg (by omega)]; exact congrArg x (by omega))), ob_some]
  rw [show 0 + (312 - 156) = 312 - 156 by omega, fold_range (I := half x b) (a := 0) (156 - 1) (312 - 156) (by omega)
    (fun i h1 h2 => gen_eq hx hrec (by omega) (by omega) (by omega) (by rw [if_neg (by omega)]; exact congrArg x (by omega))
      (by rw [if_pos (by omega)]; exact congrArg x (by omega))), ob_some]
  rw [show 312 - 156 + (156 - 1) = 312 - 1 by omega, gen_eq hx hrec (by omega) (by omega) (by omega)
    (by rw [if_pos (by omega)]) (by rw [if_pos (by omega)])]
  unfold half
  rw [show (tab fun k => if k < 312 - 1 + 1 then x (b + 312 + k) else x (b + k)) = tab fun k => x (b + 312 + k) from
    tab_congr fun k hk => if_pos (by omega)]

/-! ## Tempering -/

theorem temper_eq (x : Nat) : temper x = tempered x := by
  unfold temper tempered wrapU64
  simp only [Nat.shiftRight_eq_div_pow, Nat.shiftLeft_eq]

theorem right_injective {a m x y : Nat} (ha : 1 ≤ a) (hx : x < 2 ^ 64) (hy : y < 2 ^ 64)
    (h : x ^^^ ((x >>> a) &&& m) = y ^^^ ((y >>> a) &&& m)) : x = y := by
  have key : ∀ n i, 64 ≤ i + n → x.testBit i = y.testBit i := by
    intro n
    induction n with
    | zero =>
      intro i hi
      rw [Nat.testBit_lt_two_pow (lt_of_lt_of_le hx (Nat.pow_le_pow_right (by norm_num) (by omega))),
        Nat.testBit_lt_two_pow (lt_of_lt_of_le hy (Nat.pow_le_pow_right (by norm_num) (by omega)))]
    | succ n ih =>
      intro i hi
      have hb := congrArg (fun z => z.testBit i) h
      simp only [Nat.testBit_xor, Nat.testBit_and, Nat.testBit_shiftRight] at hb
      rw [ih (a + i) (by omega)] at hb
      revert hb
      cases x.testBit i <;> cases y.testBit i <;> cases (y.testBit (a + i) && m.testBit i) <;> simp
  exact Nat.eq_of_testBit_eq fun i => key 64 i (by omega)

theorem left_injective {a m x y : Nat} (ha : 1 ≤ a)
    (h : x ^^^ (wrapU64 (x <<< a) &&& m) = y ^^^ (wrapU64 (y <<< a) &&& m)) : x = y := by
  refine Nat.eq_of_testBit_eq fun i => ?_
  induction i using Nat.strong_induction_on with
  | _ i ih =>
    have hb := congrArg (fun z => z.testBit i) h
    have e : ∀ z, wrapU64 z = z % 2 ^ 64 := fun _ => rfl
    simp only [Nat.testBit_xor, Nat.testBit_and, e, Nat.testBit_mod_two_pow, Nat.testBit_shiftLeft] at hb
    by_cases hi : a ≤ i
    · rw [ih (i - a) (by omega)] at hb
      revert hb
      cases x.testBit i <;> cases y.testBit i <;>
        cases ((decide (i < 64) && (decide (i ≥ a) && y.testBit (i - a))) && m.testBit i) <;> simp
    · simpa [hi] using hb

theorem right_lt {a m x : Nat} (hx : x < 2 ^ 64) : x ^^^ ((x >>> a) &&& m) < 2 ^ 64 := by
  refine Nat.xor_lt_two_pow hx ?_
  refine lt_of_le_of_lt Nat.and_le_left ?_
  rw [Nat.shiftRight_eq_div_pow]
  exact lt_of_le_of_lt (Nat.div_le_self _ _) hx

theorem left_lt {a m x : Nat} (hx : x < 2 ^ 64) : x ^^^ (wrapU64 (x <<< a) &&& m) < 2 ^ 64 := by
  refine Nat.xor_lt_two_pow hx ?_
  exact lt_of_le_of_lt Nat.and_le_left (Nat.mod_lt _ (by norm_num))

theorem last_eq {x : Nat} (hx : x < 2 ^ 64) : x ^^^ (x >>> 43) = x ^^^ ((x >>> 43) &&& (2 ^ 64 - 1)) := by
  rw [Nat.and_two_pow_sub_one_eq_mod, Nat.mod_eq_of_lt]
  rw [Nat.shiftRight_eq_div_pow]
  exact lt_of_le_of_lt (Nat.div_le_self _ _) hx

theorem temper_lt {x : Nat} (hx : x < 2 ^ 64) : temper x < 2 ^ 64 := by
  unfold temper
  dsimp only
  have h3 := left_lt (a := 37) (m := 0xFFF7EEE000000000)
    (left_lt (a := 17) (m := 0x71D67FFFEDA60000) (right_lt (a := 29) (m := 0x5555555555555555) hx))
  rw [last_eq h3]
  exact right_lt h3

theorem temper_injective {x y : Nat} (hx : x < 2 ^ 64) (hy : y < 2 ^ 64) (h : temper x = temper y) : x = y := by
  unfold temper at h
  dsimp only at h
  have hx1 := right_lt (a := 29) (m := 0x5555555555555555) hx
  have hy1 := right_lt (a := 29) (m := 0x5555555555555555) hy
  have hx3 := left_lt (a := 37) (m := 0xFFF7EEE000000000) (left_lt (a := 17) (m := 0x71D67FFFEDA60000) hx1)
  have hy3 := left_lt (a := 37) (m := 0xFFF7EEE000000000) (left_lt (a := 17) (m := 0x71D67FFFEDA60000) hy1)
  rw [last_eq hx3, last_eq hy3] at h
  exact right_injective (by norm_num) hx hy (left_injective (by norm_num) (left_injective (by norm_num)
    (right_injective (by norm_num) hx3 hy3 h)))

/-! ## The stream -/

/-- a generator whose next number is number `n` of the sequence -/
structure At (x : Nat → Nat) (n : Nat) (t : Twister) : Prop where
  state : ∃ b, t.state = (tab fun k => x (b + k)) ∧ b + t.index = n
  index : t.index ≤ 312

theorem next_eq {x : Nat → Nat} {n : Nat} {t : Twister} (hx : ∀ k, x k < 2 ^ 64)
    (hrec : ∀ k, x (k + 312) = nextWord (x k) (x (k + 1)) (x (k + 156))) (h : At x n t) :
    ∃ t', nextInt64 t = some (temper (x n), t') ∧ At x (n + 1) t' := by
  obtain ⟨⟨b, h1, h2⟩, h3⟩ := h
  unfold nextInt64 advance
  rw [check_pos (show t.index ≤ NN from h3), ob_some]
  by_cases hi : t.index = NN
  · rw [if_pos hi, h1, generate_eq hx hrec, ob_some, ob_some, tab_get (by norm_num), ob_some]
    refine ⟨_, by rw [← h2, hi]; rfl, ⟨b + 312, rfl, ?_⟩, ?_⟩
    · dsimp only
      unfold NN at hi
      omega
    · dsimp only
      omega
  · rw [if_neg hi, ob_some]
    unfold NN at hi
    rw [h1, tab_get (by omega), ob_some]
    refine ⟨_, by rw [← h2], ⟨b, rfl, ?_⟩, ?_⟩
    · dsimp only
      omega
    · dsimp only
      omega

theorem stream_eq {x : Nat → Nat} (hx : ∀ k, x k < 2 ^ 64)
    (hrec : ∀ k, x (k + 312) = nextWord (x k) (x (k + 1)) (x (k + 156))) : ∀ (n m : Nat) (t : Twister), At x m t →
    stream n t = some ((List.range' m n).map fun k => temper (x k)) := by
  intro n
  induction n with
  | zero => intro m t _; rfl
  | succ n ih =>
    intro m t h
    obtain ⟨t', h1, h2⟩ := next_eq hx hrec h
    rw [stream, h1, ob_some]
    dsimp only
    rw [ih _ _ h2]
    rfl

end Verif.Random
