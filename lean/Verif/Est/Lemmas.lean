import Verif.Est.Model
import Verif.Fixed.Props
import Mathlib.Tactic.LinearCombination

/-! # The decelerating estimator in closed form -/

namespace Verif.Est

open Verif Verif.Fixed

/-- packing of prediction `p` (22 bits) and count `c` (10 bits) -/
def pack (p c : Nat) : Nat := p * 1024 + c

theorem decPrediction_pack {p c : Nat} (hp : p < 2 ^ 22) (hc : c < 1024) :
    decPrediction (pack p c) = p * 512 := by
  unfold decPrediction pack wrapU32
  omega

theorem decCount_pack {p c : Nat} (hc : c < 1024) : decCount (pack p c) = c := by
  unfold decCount pack wrapU16
  omega

theorem or_pack {p c : Nat} (hc : c < 1024) : p * 2 ^ 10 ||| c = pack p c := by
  unfold pack
  rw [Nat.mul_comm, ← Nat.two_pow_add_eq_or_of_lt (by omega : c < 2 ^ 10)]
  omega

/-- the numerator of the new prediction before rounding, in units of `2 ^ -62` -/
def target (p f : Int) (b : Bool) : Int :=
  p * 512 * 2 ^ 31 + ((if b then 0 else 2 ^ 31) - p * 512) * f

theorem mapM_getElem {α β : Type} (f : α → Option β) :
    ∀ (l : List α) (r : List β), l.mapM f = some r →
      r.length = l.length ∧ ∀ i (h : i < l.length), r[i]? = f l[i] := by
  intro l
  induction l with
  | nil => intro r h; simp at h; subst h; simp
  | cons a l ih =>
    intro r h
    rw [List.mapM_cons] at h
    cases ha : f a with
    | none => rw [ha] at h; simp at h
    | some x =>
      cases hl : l.mapM f with
      | none => rw [ha, hl] at h; simp at h
      | some xs =>
        rw [ha, hl] at h
        simp only [Option.bind_eq_bind, Option.bind_some, Option.pure_def, Option.some.injEq] at h
        subst h
        obtain ⟨h1, h2⟩ := ih xs hl
        refine ⟨by simp [h1], ?_⟩
        intro i hi
        cases i with
        | zero => simp [ha]
        | succ i => simpa using h2 i (by simpa using hi)

theorem mapM_total {α β : Type} (f : α → Option β) (l : List α) (h : ∀ a ∈ l, ∃ b, f a = some b) :
    ∃ r, l.mapM f = some r := by
  induction l with
  | nil => exact ⟨[], rfl⟩
  | cons a l ih =>
    obtain ⟨x, hx⟩ := h a (by simp)
    obtain ⟨r, hr⟩ := ih (fun b hb => h b (by simp [hb]))
    exact ⟨x :: r, by rw [List.mapM_cons, hx, hr]; rfl⟩

/-- The default rate table: entry `i` is `2 ^ 31 / (i + 2)`. -/
theorem ratesDefault_spec : ∃ r, ratesDefault = some r ∧ r.length = 1024 ∧
    ∀ i, i < 1024 → r[i]? = some (2 ^ 31 / (i + 2)) := by
  have hf : ∀ i, i < 1024 → (do
      let m ← u32 (i * 1)
      let den ← u32 (m + 2)
      check (den ≠ 0)
      some (2 ^ 31 / den) : Option Nat) = some (2 ^ 31 / (i + 2)) := by
    intro i hi
    rw [u32_eq (by omega), ob_some, u32_eq (by omega), ob_some, check_pos (by omega), ob_some]
    rw [Nat.mul_one]
  obtain ⟨r, hr⟩ := mapM_total (fun index => do
      let m ← u32 (index * 1)
      let den ← u32 (m + 2)
      check (den ≠ 0)
      some (2 ^ 31 / den) : Nat → Option Nat) (List.range 1024)
    (fun a ha => ⟨_, hf a (by simpa using ha)⟩)
  refine ⟨r, hr, ?_⟩
  obtain ⟨h1, h2⟩ := mapM_getElem _ _ _ hr
  refine ⟨by simpa using h1, ?_⟩
  intro i hi
  rw [h2 i (by simpa using hi), List.getElem_range]
  exact hf i hi

/-- One update in closed form. `t` is the unrounded target. -/
theorem decUpdate_eq {rates : List Nat} {p c f : Nat} (b : Bool) (hp : p < 2 ^ 22) (hc : c < 1024)
    (hf : rates[c]? = some f) (hf2 : f ≤ 2 ^ 30) :
    ∃ r : Int, Nearest (target p f b - 2 ^ 61) 40 r ∧
      decUpdate rates (pack p c) b =
        some (i64AsU32 (r + 2 ^ 21) * 2 ^ 10 % 2 ^ 32 ||| min (c + 1) 1000) := by
  unfold decUpdate
  simp only [decPrediction_pack hp hc, decCount_pack (p := p) hc, hf, maxCount]
  rw [ob_some]
  have hpc : ((p * 512 : Nat) : Int) = (p : Int) * 512 := by push_cast; rfl
  rw [hpc]
  have hp' : (p : Int) < 4194304 := by exact_mod_cast hp
  have hp0 : (0 : Int) ≤ p := by omega
  have hf0 : (0 : Int) ≤ f := by omega
  have hf' : (f : Int) ≤ 1073741824 := by exact_mod_cast hf2
  have herr : -2147483648 ≤ (if b then (0 : Int) else 2 ^ 31) - (p : Int) * 512 ∧
      (if b then (0 : Int) else 2 ^ 31) - (p : Int) * 512 ≤ 2147483648 := by
    cases b <;> simp <;> omega
  rw [i64_eq (by omega), ob_some]
  have hcor : -2305843009213693952 ≤ ((if b then (0 : Int) else 2 ^ 31) - (p : Int) * 512) * f ∧
      ((if b then (0 : Int) else 2 ^ 31) - (p : Int) * 512) * f ≤ 2305843009213693952 := by
    constructor <;> nlinarith
  have htn : target p f b =
      (p : Int) * 512 * 2 ^ 31 + ((if b then (0 : Int) else 2 ^ 31) - (p : Int) * 512) * f := rfl
  rw [i64_eq (by omega), ob_some, i64_eq (by norm_num at *; omega), ob_some, ← htn]
  have ht : -2305843009213693952 ≤ target p f b ∧ target p f b ≤ 6917529027641081856 := by
    rw [htn]; norm_num at *; omega
  -- sharper bounds on the target
  have ht2 : 0 ≤ target p f b ∧ target p f b ≤ 4611686018427387904 := by
    rw [htn]
    cases b
    · simp only [Bool.false_eq_true, if_false]
      constructor <;> nlinarith
    · simp only [if_true]
      constructor <;> nlinarith
  rw [i64_eq (by norm_num at *; omega), ob_some]
  obtain ⟨r, hr, hn, -⟩ := C07_signed 64 40 (target p f b - 2 ^ 61) (by norm_num) (by norm_num)
    (by norm_num at *; omega) (by norm_num at *; omega)
  have hN : Nearest (target p f b - 2 ^ 61) 40 r := by
    apply hn
    have : |target p f b - 2 ^ 61| ≤ 2 ^ 61 := abs_le.mpr ⟨by norm_num at *; omega, by norm_num at *; omega⟩
    norm_num at *; omega
  refine ⟨r, hN, ?_⟩
  show (scaledDownI 64 (target p f b - 2 ^ 61) 40 >>= _) = _
  rw [hr, ob_some]
  have hrb : -4194304 ≤ r ∧ r ≤ 4194304 := by
    obtain ⟨h1, -⟩ := hN
    have h3 := le_abs_self (r * 2 ^ 40 - (target p f b - 2 ^ 61))
    have h4 := neg_abs_le (r * 2 ^ 40 - (target p f b - 2 ^ 61))
    generalize |r * 2 ^ 40 - (target p f b - 2 ^ 61)| = z at *
    norm_num at *
    omega
  rw [i64_eq (by norm_num at *; omega), ob_some, u16_eq (by omega), ob_some]

end Verif.Est

namespace Verif.Est

open Verif Verif.Fixed

/-- States reachable by feeding bits (prediction, count). -/
def Ok (p c : Nat) : Prop := c ≤ 1000 ∧ ((c = 0 ∧ p = 2 ^ 21) ∨ (1 ≤ c ∧ 1 ≤ p ∧ p < 2 ^ 22))

/-- the rate used at count `c` -/
def rate (c : Nat) : Nat := 2 ^ 31 / (c + 2)

theorem rate_le {c : Nat} : rate c ≤ 2 ^ 30 := by
  unfold rate
  calc 2 ^ 31 / (c + 2) ≤ 2 ^ 31 / 2 := Nat.div_le_div_left (by omega) (by norm_num)
    _ = 2 ^ 30 := by norm_num

theorem rate_le' {c : Nat} (h : 1 ≤ c) : 3 * rate c ≤ 2 ^ 31 := by
  unfold rate
  have : 2 ^ 31 / (c + 2) ≤ 2 ^ 31 / 3 := Nat.div_le_div_left (by omega) (by norm_num)
  omega

/-- `rates` is the default table -/
def IsDefault (rates : List Nat) : Prop := ∀ i, i < 1024 → rates[i]? = some (rate i)

theorem Ok.lt {p c : Nat} (h : Ok p c) : 1 ≤ p ∧ p < 2 ^ 22 := by
  obtain ⟨-, ⟨-, rfl⟩ | ⟨-, h⟩⟩ := h
  · norm_num
  · exact h

theorem target_bounds {p c : Nat} (h : Ok p c) (b : Bool) :
    2 ^ 40 < 2 * target p (rate c) b ∧ 2 * target p (rate c) b < 2 ^ 63 - 2 ^ 40 := by
  unfold target
  obtain ⟨hc, ⟨rfl, rfl⟩ | ⟨h1, h2, h3⟩⟩ := h
  · cases b <;> decide
  · have hr := rate_le' h1
    have hr0 : (0 : Int) ≤ rate c := by positivity
    have hr' : 3 * (rate c : Int) ≤ 2147483648 := by exact_mod_cast hr
    generalize (rate c : Int) = f at *
    have hp1 : (1 : Int) ≤ p := by exact_mod_cast h2
    have hp2 : (p : Int) ≤ 4194303 := by have : (p : Int) < 4194304 := by exact_mod_cast h3
                                         omega
    clear hr h1 h2 h3 hc
    generalize (p : Int) = p at *
    cases b
    · simp only [Bool.false_eq_true, if_false]
      constructor <;> nlinarith
    · simp only [if_true]
      constructor <;> nlinarith

/-- One update of a reachable state. -/
theorem decUpdate_step {rates : List Nat} (hr : IsDefault rates) {p c : Nat} (h : Ok p c) (b : Bool) :
    ∃ p' : Nat, decUpdate rates (pack p c) b = some (pack p' (min (c + 1) 1000)) ∧
      Ok p' (min (c + 1) 1000) ∧
      Nearest (target p (rate c) b - 2 ^ 61) 40 ((p' : Int) - 2 ^ 21) := by
  have hc : c < 1024 := by have := h.1; omega
  obtain ⟨r, hn, he⟩ := decUpdate_eq b h.lt.2 hc (hr c hc) rate_le
  have hb := target_bounds h b
  have hrb : -2097152 < r ∧ r < 2097152 := by
    obtain ⟨h1, -⟩ := hn
    have h3 := le_abs_self (r * 2 ^ 40 - (target p (rate c) b - 2 ^ 61))
    have h4 := neg_abs_le (r * 2 ^ 40 - (target p (rate c) b - 2 ^ 61))
    generalize |r * 2 ^ 40 - (target p (rate c) b - 2 ^ 61)| = z at *
    generalize target p (rate c) b = t at *
    norm_num at *
    omega
  obtain ⟨p', hp'⟩ := Int.eq_ofNat_of_zero_le (show 0 ≤ r + 2 ^ 21 by omega)
  have hpl : p' < 4194304 ∧ 1 ≤ p' := by omega
  refine ⟨p', ?_, ⟨by omega, Or.inr ⟨by omega, by omega, by omega⟩⟩, ?_⟩
  · rw [he, hp']
    have : i64AsU32 (p' : Int) = p' := by unfold i64AsU32; omega
    rw [this, Nat.mod_eq_of_lt (by omega), or_pack (by omega)]
  · rw [← hp']
    simpa using hn

theorem target_flip (p f : Int) (b : Bool) :
    target (2 ^ 22 - p) f (!b) - 2 ^ 61 = -(target p f b - 2 ^ 61) := by
  unfold target
  cases b <;> simp <;> ring

theorem Ok.flip {p c : Nat} (h : Ok p c) : Ok (2 ^ 22 - p) c := by
  obtain ⟨hc, ⟨rfl, rfl⟩ | ⟨h1, h2, h3⟩⟩ := h
  · exact ⟨hc, Or.inl ⟨rfl, rfl⟩⟩
  · exact ⟨hc, Or.inr ⟨h1, by omega, by omega⟩⟩

/-- mirror image of one step -/
theorem decUpdate_flip {rates : List Nat} (hr : IsDefault rates) {p c p' : Nat} (h : Ok p c) (b : Bool)
    (hp' : Ok p' (min (c + 1) 1000))
    (hu : decUpdate rates (pack p c) b = some (pack p' (min (c + 1) 1000))) :
    decUpdate rates (pack (2 ^ 22 - p) c) (!b) = some (pack (2 ^ 22 - p') (min (c + 1) 1000)) := by
  obtain ⟨p1, e1, o1, n1⟩ := decUpdate_step hr h b
  obtain ⟨p2, e2, o2, n2⟩ := decUpdate_step hr h.flip (!b)
  rw [hu, Option.some.injEq] at e1
  have h1 : p1 = p' := by
    unfold pack at e1; omega
  subst h1
  have hl := h.lt
  rw [show ((2 ^ 22 - p : Nat) : Int) = 2 ^ 22 - (p : Int) by
    rw [Nat.cast_sub (by omega)]; norm_num, target_flip] at n2
  have := Nearest.unique n2 (NearestDiv.neg n1)
  have hp1 := o1.lt
  rw [e2, show p2 = 2 ^ 22 - p1 by omega]

theorem decRun_append (rates : List Nat) (xs ys : List Bool) : ∀ e : Nat,
    decRun rates e (xs ++ ys) = (decRun rates e xs).bind fun e => decRun rates e ys := by
  induction xs with
  | nil => intro e; rfl
  | cons b xs ih =>
    intro e
    rw [List.cons_append, decRun, decRun]
    cases decUpdate rates e b with
    | none => rfl
    | some e' => rw [ob_some, ob_some]; exact ih e'

theorem decNew_eq : decNew = some (pack (2 ^ 21) 0) := by decide +kernel

theorem decHalf1_eq : decMake (2 ^ 30) 1 = some (pack (2 ^ 21) 1) := by decide +kernel

theorem ok_new : Ok (2 ^ 21) 0 := ⟨by omega, Or.inl ⟨rfl, rfl⟩⟩

theorem ok_half1 : Ok (2 ^ 21) 1 := ⟨by omega, Or.inr (by norm_num)⟩

/-- Runs from a reachable state succeed, and so do their mirror images. -/
theorem decRun_ok {rates : List Nat} (hr : IsDefault rates) (bits : List Bool) : ∀ {p c : Nat}, Ok p c →
    ∃ p' : Nat, decRun rates (pack p c) bits = some (pack p' (min (c + bits.length) 1000)) ∧
      Ok p' (min (c + bits.length) 1000) ∧
      decRun rates (pack (2 ^ 22 - p) c) (bits.map not) =
        some (pack (2 ^ 22 - p') (min (c + bits.length) 1000)) := by
  induction bits with
  | nil =>
    intro p c h
    refine ⟨p, ?_⟩
    rw [show min (c + ([] : List Bool).length) 1000 = c by have := h.1; simp; omega]
    exact ⟨rfl, h, rfl⟩
  | cons b bits ih =>
    intro p c h
    obtain ⟨p1, e1, o1, -⟩ := decUpdate_step hr h b
    obtain ⟨p2, e2, o2, f2⟩ := ih o1
    have hm : min (min (c + 1) 1000 + bits.length) 1000 = min (c + (b :: bits).length) 1000 := by
      simp; omega
    rw [hm] at e2 o2 f2
    refine ⟨p2, ?_, o2, ?_⟩
    · unfold decRun; rw [e1, ob_some, e2]
    · rw [List.map_cons]
      unfold decRun; rw [decUpdate_flip hr h b o1 e1, ob_some, f2]

/-- error of one step: `(c + 2) p' ≈ (c + 1) p + 2 ^ 22 z` -/
theorem step_error {p c p' : Nat} (h : Ok p c) (b : Bool)
    (hn : Nearest (target p (rate c) b - 2 ^ 61) 40 ((p' : Int) - 2 ^ 21)) :
    512 * |((c : Int) + 2) * p' - (c + 1) * p - (if b then 0 else 4194304)| ≤ 257 * c + 513 := by
  have hl := h.lt
  have hp1 : (1 : Int) ≤ p := by exact_mod_cast hl.1
  have hp2 : (p : Int) ≤ 4194303 := by
    have : (p : Int) < 4194304 := by exact_mod_cast hl.2
    omega
  have hc : (0 : Int) ≤ c := by positivity
  obtain ⟨h1, -⟩ := hn
  have hdm : ((rate c : Int)) * (c + 2) + (2147483648 % ((c : Int) + 2)) = 2147483648 := by
    have := Nat.div_add_mod (2 ^ 31) (c + 2)
    have h2 : ((c + 2) * (2 ^ 31 / (c + 2)) + 2 ^ 31 % (c + 2) : Nat) = (2147483648 : Int) := by
      exact_mod_cast this
    push_cast at h2
    unfold rate
    push_cast
    norm_num at h2 ⊢
    linarith
  have hm1 := Int.emod_nonneg 2147483648 (show (c : Int) + 2 ≠ 0 by omega)
  have hm2 := Int.emod_lt_of_pos 2147483648 (show (0 : Int) < (c : Int) + 2 by omega)
  generalize (2147483648 % ((c : Int) + 2)) = ρ at *
  have hε := abs_le.mp (show |((p' : Int) - 2 ^ 21) * 2 ^ 40 - (target p (rate c) b - 2 ^ 61)| ≤ 2 ^ 39 by
    norm_num at h1 ⊢; omega)
  generalize hz : (if b then (0 : Int) else 4194304) = Z at *
  have hZ : Z = 0 ∨ Z = 4194304 := by cases b <;> simp at hz <;> omega
  have ht : target p (rate c) b = (p : Int) * 2 ^ 40 + (Z - p) * 512 * rate c := by
    unfold target
    rw [← hz]
    cases b <;> simp <;> ring
  rw [ht] at hε
  generalize (rate c : Int) = f at *
  generalize (p : Int) = p at *
  generalize (p' : Int) = p' at *
  generalize (c : Int) = c at *
  clear h1 ht hz h hl
  -- multiply the rounding error by (c + 2)
  have hη : ((c + 2) * p' - (c + 1) * p - Z) * 2 ^ 40 =
      (c + 2) * ((p' - 2 ^ 21) * 2 ^ 40 - (p * 2 ^ 40 + (Z - p) * 512 * f - 2 ^ 61))
        - (Z - p) * 512 * ρ := by
    have : f * (c + 2) = 2147483648 - ρ := by linarith
    linear_combination (Z - p) * 512 * this
  obtain ⟨e1, e2⟩ := hε
  generalize (p' - 2 ^ 21) * 2 ^ 40 - (p * 2 ^ 40 + (Z - p) * 512 * f - 2 ^ 61) = ε at *
  have hZp : |Z - p| ≤ 4194304 := abs_le.mpr ⟨by omega, by omega⟩
  have hρ : |(Z - p) * 512 * ρ| ≤ 4194304 * 512 * (c + 1) := by
    rw [abs_mul, abs_mul, abs_of_nonneg (show (0 : Int) ≤ 512 by norm_num), abs_of_nonneg hm1]
    apply mul_le_mul _ (by omega) hm1 (by norm_num)
    linarith
  have hρ' := abs_le.mp hρ
  generalize (Z - p) * 512 * ρ = τ at *
  have hε' : |(c + 2) * ε| ≤ (c + 2) * 2 ^ 39 := by
    rw [abs_mul, abs_of_nonneg (show (0 : Int) ≤ c + 2 by omega)]
    apply mul_le_mul_of_nonneg_left (abs_le.mpr ⟨by omega, by omega⟩) (by omega)
  have hε'' := abs_le.mp hε'
  generalize (c + 2) * ε = ε' at *
  generalize (c + 2) * p' - (c + 1) * p - Z = η at *
  rw [← abs_of_nonneg (show (0 : Int) ≤ 512 by norm_num), ← abs_mul]
  apply abs_le.mpr
  norm_num at *
  constructor <;> omega

/-- number of zero bits -/
def zeros (bits : List Bool) : Nat := bits.count false

/-- accumulated error over a run -/
theorem run_error {rates : List Nat} (hr : IsDefault rates) (bits : List Bool) :
    ∀ {p c : Nat}, Ok p c → c + bits.length ≤ 1001 →
    ∃ p' : Nat, decRun rates (pack p c) bits = some (pack p' (min (c + bits.length) 1000)) ∧
      Ok p' (min (c + bits.length) 1000) ∧
      1024 * |((c : Int) + bits.length + 1) * p' - (c + 1) * p - 4194304 * (zeros bits : Int)| ≤
        257 * ((bits.length : Int) * (2 * c + bits.length - 1)) + 1026 * bits.length := by
  induction bits with
  | nil =>
    intro p c h hlen
    refine ⟨p, ?_⟩
    rw [show min (c + ([] : List Bool).length) 1000 = c by have := h.1; simp; omega]
    exact ⟨rfl, h, by simp [zeros]⟩
  | cons b bits ih =>
    intro p c h hlen
    rw [List.length_cons] at hlen
    obtain ⟨p1, e1, o1, n1⟩ := decUpdate_step hr h b
    have hse := step_error h b n1
    by_cases hb : bits = []
    · subst hb
      refine ⟨p1, ?_, ?_, ?_⟩
      · unfold decRun; rw [e1, ob_some]; rfl
      · exact o1
      · simp only [List.length_cons, List.length_nil, zeros]
        have e : (4194304 : Int) * (List.count false [b] : Nat) = if b then 0 else 4194304 := by
          cases b <;> simp
        rw [e]
        have e2 : ((c : Int) + ((0 + 1 : Nat) : Int) + 1) = c + 2 := by push_cast; ring
        rw [e2]
        push_cast
        linarith
    · have hbl : 1 ≤ bits.length := List.length_pos_iff.mpr hb
      have hmin : min (c + 1) 1000 = c + 1 := by omega
      rw [hmin] at e1 o1
      obtain ⟨p2, e2, o2, f2⟩ := ih o1 (by omega)
      have hm : min (c + 1 + bits.length) 1000 = min (c + (b :: bits).length) 1000 := by
        simp; omega
      rw [hm] at e2 o2
      refine ⟨p2, ?_, o2, ?_⟩
      · unfold decRun; rw [e1, ob_some, e2]
      · have hz : (4194304 : Int) * zeros (b :: bits) =
            (if b then 0 else 4194304) + 4194304 * zeros bits := by
          unfold zeros
          cases b <;> simp [List.count_cons] <;> ring
        rw [hz, List.length_cons]
        push_cast at f2 ⊢
        have hsplit : ((c : Int) + (bits.length + 1) + 1) * p2 - (c + 1) * p -
            ((if b then 0 else 4194304) + 4194304 * (zeros bits : Int)) =
            (((c : Int) + 1 + bits.length + 1) * p2 - (c + 1 + 1) * p1 - 4194304 * (zeros bits : Int)) +
            (((c : Int) + 2) * p1 - (c + 1) * p - (if b then 0 else 4194304)) := by ring
        rw [hsplit]
        have htri := abs_add_le
          (((c : Int) + 1 + bits.length + 1) * p2 - (c + 1 + 1) * p1 - 4194304 * (zeros bits : Int))
          (((c : Int) + 2) * p1 - (c + 1) * p - (if b then 0 else 4194304))
        nlinarith

end Verif.Est
