import Verif.Pred.StreamProps
import Verif.Pred.ProbProps
import Mathlib.InformationTheory.Coding.KraftMcMillan

/-!
# C87: the limits of compression

What no lossless compressor can do, for the compressor made of the predictor and the encoder: files of the same size cannot
all shrink, and on average no distribution of files is coded below its entropy. Also how much a file can grow at most.
-/

namespace Verif.Pred

open Verif Verif.Coding Verif.Mix

/-! ## Specification -/

/-- the size of a compressed file in bytes -/
def packedSize (mode : Mode) (W maxOrder : Nat) (bytes : List (List Bool)) : Nat :=
  ((compress mode W maxOrder bytes).getD []).length

/-- all files of `n` bytes -/
def allFiles (n : Nat) : Finset (List (List Bool)) :=
  Finset.univ.image fun f : Fin n → Fin 8 → Bool => List.ofFn fun i => List.ofFn (f i)

/-! ## Lemmas -/

theorem mem_allFiles {n : Nat} {x : List (List Bool)} : x ∈ allFiles n ↔ x.length = n ∧ ∀ b ∈ x, b.length = 8 := by
  unfold allFiles
  rw [Finset.mem_image]
  constructor
  · rintro ⟨f, -, rfl⟩
    refine ⟨List.length_ofFn, ?_⟩
    intro b hb
    obtain ⟨i, rfl⟩ := (List.mem_ofFn' _ _).mp hb
    exact List.length_ofFn
  · rintro ⟨rfl, h8⟩
    refine ⟨fun i j => (x[i.1]).getD j.1 false, Finset.mem_univ _, ?_⟩
    apply List.ext_getElem
    · rw [List.length_ofFn]
    · intro i h1 h2
      rw [List.getElem_ofFn]
      have hl := h8 _ (List.getElem_mem h2)
      apply List.ext_getElem
      · rw [List.length_ofFn, hl]
      · intro j h3 h4
        rw [List.getElem_ofFn]
        exact (List.getElem_eq_getD false).symm

theorem card_allFiles (n : Nat) : (allFiles n).card = 256 ^ n := by
  unfold allFiles
  rw [Finset.card_image_of_injective, Finset.card_univ, Fintype.card_fun, Fintype.card_fun, Fintype.card_fin, Fintype.card_fin,
    Fintype.card_bool]
  · norm_num
  · intro f g h
    have h1 := List.ofFn_injective h
    funext i
    exact List.ofFn_injective (congrFun h1 i)

theorem shiftIn_length {d d' : Decoder} (h : d.shiftIn = some d') : d.input.length = d'.input.length + 1 := by
  unfold Decoder.shiftIn at h
  obtain ⟨⟨byte, d1⟩, e1, h⟩ := Option.bind_eq_some_iff.mp h
  dsimp only at h
  obtain ⟨b, -, h⟩ := Option.bind_eq_some_iff.mp h
  obtain rfl := Option.some.inj h
  unfold Decoder.inputByte at e1
  split at e1
  · cases e1
  · rename_i hd
    obtain ⟨rfl, rfl⟩ := Prod.mk.inj (Option.some.inj e1)
    rw [hd]
    rfl

theorem decoder_four {input : List Nat} {d : Decoder} (h : Decoder.new input = some d) : 4 ≤ input.length := by
  unfold Decoder.new at h
  obtain ⟨d1, e1, h⟩ := Option.bind_eq_some_iff.mp h
  obtain ⟨d2, e2, h⟩ := Option.bind_eq_some_iff.mp h
  obtain ⟨d3, e3, h⟩ := Option.bind_eq_some_iff.mp h
  have h1 := shiftIn_length e1
  have h2 := shiftIn_length e2
  have h3 := shiftIn_length e3
  have h4 := shiftIn_length h
  dsimp only at h1
  omega

section

variable {mode : Mode} {W maxOrder : Nat} (hW0 : 0 < W) (hW : W ≤ 2 ^ 31) (hM : maxOrder ≤ 8191)

include hW0 hW hM

/-- **C87 (prefix).** The compressed forms of two different files of the same size: none is the beginning of the other. -/
theorem C87_prefix (x y : List (List Bool)) (hx : ∀ b ∈ x, b.length = 8) (hy : ∀ b ∈ y, b.length = 8)
    (hn : x.length ≤ 87500000) (hl : y.length = x.length) (hne : x ≠ y) {out out' : List Nat}
    (h1 : compress mode W maxOrder x = some out) (h2 : compress mode W maxOrder y = some out') : ¬ out <+: out' := by
  rintro ⟨t, rfl⟩
  obtain ⟨o1, e1, -, d1⟩ := C53_round_trip mode hW0 hW hM x hx hn t
  obtain ⟨o2, e2, -, d2⟩ := C53_round_trip mode hW0 hW hM y hy (by omega) []
  rw [h1] at e1
  rw [h2] at e2
  obtain rfl := Option.some.inj e1
  obtain rfl := Option.some.inj e2
  rw [List.append_nil, hl, d1] at d2
  exact hne (Prod.mk.inj (Option.some.inj d2)).1

/-- **C87 (Kraft).** For any set of files of the same size, the probabilities `256^-size` of their compressed forms add up to at
most one. -/
theorem C87_kraft {n : Nat} (hn : n ≤ 87500000) (S : Finset (List (List Bool))) (hS : S ⊆ allFiles n) :
    ∑ x ∈ S, (1 / 256 : ℝ) ^ packedSize mode W maxOrder x ≤ 1 := by
  classical
  let word : List (List Bool) → List (Fin 256) := fun x =>
    ((compress mode W maxOrder x).getD []).map (Fin.ofNat 256)
  have back : ∀ x ∈ S, ∀ trail : List (Fin 256), decompress mode W maxOrder ((word x ++ trail).map Fin.val) n =
      some (x, trail.map Fin.val) := by
    intro x hx trail
    obtain ⟨hl, h8⟩ := mem_allFiles.mp (hS hx)
    obtain ⟨out, e1, e2, e3⟩ := C53_round_trip mode hW0 hW hM x h8 (by omega) (trail.map Fin.val)
    have hw : (word x).map Fin.val = out := by
      change (((compress mode W maxOrder x).getD []).map (Fin.ofNat 256)).map Fin.val = out
      rw [e1, Option.getD_some, List.map_map]
      conv_rhs => rw [← List.map_id out]
      apply List.map_congr_left
      intro b hb
      exact Nat.mod_eq_of_lt (e2 b hb)
    rw [List.map_append, hw, ← hl]
    exact e3
  have inj : Set.InjOn word S := by
    intro x hx y hy hxy
    have h1 := back x hx []
    have h2 := back y hy []
    change word x = word y at hxy
    rw [hxy, h2] at h1
    exact (Prod.mk.inj (Option.some.inj h1)).1.symm
  have hnil : ∀ x ∈ S, word x ≠ [] := by
    intro x hx h
    have h1 := back x hx []
    rw [h, List.append_nil, List.map_nil] at h1
    unfold decompress at h1
    obtain ⟨t, -, h1⟩ := Option.bind_eq_some_iff.mp h1
    obtain ⟨p, -, h1⟩ := Option.bind_eq_some_iff.mp h1
    obtain ⟨d, h3, -⟩ := Option.bind_eq_some_iff.mp h1
    cases h3
  have ud : InformationTheory.UniquelyDecodable ((S.image word : Finset (List (Fin 256))) : Set (List (Fin 256))) := by
    intro L1
    induction L1 with
    | nil =>
      intro L2 _ h2 e
      cases L2 with
      | nil => rfl
      | cons w L2 =>
        obtain ⟨y, hy, rfl⟩ := Finset.mem_image.mp (Finset.mem_coe.mp (h2 w (by simp)))
        rw [List.flatten_nil, List.flatten_cons] at e
        exact absurd (List.append_eq_nil_iff.mp e.symm).1 (hnil y hy)
    | cons v L1 ih =>
      intro L2 h1 h2 e
      obtain ⟨x, hx, rfl⟩ := Finset.mem_image.mp (Finset.mem_coe.mp (h1 v (by simp)))
      cases L2 with
      | nil =>
        rw [List.flatten_nil, List.flatten_cons] at e
        exact absurd (List.append_eq_nil_iff.mp e).1 (hnil x hx)
      | cons w L2 =>
        obtain ⟨y, hy, rfl⟩ := Finset.mem_image.mp (Finset.mem_coe.mp (h2 w (by simp)))
        rw [List.flatten_cons, List.flatten_cons] at e
        have b1 := back x hx L1.flatten
        have b2 := back y hy L2.flatten
        rw [e, b2] at b1
        obtain ⟨rfl, -⟩ := Prod.mk.inj (Option.some.inj b1)
        rw [ih L2 (fun u hu => h1 u (by simp [hu])) (fun u hu => h2 u (by simp [hu])) (List.append_cancel_left e)]
  have key := InformationTheory.kraft_mcmillan_inequality ud
  rw [Finset.sum_image inj] at key
  refine le_trans (le_of_eq ?_) key
  apply Finset.sum_congr rfl
  intro x _
  rw [Fintype.card_fin]
  change _ = _ ^ (((compress mode W maxOrder x).getD []).map (Fin.ofNat 256)).length
  rw [List.length_map]
  norm_num [packedSize]

/-- **C87 (entropy).** Draw files of the same size by chance. The mean size of the compressed form in bits is at least the entropy
of the distribution. -/
theorem C87_entropy {n : Nat} (hn : n ≤ 87500000) (p : List (List Bool) → ℝ) (hp : ∀ x ∈ allFiles n, 0 ≤ p x)
    (h1 : ∑ x ∈ allFiles n, p x = 1) :
    ∑ x ∈ allFiles n, p x * -Real.logb 2 (p x) ≤ ∑ x ∈ allFiles n, p x * (8 * packedSize mode W maxOrder x) := by
  have key := C87_kraft (mode := mode) hW0 hW hM hn (allFiles n) (Finset.Subset.refl _)
  have hlog2 : 0 < Real.log 2 := Real.log_pos (by norm_num)
  have step : ∀ x ∈ allFiles n, (p x * -Real.logb 2 (p x) - p x * (8 * packedSize mode W maxOrder x)) * Real.log 2 ≤
      (1 / 256 : ℝ) ^ packedSize mode W maxOrder x - p x := by
    intro x hx
    generalize packedSize mode W maxOrder x = s
    rcases (hp x hx).eq_or_lt with h0 | h0
    · rw [← h0]
      simp
    · have hq : (0 : ℝ) < (1 / 256) ^ s := by positivity
      have hl := Real.log_le_sub_one_of_pos (div_pos hq h0)
      rw [Real.log_div hq.ne' h0.ne', Real.log_pow, show (1 / 256 : ℝ) = (2 ^ 8)⁻¹ by norm_num, Real.log_inv, Real.log_pow] at hl
      have hm := mul_le_mul_of_nonneg_left hl h0.le
      rw [mul_sub, mul_sub, mul_div_cancel₀ _ h0.ne', mul_one] at hm
      rw [Real.logb, sub_mul]
      have e : p x * -(Real.log (p x) / Real.log 2) * Real.log 2 = -(p x * Real.log (p x)) := by
        field_simp
      rw [e, show (1 / 256 : ℝ) = (2 ^ 8)⁻¹ by norm_num]
      push_cast at hm
      linarith
  have hs := Finset.sum_le_sum step
  rw [← Finset.sum_mul, Finset.sum_sub_distrib, Finset.sum_sub_distrib, h1] at hs
  have : (∑ x ∈ allFiles n, p x * -Real.logb 2 (p x) - ∑ x ∈ allFiles n, p x * (8 * packedSize mode W maxOrder x)) * Real.log 2 ≤ 0 := by
    linarith
  have := nonpos_of_mul_nonpos_left this hlog2
  linarith

/-- **C87 (mean).** The mean size of the compressed forms of all files of `n` bytes is at least `n` bytes. -/
theorem C87_mean {n : Nat} (hn : n ≤ 87500000) :
    n * 256 ^ n ≤ ∑ x ∈ allFiles n, packedSize mode W maxOrder x := by
  have hc : (0 : ℝ) < 256 ^ n := by positivity
  have h := C87_entropy (mode := mode) hW0 hW hM hn (fun _ => (256 ^ n : ℝ)⁻¹) (fun _ _ => by positivity) (by
    rw [Finset.sum_const, card_allFiles, nsmul_eq_mul]
    push_cast
    exact mul_inv_cancel₀ hc.ne')
  have hl : Real.logb 2 (256 ^ n : ℝ)⁻¹ = -(8 * n) := by
    rw [Real.logb_inv, show (256 : ℝ) = 2 ^ 8 by norm_num, ← pow_mul, Real.logb_pow, Real.logb_self_eq_one (by norm_num)]
    push_cast
    ring
  rw [Finset.sum_const, card_allFiles, hl, ← Finset.mul_sum, ← Finset.mul_sum, nsmul_eq_mul, neg_neg] at h
  push_cast at h
  rw [← mul_assoc, mul_inv_cancel₀ hc.ne', one_mul, ← div_eq_inv_mul, le_div_iff₀ hc] at h
  have h2 : ((n * 256 ^ n : ℕ) : ℝ) ≤ ((∑ x ∈ allFiles n, packedSize mode W maxOrder x : ℕ) : ℝ) := by
    push_cast
    linarith
  exact_mod_cast h2

/-- **C87 (few).** At most `256^m` files of a size have a compressed form of at most `m` bytes. So at most one file in `256^k`
shrinks by `k` bytes or more, and some file of each size does not shrink at all. -/
theorem C87_few {n : Nat} (hn : n ≤ 87500000) (m : Nat) :
    ((allFiles n).filter fun x => packedSize mode W maxOrder x ≤ m).card ≤ 256 ^ m ∧
    (∀ k ≤ n, ((allFiles n).filter fun x => packedSize mode W maxOrder x + k ≤ n).card * 256 ^ k ≤ (allFiles n).card) ∧
    ∃ x ∈ allFiles n, n ≤ packedSize mode W maxOrder x := by
  have few : ∀ m, ((allFiles n).filter fun x => packedSize mode W maxOrder x ≤ m).card ≤ 256 ^ m := by
    intro m
    have key := C87_kraft (mode := mode) hW0 hW hM hn ((allFiles n).filter fun x => packedSize mode W maxOrder x ≤ m)
      (Finset.filter_subset _ _)
    have h2 : ((allFiles n).filter fun x => packedSize mode W maxOrder x ≤ m).card • (1 / 256 : ℝ) ^ m ≤ 1 := by
      refine le_trans (Finset.card_nsmul_le_sum _ _ _ fun x hx => ?_) key
      exact pow_le_pow_of_le_one (by norm_num) (by norm_num) (Finset.mem_filter.mp hx).2
    rw [nsmul_eq_mul, one_div, inv_pow, ← div_eq_mul_inv, div_le_one (by positivity)] at h2
    exact_mod_cast h2
  refine ⟨few m, ?_, ?_⟩
  · intro k hk
    have h := few (n - k)
    rw [card_allFiles, show n = (n - k) + k by omega, pow_add, show (n - k) + k = n by omega]
    refine Nat.mul_le_mul_right _ (le_trans (Finset.card_le_card ?_) h)
    intro x hx
    rw [Finset.mem_filter] at hx ⊢
    exact ⟨hx.1, by omega⟩
  · by_contra hc
    push Not at hc
    have hpos : 0 < (allFiles n).card := by rw [card_allFiles]; positivity
    obtain ⟨x0, hx0⟩ := Finset.card_pos.mp hpos
    have hn0 : 0 < n := by have := hc x0 hx0; omega
    have h := few (n - 1)
    rw [Finset.filter_true_of_mem (fun x hx => by have := hc x hx; omega), card_allFiles] at h
    exact absurd h (not_le.mpr (Nat.pow_lt_pow_right (by norm_num) (by omega)))

/-- **C87 (growth).** In every mode a compressed file has at most 24 bytes for each byte of the file, and four more. -/
theorem C87_growth (x : List (List Bool)) (h8 : ∀ b ∈ x, b.length = 8) (hn : x.length ≤ 87500000) :
    4 ≤ packedSize mode W maxOrder x ∧ packedSize mode W maxOrder x ≤ 4 + 24 * x.length := by
  obtain ⟨out, e1, e2, e3⟩ := C53_round_trip mode hW0 hW hM x h8 hn (List.replicate (4 + 24 * x.length) 0)
  obtain ⟨out', e1', -, e4⟩ := C53_round_trip mode hW0 hW hM x h8 hn []
  rw [e1] at e1'
  obtain rfl := Option.some.inj e1'
  rw [packedSize, e1, Option.getD_some]
  constructor
  · rw [List.append_nil] at e4
    unfold decompress at e4
    obtain ⟨t, -, e4⟩ := Option.bind_eq_some_iff.mp e4
    obtain ⟨p, -, e4⟩ := Option.bind_eq_some_iff.mp e4
    obtain ⟨d, e5, -⟩ := Option.bind_eq_some_iff.mp e4
    exact decoder_four e5
  · obtain ⟨bytes, rest, f1, -, -, f2⟩ := C73_any_stream hW0 hW hM (mode := mode) (out ++ List.replicate (4 + 24 * x.length) 0) (by
      intro b hb
      rcases List.mem_append.mp hb with hb | hb
      · exact e2 b hb
      · rw [List.eq_of_mem_replicate hb]
        decide) x.length (by omega) (by rw [List.length_append, List.length_replicate]; omega)
    rw [e3] at f1
    obtain ⟨-, rfl⟩ := Prod.mk.inj (Option.some.inj f1)
    rw [List.length_append] at f2
    omega

end

/-- **C87 (growth, mode of the program).** With the mode the program uses a file grows at most to about twice its size and 66.4
million bytes. -/
theorem C87_double {W maxOrder : Nat} (hW0 : 0 < W) (hW : W ≤ 2 ^ 31) (hM : maxOrder ≤ 8191)
    (x : List (List Bool)) (h8 : ∀ b ∈ x, b.length = 8) (hn : x.length ≤ 87500000) :
    (packedSize .light W maxOrder x : ℝ) ≤ 66400000 + 201 / 100 * x.length := by
  have hlist : IsList fun _ => some (1 / 2 : ℝ) := by
    intro c q hq
    obtain rfl := Option.some.inj hq
    norm_num
  obtain ⟨out, e1, e2⟩ := C78_compressed hW0 hW hM x h8 hn _ _ _ hlist hlist hlist
  have hcount : listCount (fun _ => some (1 / 2 : ℝ)) 65536 = 65536 := by
    unfold listCount
    exact (List.countP_eq_length.mpr (by simp)).trans List.length_range
  have hallow : ∀ order, fileAllowance order (fun _ => some (1 / 2 : ℝ)) x = 73 / 40 * (8 * x.length) := by
    intro order
    unfold fileAllowance
    rw [Finset.sum_congr rfl (g := fun _ => (73 / 40 : ℝ)), Finset.sum_const, Finset.card_range, nsmul_eq_mul]
    · push_cast
      ring
    · intro i _
      have hc : ∀ b, chanceOf (1 / 2 : ℝ) b = 1 / 2 := by
        intro b
        unfold chanceOf
        cases b <;> norm_num
      unfold allowance
      dsimp only
      rw [hc, if_pos (by norm_num), show (1 / 2 : ℝ) = 2⁻¹ by norm_num, Real.logb_inv, Real.logb_self_eq_one (by norm_num)]
      norm_num
  rw [hcount, hallow, hallow, hallow] at e2
  rw [packedSize, e1, Option.getD_some]
  have : (0 : ℝ) ≤ x.length := Nat.cast_nonneg _
  push_cast at e2
  norm_num at e2
  linarith

/-- for one byte: the mean size of the 256 compressed forms -/
example : 256 ≤ ∑ x ∈ allFiles 1, packedSize .light 10000000 20 x := by
  have h := C87_mean (mode := .light) (W := 10000000) (maxOrder := 20) (by norm_num) (by norm_num) (by norm_num) (n := 1) (by norm_num)
  rw [one_mul, pow_one] at h
  exact h

/-- the file `a` is one of the files of one byte -/
example : [letterA] ∈ allFiles 1 := by
  rw [mem_allFiles]
  simp [letterA]

end Verif.Pred
