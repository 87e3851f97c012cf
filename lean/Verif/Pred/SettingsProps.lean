import Verif.Pred.Exact
import Verif.Pred.ExactProps

/-!
# C98: settings beyond the size of the file do not matter
-/

namespace Verif.Pred

open Verif Verif.Coding Verif.Util Verif.History

/-! ## Lemmas -/

/-- only contexts shorter than the text by two bytes can have occurred before -/
theorem orders_enough {hist : List Bool} {M n : Nat} (hl : hist.length < 8 * n) (hM : n ≤ M + 2) :
    orders hist M = orders hist (n - 2) := by
  unfold orders
  have none : ∀ k, n - 1 ≤ k → occs hist k = [] := by
    intro k hk
    have : hist.length / 8 - k = 0 := by omega
    unfold occs
    rw [this]
    rfl
  have hs : M + 1 = (n - 2 + 1) + (M - (n - 2)) := by omega
  rw [hs, List.range_add, List.filter_append]
  have : ((List.range (M - (n - 2))).map (fun x => n - 2 + 1 + x)).filter (fun k => occs hist k ≠ []) = [] := by
    rw [List.filter_eq_nil_iff]
    intro k hk
    obtain ⟨j, -, rfl⟩ := List.mem_map.mp hk
    rw [none _ (by omega)]
    simp
  rw [this, List.append_nil]

theorem refBit_orders {t : Tables} {mode : Mode} {table : List Nat} {M M' n : Nat} (hM : n ≤ M + 2) (hM' : n ≤ M' + 2)
    {I : Ideal} (hl : I.hist.length < 8 * n) (lb : LB) (R : Ref) (b : Bool) :
    refBit t mode (idealSource table M) ⟨I, lb, R⟩ b = refBit t mode (idealSource table M') ⟨I, lb, R⟩ b := by
  have hg : (idealSource table M).gather I = (idealSource table M').gather I := by
    show idealGather table M I = idealGather table M' I
    unfold idealGather
    rw [orders_enough hl hM, orders_enough hl hM']
  unfold refBit
  dsimp only
  rw [hg]
  rfl

theorem refBit_push {t : Tables} {mode : Mode} {table : List Nat} {M : Nat} {I : Ideal} {lb : LB} {R : Ref} {b : Bool}
    {f : Nat} {x : RefState Ideal} (h : refBit t mode (idealSource table M) ⟨I, lb, R⟩ b = some (f, x)) :
    x.src.hist.length = I.hist.length + 1 := by
  unfold refBit at h
  obtain ⟨_, -, h⟩ := Option.bind_eq_some_iff.mp h
  obtain ⟨_, -, h⟩ := Option.bind_eq_some_iff.mp h
  obtain ⟨_, -, h⟩ := Option.bind_eq_some_iff.mp h
  obtain ⟨_, -, h⟩ := Option.bind_eq_some_iff.mp h
  obtain ⟨_, -, h⟩ := Option.bind_eq_some_iff.mp h
  obtain ⟨⟨_, costs⟩, -, h⟩ := Option.bind_eq_some_iff.mp h
  obtain ⟨_, -, h⟩ := Option.bind_eq_some_iff.mp h
  obtain ⟨s, hs, h⟩ := Option.bind_eq_some_iff.mp h
  obtain ⟨_, -, h⟩ := Option.bind_eq_some_iff.mp h
  obtain ⟨-, rfl⟩ := Prod.mk.inj (Option.some.inj h)
  obtain rfl : I.push b costs = s := Option.some.inj hs
  show (I.hist ++ [b]).length = _
  rw [List.length_append]
  rfl

theorem refRun_orders {t : Tables} {mode : Mode} {table : List Nat} {M M' n : Nat} (hM : n ≤ M + 2) (hM' : n ≤ M' + 2) :
    ∀ (bits : List Bool) (L : Nat) (x : RefState Ideal), x.src.hist.length = L → L + bits.length ≤ 8 * n →
      refRun t mode (idealSource table M) L x bits = refRun t mode (idealSource table M') L x bits := by
  intro bits
  induction bits with
  | nil => intro L x _ _; rfl
  | cons b bits ih =>
    intro L x hx hL
    rw [List.length_cons] at hL
    rw [refRun, refRun]
    have hr : refReady (idealSource table M) L x = refReady (idealSource table M') L x := rfl
    rw [hr]
    cases h1 : refReady (idealSource table M') L x with
    | none => rfl
    | some y =>
      have hy : y.src = x.src := by
        unfold refReady at h1
        split at h1
        · obtain ⟨s, e1, h1⟩ := Option.bind_eq_some_iff.mp h1
          obtain ⟨_, -, h1⟩ := Option.bind_eq_some_iff.mp h1
          obtain rfl := Option.some.inj h1
          exact (Option.some.inj e1).symm
        · obtain rfl := Option.some.inj h1; rfl
      obtain ⟨I, lb, R⟩ := y
      dsimp only at hy
      rw [ob_some, ob_some, refBit_orders hM hM' (n := n) (by rw [hy]; omega)]
      cases h2 : refBit t mode (idealSource table M') ⟨I, lb, R⟩ b with
      | none => rfl
      | some fx =>
        obtain ⟨f, x'⟩ := fx
        rw [ob_some, ob_some]
        dsimp only
        rw [ih (L + 1) x' (by rw [refBit_push h2, hy, hx]) (by omega)]

theorem refPredictions_orders {t : Tables} {mode : Mode} {table : List Nat} {M M' n : Nat} (hM : n ≤ M + 2)
    (hM' : n ≤ M' + 2) (bits : List Bool) (hl : bits.length ≤ 8 * n) :
    refPredictions t mode (idealSource table M) (some Ideal.new) bits =
      refPredictions t mode (idealSource table M') (some Ideal.new) bits := by
  unfold refPredictions
  rw [ob_some, ob_some]
  cases refNew t with
  | none => rfl
  | some R => rw [ob_some, ob_some, refRun_orders hM hM' bits 0 _ rfl (by omega)]

/-! ## Theorems -/

section
variable {mode : Mode} {W W' M M' : Nat} (hW0 : 0 < W) (hW : W ≤ 2 ^ 31) (hM : M ≤ 8191) (hW0' : 0 < W') (hW' : W' ≤ 2 ^ 31)
  (hM' : M' ≤ 8191) {n : Nat} (hn : n ≤ W) (hn' : n ≤ W') (ho : M = M' ∨ n ≤ M + 2 ∧ n ≤ M' + 2)
include hW0 hW hM hW0' hW' hM' hn hn' ho

/-- **C98 (predictions).** Two predictors with windows that are not smaller than the data and with the same maximal order, or maximal
orders that are not smaller than the size of the data less two, make the same predictions. -/
theorem C98_predictions {t : Tables} (ht : tablesNew = some t) {p0 p0' : Predictor} (h0 : predNew t mode W M = some p0)
    (h0' : predNew t mode W' M' = some p0') (bytes : List (List Bool)) (h8 : ∀ b ∈ bytes, b.length = 8)
    (hb : bytes.length = n) :
    ∃ fs p p', calls t mode p0 (bytes.flatMap byteCalls) = some (fs, p) ∧
      calls t mode p0' (bytes.flatMap byteCalls) = some (fs, p') := by
  obtain ⟨fs, p, h1, -, h2⟩ := C56_predictions ht mode (fun _ _ => 0) hW0 hW hM h0 bytes h8 (by omega)
  obtain ⟨fs', p', h1', -, h2'⟩ := C56_predictions ht mode (fun _ _ => 0) hW0' hW' hM' h0' bytes h8 (by omega)
  have e : refPredictions t mode (idealSource t.costs M) (some Ideal.new) bytes.flatten =
      refPredictions t mode (idealSource t.costs M') (some Ideal.new) bytes.flatten := by
    rcases ho with rfl | ⟨o, o'⟩
    · rfl
    · exact refPredictions_orders o o' _ (by rw [length_flatten8 h8, hb])
  rw [e, h2'] at h2
  obtain rfl := Option.some.inj h2
  exact ⟨_, p, p', h1, h1'⟩

/-- **C98 (compression).** The compressed form does not depend on the size of a window that holds the whole file, nor on a maximal
order of at least the size of the file less two. -/
theorem C98_compress (bytes : List (List Bool)) (h8 : ∀ b ∈ bytes, b.length = 8) (hb : bytes.length = n) :
    compress mode W M bytes = compress mode W' M' bytes := by
  obtain ⟨t, ht⟩ := C52_tables
  obtain ⟨p0, h0⟩ := C44_new ht mode hW0 hW hM
  obtain ⟨p0', h0'⟩ := C44_new ht mode hW0' hW' hM'
  obtain ⟨fs, p, p', h1, h1'⟩ := C98_predictions hW0 hW hM hW0' hW' hM' hn hn' ho ht h0 h0' bytes h8 hb
  rw [compress_encode h8 ht h0 h1, compress_encode h8 ht h0' h1']

theorem decompress_settings {input rest : List Nat} {bytes : List (List Bool)}
    (h : decompress mode W M input n = some (bytes, rest)) : decompress mode W' M' input n = some (bytes, rest) := by
  obtain ⟨i1, h8, t, p0, fs, p, d, ht, h0, h1, i4, -, rfl, i7⟩ := decompress_decode hW0 hW hM (by omega) h
  obtain ⟨p0', h0'⟩ := C44_new ht mode hW0' hW' hM'
  obtain ⟨fs', q, p', g1, g2⟩ := C98_predictions hW0 hW hM hW0' hW' hM' hn hn' ho ht h0 h0' bytes h8 i1
  rw [h1] at g1
  obtain ⟨rfl, rfl⟩ := Prod.mk.inj (Option.some.inj g1)
  obtain ⟨r1, -, r3⟩ := bytes_run bytes h8 g2
  rw [bitEvents_value r1] at i7
  unfold decode at i7
  obtain ⟨d0, a1, a2⟩ := Option.bind_eq_some_iff.mp i7
  unfold decompress
  rw [ht, ob_some, h0', ob_some, a1, ob_some, ← i1, r3 _ _ a2, ob_some]

end

/-- **C98 (decompression).** Decompressing `n` bytes, valid or not, likewise gives the same with all such settings: the same failure, or
the same bytes with the same rest left unread. -/
theorem C98_decompress {mode : Mode} {W W' M M' : Nat} (hW0 : 0 < W) (hW : W ≤ 2 ^ 31) (hM : M ≤ 8191) (hW0' : 0 < W')
    (hW' : W' ≤ 2 ^ 31) (hM' : M' ≤ 8191) {n : Nat} (hn : n ≤ W) (hn' : n ≤ W')
    (ho : M = M' ∨ n ≤ M + 2 ∧ n ≤ M' + 2) (input : List Nat) :
    decompress mode W M input n = decompress mode W' M' input n := by
  cases h : decompress mode W M input n with
  | some r => exact (decompress_settings hW0 hW hM hW0' hW' hM' hn hn' ho h).symm
  | none =>
    cases h' : decompress mode W' M' input n with
    | none => rfl
    | some r =>
      rw [decompress_settings hW0' hW' hM' hW0 hW hM hn' hn (by omega) h'] at h
      cases h

/-- three letters: windows of 3 bytes and of 10 million bytes, maximal orders 1 and 20 -/
example : compress .light 3 1 [letterA, letterB, letterA] = compress .light 10000000 20 [letterA, letterB, letterA] :=
  C98_compress (by norm_num) (by norm_num) (by norm_num) (by norm_num) (by norm_num) (by norm_num) (n := 3) (by norm_num)
    (by norm_num) (Or.inr ⟨by norm_num, by norm_num⟩) _ (by decide) rfl

end Verif.Pred
