import Verif.Pred.RefRun
import Verif.Pred.Props

/-!
# The predictor is the reference predictor (C55)
-/

namespace Verif.Pred

open Verif Verif.Fixed Verif.Lut Verif.Mix Verif.Util Verif.History Verif.Tree Verif.Bits

/-- **C55.** For every file, mode, window and highest order, the predictions made by the predictor are those of the
reference predictor (`RefSpec.lean`), in which every estimator, mixer and map is a separate value found by its key, and
in which a prediction changes nothing. -/
theorem C55_reference {t : Tables} (ht : tablesNew = some t) (mode : Mode) {W maxOrder : Nat} (hW0 : 0 < W)
    (hW : W ≤ 2 ^ 31) (hM : maxOrder ≤ 8191) {p0 : Predictor} (h0 : predNew t mode W maxOrder = some p0)
    (bytes : List (List Bool)) (h8 : ∀ b ∈ bytes, b.length = 8) (hn : bytes.length ≤ 2 ^ 35) :
    ∃ fs p, calls t mode p0 (bytes.flatMap byteCalls) = some (fs, p) ∧
      refPredictions t mode (treeSource t.luts) (srcNew W maxOrder 0) bytes.flatten = some fs := by
  have hT := tablesOk_of ht
  obtain ⟨fs, p, h1, -⟩ := C44_file ht mode hW0 hW hM h0 bytes h8 hn
  refine ⟨fs, p, h1, ?_⟩
  obtain ⟨s, R, e1, e2, hs⟩ := new_rel hT hW hW0 hM h0
  obtain ⟨p0', e0, hi⟩ := predNew_at hT hW hW0 hM mode fun i => bytes.flatten.getD i false
  rw [h0] at e0
  obtain rfl := Option.some.inj e0
  obtain ⟨s', h2⟩ := bytes_rel hT hW hW0 hM bytes 0 [] fs p0 p ⟨s, lbNew, R⟩ hi hs h8
    (fun r b hb => by rw [Nat.mul_zero, Nat.zero_add, List.getD_eq_getElem?_getD, hb]; rfl) (by omega) h1
  unfold refPredictions
  rw [e1, ob_some, e2, ob_some, h2, ob_some]

/-- **C55 (the program).** The predictions the program makes for a file are those of the reference predictor in mode
`light` with a window of 10 000 000 bytes and orders up to 20. -/
theorem C55_program (bytes : List (List Bool)) (h8 : ∀ b ∈ bytes, b.length = 8) (hn : bytes.length ≤ 2 ^ 35) :
    ∃ t p0 fs p, tablesNew = some t ∧ predNew t .light 10000000 20 = some p0 ∧
      calls t .light p0 (bytes.flatMap byteCalls) = some (fs, p) ∧ fs.length = 8 * bytes.length ∧
      refPredictions t .light (treeSource t.luts) (srcNew 10000000 20 0) bytes.flatten = some fs := by
  obtain ⟨t, ht⟩ := C52_tables
  obtain ⟨p0, h0⟩ := C44_new ht .light (W := 10000000) (maxOrder := 20) (by omega) (by omega) (by omega)
  obtain ⟨fs, p, h1, h2⟩ := C55_reference ht .light (by omega) (by omega) (by omega) h0 bytes h8 hn
  obtain ⟨fs', p', h3, h4, -⟩ := C44_file ht .light (by omega) (by omega) (by omega) h0 bytes h8 hn
  rw [h1] at h3
  obtain ⟨rfl, rfl⟩ := Prod.mk.inj (Option.some.inj h3)
  exact ⟨t, p0, fs, p, ht, h0, h1, h4, h2⟩

/-- the files meeting the hypotheses include files that leave the window -/
example : (∀ b ∈ List.replicate 5 [true, false, false, true, true, false, true, false], b.length = 8) ∧
    (List.replicate 5 [true, false, false, true, true, false, true, false]).length ≤ 2 ^ 35 := by decide

/-- without a known context and without refinement the reference predicts even chances -/
example (t : Tables) (R : Ref) (hs : List Nat) :
    (verdict t .none R hs (conclusion []) 0).map Verdict.prob = some (2 ^ 22) := by
  show some (finish (2 ^ 30)) = some (2 ^ 22)
  decide

/-- the keys of the reference tell apart what they should -/
example : distClass 99 = 0 ∧ distClass 100 = 1 ∧ distClass 9999 = 2 ∧ distClass 10000 = 3 ∧
    costClass (0, 1) = 0 ∧ costClass (100, 100) = 3 ∧ costClass (150, 100) = 5 ∧
    relation (some (.edge 3 7 true)) (.edge 5 7 true) = 1 ∧ relation none (.edge 5 7 true) = 0 := by decide

end Verif.Pred
