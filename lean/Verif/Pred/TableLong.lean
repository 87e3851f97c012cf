import Verif.Pred.TableEstimate
import Verif.Coding.LongProps

/-!
# C82 for long inputs
-/

namespace Verif.Pred

open Verif Verif.Fixed Verif.Log2 Verif.Coding

/-- **C82 (long inputs).** For up to a hundred million million bits the sum of the costs from the table does not overflow.
Whenever the encoder finishes, the sum bounds the size from both sides as for short inputs; and the encoder finishes at least
when the upper bound is below 2 GiB. -/
theorem C82_long (fs : List Nat) (bits : List Bool) (hlen : fs.length = bits.length)
    (hn : fs.length ≤ 10 ^ 14) (hv : ∀ f ∈ fs, 1 ≤ f ∧ f < 2 ^ 23) :
    ∃ lut total, log2LutNew = some lut ∧ tableSum lut 0 (fs.zip bits) = some total ∧ 0 ≤ total ∧
      (∀ out, encode (bitEvents fs bits) = some out → 4 ≤ out.length ∧
        8 * ((out.length : ℝ) - 4) ≤ (total : ℝ) / 2048 + fs.length / 4096 + loss fs bits ∧
        (total : ℝ) / 2048 - fs.length / 1024 - gain fs bits - 31 ≤ 8 * ((out.length : ℝ) - 4)) ∧
      ((total : ℝ) / 2048 + fs.length / 4096 + loss fs bits < 8 * (2 ^ 31 - 5) →
        ∃ out, encode (bitEvents fs bits) = some out) := by
  obtain ⟨lut, hl, -⟩ := C10_table_exists
  obtain ⟨total, e, e0, t1, t2⟩ := tableSum_near hl fs bits 0 hlen hv (le_refl _) (by omega)
  obtain ⟨c1, c2⟩ := content_share (bits := bits) hv
  push_cast at t1 t2
  refine ⟨lut, total, hl, e, e0, fun out ho => ?_, fun h => ?_⟩
  · obtain ⟨a1, a2, a3⟩ := C88_size (bitEvents fs bits) (bitEvents_valid hv) ho
    rw [c1] at a3
    rw [c2] at a2
    exact ⟨a1, by linarith, by linarith⟩
  · obtain ⟨-, k2⟩ := bits_emitted (bitEvents fs bits) (bitEvents_valid hv)
    rw [c1] at k2
    have hm : (emitted (bitEvents fs bits) : ℝ) < 2147483643 := by
      norm_num at h
      linarith
    have hm' : emitted (bitEvents fs bits) < 2147483643 := by exact_mod_cast hm
    obtain ⟨out, h1, -⟩ := C03_bits (bitEvents fs bits) (bitEvents_valid hv) (by omega)
    exact ⟨out, h1⟩

/-- a million million bits of probability one half -/
example : (List.replicate (10 ^ 12) (2 ^ 22)).length = (List.replicate (10 ^ 12) true).length ∧
    (List.replicate (10 ^ 12) (2 ^ 22)).length ≤ 10 ^ 14 ∧ ∀ f ∈ List.replicate (10 ^ 12) (2 ^ 22), 1 ≤ f ∧ f < 2 ^ 23 := by
  refine ⟨by rw [List.length_replicate, List.length_replicate], by rw [List.length_replicate]; norm_num, fun f hf => ?_⟩
  rw [List.eq_of_mem_replicate hf]
  norm_num

end Verif.Pred
