import Verif.Lut.Fast

/-!
# Kernel computation of the stretch and squash tables
-/

namespace Verif.Lut

set_option maxRecDepth 100000 in
/-- all stretch entries, by kernel computation -/
theorem entries_ok : (List.range 4096).all entryOk = true := by decide +kernel

set_option maxRecDepth 100000 in
/-- all squash entries, by kernel computation -/
theorem squash_ok : (List.range' 1 1536).all sqOk = true := by decide +kernel

set_option maxRecDepth 100000 in
/-- the squash table is monotone -/
theorem squash_mono_ok : (List.range 1536).all (fun k => (sqField k).ble (sqField (k + 1))) = true := by
  decide +kernel

theorem squash_zero : sqField 0 = 1073741824 := by decide +kernel

theorem squash_last : sqField 1536 = 2147467264 := by decide +kernel

end Verif.Lut
