import Verif.Lut.Fast

/-!
# Further kernel checks of the tables
-/

namespace Verif.Lut

/-- round trip at a table point, with the saturated end -/
def backOk (k : Nat) : Bool :=
  bif k.ble 1508 then (stMag (sqField k)).ble (k * 16384 + 45) && (k * 16384).ble (stMag (sqField k) + 45)
  else (sqField k).beq 2147467264

set_option maxRecDepth 100000 in
theorem back_ok : (List.range 1537).all backOk = true := by decide +kernel

/-- the next entry to the right is not larger in magnitude -/
def stepOk (k : Nat) : Bool :=
  k.beq 3584 ||
    bif (k % 512).beq 511 then (bif (k / 512).beq 0 then true else (field (512 * (k / 512 - 1))).ble (field k))
    else (field (k + 1)).ble (field k)

set_option maxRecDepth 100000 in
theorem step_ok : (List.range 4096).all stepOk = true := by decide +kernel

end Verif.Lut
