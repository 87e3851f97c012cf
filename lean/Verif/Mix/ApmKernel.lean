import Verif.Lut.Fast

/-!
# Kernel check of stretch around the interval stops

Near a stop the values of stretch are examined one by one until one of them is beyond the stop by a unit; from there
on near monotonicity takes over.
-/

namespace Verif.Mix

open Verif.Lut

/-- stretch does not fall below `t` from `q` on -/
def upOk (t : Nat) : Nat → Nat → Bool
  | 0, _ => false
  | n + 1, q => let s := stMag q
    bif t.blt s then true else bif s.beq t then upOk t n (q + 1) else false

/-- stretch does not rise above `t` from `q` down -/
def downOk (t : Nat) : Nat → Nat → Bool
  | 0, _ => false
  | n + 1, q => let s := stMag q
    bif s.blt t then true else bif s.beq t then downOk t n (q - 1) else false

/-- both checks at the stop `j / 4` -/
def stopOk (j : Nat) : Bool :=
  let s := sqField (32 * j)
  (1073742848).blt s && s.blt 2147482624 && upOk (j * 524288) 1000 (s + 1) && downOk (j * 524288) 1000 (s - 1)

set_option maxRecDepth 100000 in
theorem stops_ok : (List.range' 1 47).all stopOk = true := by decide +kernel

end Verif.Mix
