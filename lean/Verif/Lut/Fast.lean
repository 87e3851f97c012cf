import Verif.Lut.Data
import Verif.Log2.Lemmas

/-!
# Stretch and squash without overflow checks, for kernel computation
-/

namespace Verif.Lut

open Verif.Log2

/-- entry of the packed stretch table -/
def field (k : Nat) : Nat := packed >>> (32 * k) % 4294967296

/-- entry of the packed squash table -/
def sqField (k : Nat) : Nat := sqPacked >>> (32 * k) % 4294967296

/-- rounded product with a fraction of 31 bits -/
def sq31 (a w : Nat) : Nat := (a * w + 1073741824) / 2147483648

/-- fractional part of the logarithm with 25 bits -/
def preLog (f : Nat) : Nat := (fastLoop 31 0 (f * 2 ^ (30 - Nat.log2 f)) + 32) / 64

/-- input of an entry -/
def entryIn (l i : Nat) : Nat :=
  bif l.beq 7 then 16384 * i else 2 ^ (29 - l) + 2 ^ (20 - l) * i

/-- negated log2 of the odds -/
def entryLog (p : Nat) : Nat := (30 - Nat.log2 p) * 33554432 + preLog (2147483648 - p) - preLog p

/-- negated entry -/
def entryMag (l i : Nat) : Nat := (entryLog (entryIn l i) * 1488522236 + 17179869184) / 34359738368

/-- kernel check of one stretch entry -/
def entryOk (k : Nat) : Bool :=
  let l := k / 512
  let i := k % 512
  let p := entryIn l i
  let q := 2147483648 - p
  k.beq 3584 ||
    ((entryMag l i).beq (field k) && (preLog p).ble 33554431 && (preLog q).ble 33554431 &&
    (fastLoop 31 0 (p * 2 ^ (30 - Nat.log2 p))).ble 2147483615 &&
    (fastLoop 31 0 (q * 2 ^ (30 - Nat.log2 q))).ble 2147483615 &&
    (preLog p).ble ((30 - Nat.log2 p) * 33554432 + preLog q) && (field k).ble 24711779)

/-- negated stretch of an input below one half -/
def stretchMag (p : Nat) : Nat :=
  let level := min 7 (29 - Nat.log2 p)
  let shift := bif level.beq 7 then 9 else level + 3
  let idx := p * 2 ^ shift % 4294967296 / 8388608
  let lb := bif idx.beq 0 && level.beq 7 then field 3585 else field (512 * level + idx)
  let rb := bif idx.beq 511 then (bif level.beq 0 then 0 else field (512 * (level - 1)))
    else field (512 * level + idx + 1)
  let w := p * 2 ^ (shift + 9) % 4294967296 / 2
  lb - sq31 lb w + sq31 rb w

/-- stretch of an input of at least one half -/
def stMag (m : Nat) : Nat := bif m.beq 1073741824 then 0 else stretchMag (2147483648 - m)

/-- the choice at the end of the search, 0 if an assertion fails -/
def chooseFast (t lo hi : Nat) : Nat :=
  let ls := stMag lo
  let us := stMag hi
  bif ls.beq us then min (max lo 16384) 2147467264
  else bif ls.ble t && t.ble us && hi.beq (lo + 1) then
    (bif (t - ls).blt (us - t) then lo else hi)
  else 0

/-- the search -/
def searchFast (t : Nat) : Nat → Nat → Nat → Nat
  | 0, lo, hi => bif (hi - lo).ble 1 then chooseFast t lo hi else 0
  | k + 1, lo, hi =>
    bif (hi - lo).ble 1 then chooseFast t lo hi
    else
      let m := lo + (hi - lo) / 2
      let s := stMag m
      bif t.blt s then searchFast t k lo m
      else bif s.blt t then searchFast t k m hi
      else m

/-- kernel check of one squash entry -/
def sqOk (k : Nat) : Bool :=
  (searchFast (k * 16384) 30 1073741824 2147483647).beq (sqField k) && (sqField k).ble 2147483647 &&
    (1073741824).ble (sqField k)

end Verif.Lut
