import Verif.Rust
import Verif.Coding.Model

/-!
# Model of fixed point arithmetic

`src/fixed_point/mod.rs` and `src/fixed_point/types.rs`.

The Rust traits are generic over the number of fractional bits and over a bounds predicate; a type is
represented by the record `FixU` / `FixI`. The per-width copies of the same function (`fix_i16`,
`fix_u16`, `fix_i32`, ...) are one definition with the width as parameter. Values are represented by
their `raw()` integer.
-/

namespace Verif.Fixed

open Verif

/-- An unsigned fixed point type: `FRACTIONAL_BITS` and `FixedPoint::new`
(`src/fixed_point/mod.rs:26-42`): `new_unchecked` followed by the `within_bounds` assertion. The
assertion that the caller's number of fractional bits matches is static and omitted. -/
structure FixU where
  frac : Nat
  new : Nat → Option Nat

/-- A signed fixed point type (the trait `FixedPoint` with a signed raw type, `src/fixed_point/mod.rs:26-42`). -/
structure FixI where
  frac : Nat
  new : Int → Option Int

/-- wrapping conversion to a signed integer of width `w` (`<<` and `as` in `src/fixed_point/mod.rs:63`, `97`, `168`) -/
def wrapI (w : Nat) (z : Int) : Int := (z + 2 ^ (w - 1)) % 2 ^ w - 2 ^ (w - 1)

/-- `saturating_add` for signed integers of width `w` (`src/fixed_point/mod.rs:63`, `151`, `402`) -/
def satAddI (w : Nat) (a b : Int) : Int := max (-2 ^ (w - 1)) (min (2 ^ (w - 1) - 1) (a + b))

/-- `saturating_add` for unsigned integers of width `w` (`src/fixed_point/mod.rs:73`, `280`, `498`) -/
def satAddU (w : Nat) (a b : Nat) : Nat := min (2 ^ w - 1) (a + b)

/-- `fix_i16::scaled_down`, `fix_i32::scaled_down`, `fix_i64::scaled_down`
(`src/fixed_point/mod.rs:61-65`, `149-153`, `400-404`). Shifting by the width or more panics. -/
def scaledDownI (w : Nat) (raw : Int) (shift : Nat) : Option Int := do
  check (shift ≠ 0)
  check (shift < w)
  some ((max (satAddI w raw (wrapI w (raw.sign * 2 ^ (shift - 1)))) (-2 ^ (w - 1) + 1)).tdiv
    (wrapI w (2 ^ shift)))

/-- `fix_u16::scaled_down`, `fix_u32::scaled_down`, `fix_u64::scaled_down`
(`src/fixed_point/mod.rs:71-74`, `278-281`, `496-499`). -/
def scaledDownU (w : Nat) (raw : Nat) (shift : Nat) : Option Nat := do
  check (shift ≠ 0)
  check (shift < w)
  some (satAddU w raw (2 ^ (shift - 1)) / 2 ^ shift)

/-- `fix_i32::div`, `fix_i64::div` (`src/fixed_point/mod.rs:155-159`, `406-410`). -/
def divI (w : Nat) (raw divisor : Int) : Option Int := do
  check (divisor > 0)
  some ((max (satAddI w raw (divisor / 2 * raw.sign)) (-2 ^ (w - 1) + 1)).tdiv divisor)

/-- `fix_u32::div`, `fix_u64::div` (`src/fixed_point/mod.rs:283-286`, `501-504`). -/
def divU (w : Nat) (raw divisor : Nat) : Option Nat := do
  check (divisor > 0)
  some (satAddU w raw (divisor / 2) / divisor)

/-- `FixU32::to_fix_u32` (`src/fixed_point/mod.rs:210-220`), `FixU64::to_fix_u64` (`441-451`) and
`FixU32::to_fix_u64` (`222-232`, with `w = 64`); `w` is the width. -/
def toFixU (w : Nat) (A R : FixU) (raw : Nat) : Option Nat :=
  if A.frac > R.frac then do
    let r ← scaledDownU w raw (A.frac - R.frac)
    R.new r
  else do
    let bits := R.frac - A.frac
    check (bits < w)
    check (raw * 2 ^ bits % 2 ^ w / 2 ^ bits = raw)
    R.new (raw * 2 ^ bits % 2 ^ w)

/-- `FixI32::to_fix_i32` (`src/fixed_point/mod.rs:89-99`), `FixI64::to_fix_i64` (`353-363`) and
`FixI32::to_fix_i64` (`101-111`, with `w = 64`). -/
def toFixI (w : Nat) (A R : FixI) (raw : Int) : Option Int :=
  if A.frac > R.frac then do
    let r ← scaledDownI w raw (A.frac - R.frac)
    R.new r
  else do
    let bits := R.frac - A.frac
    check (bits < w)
    check (wrapI w (raw * 2 ^ bits) / 2 ^ bits = raw)
    R.new (wrapI w (raw * 2 ^ bits))

/-- `FixI64::to_fix_i32` (`src/fixed_point/mod.rs:337-351`). -/
def toFixI64I32 (A R : FixI) (raw : Int) : Option Int :=
  if A.frac > R.frac then do
    let r ← scaledDownI 64 raw (A.frac - R.frac)
    check (wrapI32 r = r)
    R.new (wrapI32 r)
  else do
    let bits := R.frac - A.frac
    check (bits < 64)
    check (wrapI 64 (raw * 2 ^ bits) / 2 ^ bits = raw)
    let r := wrapI 64 (raw * 2 ^ bits)
    check (wrapI32 r = r)
    R.new (wrapI32 r)

/-- `FixU64::to_fix_u32` (`src/fixed_point/mod.rs:425-439`). -/
def toFixU64U32 (A R : FixU) (raw : Nat) : Option Nat :=
  if A.frac > R.frac then do
    let r ← scaledDownU 64 raw (A.frac - R.frac)
    check (wrapU32 r = r)
    R.new (wrapU32 r)
  else do
    let bits := R.frac - A.frac
    check (bits < 64)
    check (raw * 2 ^ bits % 2 ^ 64 / 2 ^ bits = raw)
    let r := raw * 2 ^ bits % 2 ^ 64
    check (wrapU32 r = r)
    R.new (wrapU32 r)

/-- `FixI32::trunc`, `FixI64::trunc` (`src/fixed_point/mod.rs:85-87`, `333-335`): an arithmetic shift -/
def truncI (T : FixI) (raw : Int) : Int := raw / 2 ^ T.frac

/-- `FixU32::trunc`, `FixU64::trunc` (`src/fixed_point/mod.rs:206-208`, `421-423`) -/
def truncU (T : FixU) (raw : Nat) : Nat := raw / 2 ^ T.frac

/-- `FixI32::div`, `FixI64::div` (`src/fixed_point/mod.rs:135-138`, `387-390`) -/
def divFixI (w : Nat) (T : FixI) (raw divisor : Int) : Option Int := do
  let r ← divI w raw divisor
  T.new r

/-- `FixU32::div`, `FixU64::div` (`src/fixed_point/mod.rs:256-259`, `475-478`) -/
def divFixU (w : Nat) (T : FixU) (raw divisor : Nat) : Option Nat := do
  let r ← divU w raw divisor
  T.new r

/-- `FixU64::add` (`src/fixed_point/mod.rs:453-462`). -/
def addU64 (T : FixU) (a b : Nat) : Option Nat := do
  let r ← u64 (a + b)
  T.new r

/-- `FixU64::sub` (`src/fixed_point/mod.rs:464-473`). -/
def subU64 (T : FixU) (a b : Nat) : Option Nat := do
  let r ← subU a b
  T.new r

/-- `FixI64::neg` (`src/fixed_point/mod.rs:392-394`). -/
def negI64 (T : FixI) (a : Int) : Option Int := do
  let r ← i64 (-a)
  T.new r

/-- `FixU32::add` (`src/fixed_point/mod.rs:234-243`). -/
def addU32 (T : FixU) (a b : Nat) : Option Nat := do
  let r ← u32 (a + b)
  T.new r

/-- `FixU32::sub` (`src/fixed_point/mod.rs:245-254`). -/
def subU32 (T : FixU) (a b : Nat) : Option Nat := do
  let r ← subU a b
  T.new r

/-- `FixI32::add` (`src/fixed_point/mod.rs:113-122`). -/
def addI32 (T : FixI) (a b : Int) : Option Int := do
  let r ← i32 (a + b)
  T.new r

/-- `FixI32::sub` (`src/fixed_point/mod.rs:124-133`). -/
def subI32 (T : FixI) (a b : Int) : Option Int := do
  let r ← i32 (a - b)
  T.new r

/-- `FixI64::add` (`src/fixed_point/mod.rs:365-374`). -/
def addI64 (T : FixI) (a b : Int) : Option Int := do
  let r ← i64 (a + b)
  T.new r

/-- `FixI64::sub` (`src/fixed_point/mod.rs:376-385`). -/
def subI64 (T : FixI) (a b : Int) : Option Int := do
  let r ← i64 (a - b)
  T.new r

/-- `FixI32::neg` (`src/fixed_point/mod.rs:140-142`). -/
def negI32 (T : FixI) (a : Int) : Option Int := do
  let r ← i32 (-a)
  T.new r

/-- `fix_u32::mul` (`src/fixed_point/mod.rs:288-307`). -/
def mulU32 (A B R : FixU) (a b : Nat) : Option Nat := do
  let m ← u64 (a * b)
  let total ← u8 (A.frac + B.frac)
  if total > R.frac then
    let wide ← scaledDownU 64 m (total - R.frac)
    check (wrapU32 wide = wide)
    R.new (wrapU32 wide)
  else
    let bits := R.frac - total
    check (bits < 64)
    let wide := wrapU64 (m * 2 ^ bits)
    check (wrapU32 wide = wide)
    check (wide / 2 ^ bits = m)
    R.new (wrapU32 wide)

/-- `fix_i32::mul` (`src/fixed_point/mod.rs:161-180`). -/
def mulI32 (A B R : FixI) (a b : Int) : Option Int := do
  let m ← i64 (a * b)
  let total ← u8 (A.frac + B.frac)
  if total > R.frac then
    let wide ← scaledDownI 64 m (total - R.frac)
    check (wrapI32 wide = wide)
    R.new (wrapI32 wide)
  else
    let bits := R.frac - total
    check (bits < 64)
    let wide := wrapI64 (m * 2 ^ bits)
    check (wrapI32 wide = wide)
    check (wide / 2 ^ bits = m)
    R.new (wrapI32 wide)

/-- `fix_u32::mul_wide` (`src/fixed_point/mod.rs:309-322`). -/
def mulWideU32 (A B R : FixU) (a b : Nat) : Option Nat := do
  let m ← u64 (a * b)
  let total ← u8 (A.frac + B.frac)
  if total > R.frac then
    let wide ← scaledDownU 64 m (total - R.frac)
    R.new wide
  else
    let bits := R.frac - total
    check (bits < 64)
    check (wrapU64 (m * 2 ^ bits) / 2 ^ bits = m)
    R.new (wrapU64 (m * 2 ^ bits))

/-- `fix_i32::mul_wide` (`src/fixed_point/mod.rs:182-195`). -/
def mulWideI32 (A B R : FixI) (a b : Int) : Option Int := do
  let m ← i64 (a * b)
  let total ← u8 (A.frac + B.frac)
  if total > R.frac then
    let wide ← scaledDownI 64 m (total - R.frac)
    R.new wide
  else
    let bits := R.frac - total
    check (bits < 64)
    check (wrapI64 (m * 2 ^ bits) / 2 ^ bits = m)
    R.new (wrapI64 (m * 2 ^ bits))

/-! ## Types, `src/fixed_point/types.rs` -/

/-- `NoFractI32` (`types.rs:23-42`) -/
def noFractI32 : FixI := ⟨0, some⟩
/-- `NoFractU32` (`types.rs:44-63`) -/
def noFractU32 : FixU := ⟨0, some⟩
/-- `NoFractI64` (`types.rs:65-84`) -/
def noFractI64 : FixI := ⟨0, some⟩
/-- `NoFractU64` (`types.rs:86-105`) -/
def noFractU64 : FixU := ⟨0, some⟩
/-- `FractOnlyI32` (`types.rs:107-117`) -/
def fractOnlyI32 : FixI := ⟨31, fun raw => do check (0 ≤ raw); some raw⟩
/-- `FractOnlyU32` (`types.rs:134-144`) -/
def fractOnlyU32 : FixU := ⟨31, fun raw => do check (raw / 2 ^ 31 = 0); some raw⟩
/-- `FractOnlyI64` (`types.rs:161-171`) -/
def fractOnlyI64 : FixI := ⟨63, fun raw => do check (0 ≤ raw); some raw⟩
/-- `FractOnlyU64` (`types.rs:188-198`) -/
def fractOnlyU64 : FixU := ⟨63, fun raw => do check (raw / 2 ^ 63 = 0); some raw⟩
/-- `Log2D` (`types.rs:215-224`) -/
def log2D : FixI := ⟨11, some⟩
/-- `StretchedProbD` (`types.rs:237-252`) -/
def stretchedProbD : FixI :=
  ⟨21, fun raw => do check (-25165824 ≤ raw ∧ raw ≤ 25165824); some raw⟩
/-- `StretchedProbQ` (`types.rs:280-289`) -/
def stretchedProbQ : FixI := ⟨40, some⟩
/-- `MixerWeight` (`types.rs:306-315`) -/
def mixerWeight : FixI := ⟨21, some⟩
/-- `FinalProbability` as a fixed point type (`src/coding/mod.rs:42-52`) -/
def finalProbability : FixU := ⟨23, Coding.FinalProbability.newUnchecked⟩

/-- `FractOnlyU32::ONE_UNSAFE` (`types.rs:149`) -/
def oneUnsafe : Nat := 2 ^ 31

/-- `FractOnlyU32::flip` (`types.rs:152-154`) -/
def flipU32 (p : Nat) : Option Nat := subU32 fractOnlyU32 oneUnsafe p

/-- `FractOnlyI32::flip` (`types.rs:125-127`); `ONE_UNSAFE` is `1i32 << 31`, the minimum. -/
def flipI32 (p : Int) : Option Int := subI32 fractOnlyI32 (-2 ^ 31) p

/-- `FractOnlyI64::flip` (`types.rs:179-181`); `ONE_UNSAFE` is `1i64 << 63`, the minimum. -/
def flipI64 (p : Int) : Option Int := subI64 fractOnlyI64 (-2 ^ 63) p

/-- `FractOnlyU64::flip` (`types.rs:206-208`); `ONE_UNSAFE` is `1u64 << 63` -/
def flipU64 (p : Nat) : Option Nat := subU64 fractOnlyU64 (2 ^ 63) p

/-- `NoFractI32::to_unsigned` (`types.rs:38-41`), `NoFractI64::to_unsigned` (`types.rs:80-83`); `w` is the width -/
def noFractToUnsigned (w : Nat) (raw : Int) : Option Nat := do
  check (raw ≥ 0)
  some ((raw % 2 ^ w).toNat)

/-- `NoFractU32::to_signed` (`types.rs:59-62`), `NoFractU64::to_signed` (`types.rs:101-104`) -/
def noFractToSigned (w : Nat) (raw : Nat) : Option Int := do
  check (raw ≤ 2 ^ (w - 1) - 1)
  some (wrapI w raw)

/-- `FractOnlyI32::to_unsigned` (`types.rs:129-131`), `FractOnlyI64::to_unsigned` (`types.rs:183-185`) -/
def fractToUnsigned (w : Nat) (T : FixU) (raw : Int) : Option Nat := T.new ((raw % 2 ^ w).toNat)

/-- `FractOnlyU32::to_signed` (`types.rs:156-158`), `FractOnlyU64::to_signed` (`types.rs:210-212`) -/
def fractToSigned (w : Nat) (T : FixI) (raw : Nat) : Option Int := T.new (wrapI w raw)

/-- `StretchedProbQ::clamped` (`types.rs:301-303`) -/
def clampStretchedQ (z : Int) : Int := min (max z (-(12 * 2 ^ 40))) (12 * 2 ^ 40)

/-- `MixerWeight::clamped` (`types.rs:328-330`) -/
def clampWeight (z : Int) : Int := min (max z (-(8 * 2 ^ 21))) (8 * 2 ^ 21)

/-- `StretchedProbD::intervals_count` (`types.rs:264-266`); `fract_index_bits ≤ 21` -/
def intervalsCount (fractIndexBits : Nat) : Nat := 24 * 2 ^ fractIndexBits

/-- `StretchedProbD::interval_stops_count` (`types.rs:268-270`) -/
def intervalStopsCount (fractIndexBits : Nat) : Nat := 1 + intervalsCount fractIndexBits

/-- `StretchedProbD::to_interval_index` (`types.rs:272-277`) -/
def toIntervalIndex (raw : Int) (fractIndexBits : Nat) : Option Int := do
  let shift ← subU 21 fractIndexBits
  i32 (12 * 2 ^ fractIndexBits + min raw (12 * 2 ^ 21 - 1) / 2 ^ shift)

end Verif.Fixed
