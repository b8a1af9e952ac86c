import Verif.Entries
import Mathlib.Data.Rat.Floor
import Mathlib.Tactic.Linarith
import Mathlib.Tactic.FieldSimp
import Mathlib.Tactic.NormNum
import Mathlib.Tactic.Ring

/-!
# Model of the time printed for a message

runtime/Log.cc:1349-1366 and 1376-1383, runtime/Cycles.cc:117-123.  Exact rational arithmetic
takes the place of `double`; calendar formatting of the seconds (`localtime`, `strftime`) is not
modelled.  `none` is undefined behaviour (conversion of a value outside the range of `int64_t`).
-/

namespace NanoLog

/-- `Cycles::toSeconds(int64_t cycles, double cyclesPerSec)`, runtime/Cycles.cc:117-123; a
frequency of zero is replaced by the one measured on the decoding machine (`own`). -/
def toSeconds (own : ℚ) (cycles : Int) (cps : ℚ) : ℚ :=
  if cps = 0 then cycles / own else cycles / cps

/-- `static_cast<int64_t>(x)`: drops the fraction. -/
def truncI64 (x : ℚ) : Option Int :=
  let n := if 0 ≤ x then ⌊x⌋ else ⌈x⌉
  if -2 ^ 63 ≤ n ∧ n < 2 ^ 63 then some n else none

/-- Seconds since the epoch and nanoseconds of a message, runtime/Log.cc:1350-1364.  The
difference of the two `uint64_t` time stamps is converted to `int64_t` by the call.  The sums in
lines 1360 and 1364 are `int64_t`. -/
def msgTime (own : ℚ) (ts ckTs : Nat) (unixTime : Int) (cps : ℚ) : Option (Int × ℚ) := do
  let s := toSeconds own (ITy.i64.cast (ITy.u64.cast ((ts : Int) - ckTs))) cps
  let whole ← truncI64 s
  let nanos := 10 ^ 9 * (s - whole)
  if nanos < 0 then
    if whole = -2 ^ 63 then none
    else
      let abs := whole - 1 + unixTime
      if -2 ^ 63 ≤ abs ∧ abs < 2 ^ 63 then some (abs, nanos + 10 ^ 9) else none
  else
    let abs := whole + unixTime
    if -2 ^ 63 ≤ abs ∧ abs < 2 ^ 63 then some (abs, nanos) else none

/-- The integer printed by `%.0lf` (runtime/Log.cc:1376, 1418): nearest integer, ties to even. -/
def roundEven (x : ℚ) : Int :=
  let f := ⌊x⌋
  if x - f < 1 / 2 then f
  else if x - f > 1 / 2 then f + 1
  else if f % 2 = 0 then f else f + 1

end NanoLog
