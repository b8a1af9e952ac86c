import Verif.Decode
import Verif.Time
import Mathlib.Data.List.Sort

/-!
# Model of the command `rcdfTime`, `runtime/LogDecompressor.cc`

The command prints a reverse cumulative distribution of the times between consecutive messages.
Exact rational arithmetic takes the place of `double`, and the values are kept instead of their
decimal forms.  `none` is undefined behaviour.  The measurements of the program's own running time
(lines 229-236, 244-247, 249-264) are left out.
-/

namespace NanoLog

/-- The differences collected by `main`, runtime/LogDecompressor.cc:235-243, for the messages that
`getNextLogStatement` delivers; `last` is `lastTimestamp`.  The difference is a `uint64_t`. -/
def interTimesFrom (last : Nat) : List OutMsg → List Nat
  | [] => []
  | m :: ms => (m.ts + 2 ^ 64 - last) % 2 ^ 64 :: interTimesFrom m.ts ms

/-- `interLogTimes`, runtime/LogDecompressor.cc:230-243. -/
def interTimes : List OutMsg → List Nat
  | [] => []
  | m :: ms => interTimesFrom m.ts ms

/-- `Cycles::fromSeconds`, runtime/Cycles.cc:139-144, for results that fit. -/
def fromSeconds (own seconds cps : ℚ) : Nat :=
  ⌊seconds * (if cps = 0 then own else cps) + 1 / 2⌋₊

/-- The loop of `runRCDF`, runtime/LogDecompressor.cc:96-105, from index `i` on: a line whenever the
next difference exceeds `last` (`lastPrinted`) by more than `bound`.  A line is a number of cycles and
the share of the operations. -/
def rcdfLoop (bound n : Nat) : Nat → Nat → List Nat → List (Nat × ℚ)
  | _, _, [] => []
  | i, last, d :: ds =>
    if (d + 2 ^ 64 - last) % 2 ^ 64 > bound then (last, 1 - (i : ℚ) / n) :: rcdfLoop bound n (i + 1) d ds
    else rcdfLoop bound n (i + 1) last ds

/-- `runRCDF`, runtime/LogDecompressor.cc:81-113: the lines and the mean, in cycles.  `std::sort` is
`insertionSort`.  `front` of an empty vector (line 93) is undefined.  The sum (lines 87, 98) is a `uint64_t`
and begins with the second element. -/
def rcdf (bound : Nat) (deltas : List Nat) : Option (List (Nat × ℚ) × Nat) :=
  match deltas.insertionSort (· ≤ ·) with
  | [] => none
  | d :: ds =>
    some ((d, 1) :: (rcdfLoop bound deltas.length 1 d ds ++ [((d :: ds).getLast (by simp), 1 / (deltas.length : ℚ))]),
      ds.sum % 2 ^ 64 / deltas.length)

/-- Nanoseconds printed for a number of cycles, runtime/LogDecompressor.cc:93, 101, 108, 112: the
`uint64_t` is converted to `int64_t` by the call of `toSeconds`. -/
def printedNs (own : ℚ) (cycles : Nat) (cps : ℚ) : ℚ := 10 ^ 9 * toSeconds own (ITy.i64.cast cycles) cps

/-- The command, runtime/LogDecompressor.cc:228-248: lines and mean in nanoseconds, for the messages
delivered.  The frequency is that of the machine that runs the command (line 248). -/
def rcdfTime (own : ℚ) (ms : List OutMsg) : Option (List (ℚ × ℚ) × ℚ) :=
  match rcdf (fromSeconds own (1 / 10 ^ 10) own) (interTimes ms) with
  | none => none
  | some (rows, mean) => some (rows.map fun r => (printedNs own r.1 own, r.2), printedNs own mean own)

end NanoLog
