import Verif.Time
import Mathlib.Data.Nat.Basic

/-!
# Model of `runtime/Cycles.cc`: calibration of the time stamp counter, conversions, busy waiting

Exact rational arithmetic takes the place of `double`.  `none` of the conversions is undefined behaviour:
a `double` outside the range of `uint64_t` is converted.
-/

namespace NanoLog

/-! ## Calibration -/

/-- A pair of readings: `gettimeofday`, in microseconds since the epoch (`tv_sec * 1000000 + tv_usec`), and
`rdtsc`; runtime/Cycles.cc:63-66 and 68-72.  Failure of `gettimeofday` ends the program and is left out. -/
structure Reading where
  us : Int
  tsc : Nat
  deriving DecidableEq, Repr

/-- `micros`, runtime/Cycles.cc:73-74: computed with signed numbers, stored as `uint64_t`. -/
def microsOf (a b : Reading) : Nat := ((b.us - a.us) % 2 ^ 64).toNat

/-- `stopCycles - startCycles`, runtime/Cycles.cc:76, as `uint64_t`. -/
def cyclesOf (a b : Reading) : Nat := (b.tsc + 2 ^ 64 - a.tsc) % 2 ^ 64

/-- The estimate, runtime/Cycles.cc:76-78. -/
def ratioOf (a b : Reading) : ℚ := 10 ^ 6 * cyclesOf a b / microsOf a b

/-- The inner loop, runtime/Cycles.cc:67-81: the first reading that is more than 10000 microseconds after
`a`, and the readings that follow.  `none`: there are not enough readings, the loop goes on. -/
def measureLoop (a : Reading) : List Reading → Option (Reading × List Reading)
  | [] => none
  | b :: rs => if 10000 < microsOf a b then some (b, rs) else measureLoop a rs

/-- The test in runtime/Cycles.cc:82-85. -/
def closeTo (old new : ℚ) : Prop := old > new - new / 100000 ∧ old < new + new / 100000

instance (old new : ℚ) : Decidable (closeTo old new) := inferInstanceAs (Decidable (_ ∧ _))

/-- The outer loop, runtime/Cycles.cc:61-91, with `oldCycles`.  The result has the values stored in
`Cycles::cyclesPerSec`, in order (lines 76 and 77-78: each estimate is stored in two steps), and whether the
function has returned.  `fuel` bounds the number of rounds; each takes at least one reading. -/
def calibrateLoop : Nat → ℚ → List Reading → List ℚ × Bool
  | 0, _, _ => ([], false)
  | _ + 1, _, [] => ([], false)
  | fuel + 1, old, a :: rs =>
    match measureLoop a rs with
    | none => ([], false)
    | some (b, rs') =>
      let c := ratioOf a b
      if closeTo old c then ([(cyclesOf a b : ℚ), c], true)
      else
        let r := calibrateLoop fuel c rs'
        ((cyclesOf a b : ℚ) :: c :: r.1, r.2)

/-- `Cycles::init`, runtime/Cycles.cc:42-93, in a process in which it has not run before: the values that
`Cycles::cyclesPerSec` takes, beginning with its initial value (line 30), and whether it has returned. -/
def calibrate (rs : List Reading) : List ℚ × Bool :=
  let r := calibrateLoop rs.length 0 rs
  (0 :: r.1, r.2)

/-- The frequency that the encoder finds when it writes the first checkpoint (runtime/Log.cc:57).  It is constructed
by the background thread (runtime/RuntimeLogger.cc:104, 365) that the constructor of the static object
`nanoLogSingleton` (36) starts; `Cycles::init` is called by the constructor of another static object of another source
file (runtime/Cycles.cc:33).  C++ does not fix the order of the two, and nothing makes the thread wait: if `init` is
complete before (`done`), it finds the last value, otherwise any of the values stored.  (That the accesses are a data
race is left out.) -/
inductive SeenBy (rs : List Reading) : Bool → ℚ → Prop where
  | done {vals : List ℚ} {v : ℚ} (h : calibrate rs = (vals, true)) (hv : vals.getLast? = some v) : SeenBy rs true v
  | early {v : ℚ} (hv : v ∈ (calibrate rs).1) : SeenBy rs false v

/-! ## Conversions -/

/-- `(uint64_t) x` for a `double`: drops the fraction. -/
def truncU64 (x : ℚ) : Option Nat := if -1 < x ∧ x < 2 ^ 64 then some ⌊x⌋₊ else none

/-- The frequency used, runtime/Cycles.cc:120-121, 141-142, 183-184, 204-205; `own` is that of this machine. -/
def cpsOf (own cps : ℚ) : ℚ := if cps = 0 then own else cps

/-- `Cycles::fromSeconds`, runtime/Cycles.cc:138-144. -/
def cyFromSeconds (own seconds cps : ℚ) : Option Nat := truncU64 (seconds * cpsOf own cps + 1 / 2)

/-- `Cycles::toNanoseconds`, runtime/Cycles.cc:180-186.  If the frequency has not been measured (zero) the
quotient is infinite or not a number, and so the conversion is undefined. -/
def cyToNanos (own : ℚ) (cycles : Nat) (cps : ℚ) : Option Nat :=
  if cpsOf own cps = 0 then none else truncU64 (10 ^ 9 * cycles / cpsOf own cps + 1 / 2)

/-- `Cycles::toMicroseconds`, runtime/Cycles.cc:160-164. -/
def cyToMicros (own : ℚ) (cycles : Nat) (cps : ℚ) : Option Nat := (cyToNanos own cycles cps).map (· / 1000)

/-- `Cycles::fromNanoseconds`, runtime/Cycles.cc:201-207. -/
def cyFromNanos (own : ℚ) (ns : Nat) (cps : ℚ) : Option Nat := truncU64 (ns * cpsOf own cps / 10 ^ 9 + 1 / 2)

/-! ## Busy waiting -/

/-- The loop in runtime/Cycles.cc:224: the first reading that is not below `stop`; `none`: still waiting. -/
def sleepLoop (stop : Nat) : List Nat → Option Nat
  | [] => none
  | t :: ts => if t < stop then sleepLoop stop ts else some t

/-- `Cycles::sleep(us)`, runtime/Cycles.cc:220-225, with the readings of `rdtsc`: the first and the last
reading.  `1000*us` and the sum are computed modulo 2^64. -/
def cySleep (own : ℚ) (us : Nat) : List Nat → Option (Nat × Nat)
  | [] => none
  | t0 :: ts =>
    match cyFromNanos own (1000 * us % 2 ^ 64) 0 with
    | none => none
    | some d => (sleepLoop ((t0 + d) % 2 ^ 64) ts).map fun t => (t0, t)

end NanoLog
