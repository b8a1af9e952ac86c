import Verif.Staging
import Verif.Props.Staging

/-!
# The producer's statistics and the histograms

The counters of a staging buffer (runtime/RuntimeLogger.h:437-461), updated by the logging thread
in `reserveProducerSpace` and `reserveSpaceInternal`, and what `getHistograms`
(runtime/RuntimeLogger.cc:243-306) does with them.  They run along the executions of `SB`.
-/

namespace NanoLog

/-- `cyclesProducerBlocked` (`uint64_t`), `numTimesProducerBlocked` (`uint32_t`),
`numAllocations` (`uint64_t`) and `cyclesProducerBlockedDist` (20 times `uint32_t`),
runtime/RuntimeLogger.h:441-454. -/
structure PStats where
  cycles : Nat
  blocked : Nat
  allocs : Nat
  dist : List Nat
  deriving DecidableEq, Repr

/-- The constructor, runtime/RuntimeLogger.h:400-403, 414-418. -/
def PStats.init : PStats := ⟨0, 0, 0, List.replicate 20 0⟩

/-- The end of `reserveSpaceInternal`, runtime/RuntimeLogger.cc:801-811: `record` is
`RECORD_PRODUCER_STATS`, `ten` is `cyclesIn10Ns`, `dt` the cycles since the call.  `none`: division
by zero or an index outside the array. -/
def PStats.slow (record : Bool) (ten dt : Nat) (st : PStats) : Option PStats :=
  if record then
    if ten = 0 then none
    else
      let index := min (dt / ten) (20 - 1)
      match st.dist[index]? with
      | none => none
      | some v => some { st with cycles := (st.cycles + dt) % 2 ^ 64
                                 dist := st.dist.set index ((v + 1) % 2 ^ 32)
                                 blocked := (st.blocked + 1) % 2 ^ 32 }
  else some { st with blocked := (st.blocked + 1) % 2 ^ 32 }

/-- Does the next step of `reserveSpaceInternal` leave the loop?  runtime/RuntimeLogger.cc:764
and 769-773. -/
def SB.leaves (N : Nat) (s : SB) : Bool :=
  match s.pc with
  | .loop n => decide (n < s.minFree)
  | .loaded n c => decide (c ≤ s.pp) && decide (n < wsub N s.pp)
  | _ => false

/-- The counters when step `a` is taken in state `s`: `reserveProducerSpace`,
runtime/RuntimeLogger.h:335, and the end of `reserveSpaceInternal`. -/
def PStats.step (record : Bool) (ten N : Nat) (s : SB) (dt : Nat) (st : PStats) :
    Act → Option PStats
  | .reserve _ => some { st with allocs := (st.allocs + 1) % 2 ^ 64 }
  | .pstep => if s.leaves N then st.slow record ten dt else some st
  | _ => some st

/-- A sequence of steps, each with the cycles since the last call of `reserveSpaceInternal`.  The
outer `none`: not possible; the inner `none`: undefined behaviour.  See runtime/RuntimeLogger.cc:751-812. -/
def PStats.run (record : Bool) (ten : Nat) (mm : MemModel) (N : Nat) :
    List (Act × Nat) → SB → PStats → Option (SB × Option PStats)
  | [], s, st => some (s, some st)
  | (a, dt) :: as, s, st =>
    match s.act mm N a with
    | none => none
    | some s1 =>
      match st.step record ten N s dt a with
      | none => some (s1, none)
      | some st1 => PStats.run record ten mm N as s1 st1

/-- The average printed for a buffer, runtime/RuntimeLogger.cc:278-279, with
`RECORD_PRODUCER_STATS`; `ns` is `Cycles::toNanoseconds`.  `none`: division by zero. -/
def PStats.average (ns : Nat → Nat) (st : PStats) : Option Nat :=
  if st.blocked = 0 then none else some (ns st.cycles / st.blocked)

/-- Recording the size found by `peek`, runtime/RuntimeLogger.cc:430-433, with
`sizeof(stagingBufferPeekDist)` 20 and arithmetic of `size_t`.  `none`: an index outside the
array. -/
def recordPeek (N avail : Nat) (dist : List Nat) : Option (List Nat) :=
  let index := 20 * avail % 2 ^ 64 / N
  match dist[index]? with
  | none => none
  | some v => some (dist.set index ((v + 1) % 2 ^ 64))

end NanoLog
