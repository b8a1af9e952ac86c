import Verif.Runtime
import Verif.Output
import Mathlib.Data.Rat.Floor

/-!
# The counters printed by `getStats`

runtime/RuntimeLogger.cc:139-229 prints counters that the background thread keeps while it works.
Here they run along the executions of `Rt`.  The counters are zero at the start (constructor,
runtime/RuntimeLogger.cc:39-77), are updated by the background thread only, and `setLogFile` does
not reset them (633-674).  Times are not modelled.
-/

namespace NanoLog

/-- The counters `logsProcessed`, `totalBytesRead`, `totalBytesWritten` (`uint64_t`) and
`numAioWritesCompleted` (`uint32_t`), runtime/RuntimeLogger.h:278-291. -/
structure Stats where
  logs : Nat
  bytesIn : Nat
  bytesOut : Nat
  writes : Nat
  deriving DecidableEq, Repr

/-- The counters after the constructor, runtime/RuntimeLogger.cc:62-66. -/
def Stats.init : Stats := ⟨0, 0, 0, 0⟩

/-- `numEventsProcessed` in the loop of `encodeLogMsgs`, runtime/Log.cc:319, 322-390: the same
loop as `encodeLoop`, counting its iterations. -/
def encodeEvents (cfg : Config) (junk : Nat → Nat) (sites : List Site) :
    Nat → Int → Nat → Nat → List Byte → Option Nat
  | 0, _, _, _, _ => none
  | fuel + 1, remaining, space, last, mem =>
    if remaining ≤ 0 then some 0
    else
      match encodeStep cfg junk sites remaining space last mem with
      | none => none
      | some none => some 0
      | some (some (out, esz, ts)) =>
        match encodeEvents cfg junk sites fuel (remaining - esz) (space - out.length) ts
            (mem.drop esz) with
        | none => none
        | some k => some (k + 1)

/-- What one call of `encodeLogMsgs` adds to `*numEventsCompressed`, runtime/Log.cc:314-315,
398-399: nothing if the extent header does not fit. -/
def batchEvents (cfg : Config) (junk : Nat → Nat) (sites : List Site) (space : Nat)
    (mem : List Byte) (nbytes tid : Nat) : Option Nat :=
  if 9 > space then some 0
  else encodeEvents cfg junk sites (mem.length + 1) nbytes (space - extentHeaderSize tid) 0 mem

/-- The counters in one iteration of the loop over chunks, runtime/RuntimeLogger.cc:443-468:
`encodeLogMsgs` adds to `logsProcessed`; `totalBytesRead` grows only after the test for 0. -/
def Stats.chunk (cfg : Config) (s : Rt) (junk : Nat → Nat) (more : List Byte) (st : Stats) :
    Stats :=
  match (s.thr s.cur).bid with
  | none => st
  | some b =>
    let cs := (s.thr s.cur).q.take s.rem
    let bytes := s.msgBytes cs
    let nbytes := min cfg.release bytes.length
    let st1 :=
      match batchEvents cfg junk s.shadow (cfg.output - (s.mem s.encPtr).length) (bytes ++ more)
          nbytes b with
      | some k => { st with logs := (st.logs + k) % 2 ^ 64 }
      | none => st
    match s.enc.step cfg (.batch junk cs (bytes ++ more) nbytes b s.wrap) with
    | some (_, some n) =>
      if n = 0 then st1 else { st1 with bytesIn := (st1.bytesIn + n.toNat) % 2 ^ 64 }
    | _ => st1

/-- The counters when the background thread finds the outstanding operation finished,
runtime/RuntimeLogger.cc:577. -/
def Stats.finished (s : Rt) (st : Stats) : Stats :=
  match s.aio with
  | some a => if a.done = a.len then { st with writes := (st.writes + 1) % 2 ^ 32 } else st
  | none => st

/-- The counters when step `l` is taken in state `s`: a chunk; a finished operation
(runtime/RuntimeLogger.cc:577); a new operation (594-613, without `O_DIRECT`). -/
def Stats.step (cfg : Config) (s : Rt) (st : Stats) : Lbl → Stats
  | .encode junk more => st.chunk cfg s junk more
  | .aio => st.finished s
  | .write =>
    if s.mem s.encPtr = [] then st
    else { st with bytesOut := (st.bytesOut + (s.mem s.encPtr).length) % 2 ^ 64 }
  | _ => st

/-- The counters after the steps `ls` from `s`.  See runtime/RuntimeLogger.cc:353-625. -/
def Stats.run (cfg : Config) (prog : List Site) (s : Rt) (st : Stats) : List Lbl → Stats
  | [] => st
  | l :: ls =>
    match s.act cfg prog l with
    | .ok s1 => Stats.run cfg prog s1 (st.step cfg s l) ls
    | _ => st

/-! ## The compression ratio -/

/-- `totalBytesWritten` and `padBytesWritten` after handing `n` bytes to the disk,
runtime/RuntimeLogger.cc:594-612 (without wrap-around). -/
def countOutput (direct : Bool) (st : Nat × Nat) (n : Nat) : Nat × Nat :=
  if direct then
    let over := n % 512
    if over ≠ 0 then (st.1 + (n + 512 - over), st.2 + (512 - over)) else (st.1 + n, st.2)
  else (st.1 + n, st.2)

/-- The two ends of the range printed as the compression ratio,
runtime/RuntimeLogger.cc:221-225, for the counters `totalBytesRead`, `totalBytesWritten` and
`padBytesWritten`.  Exact numbers take the place of `double`. -/
def printedRatio (bytesIn out pad : Nat) : Rat × Rat :=
  ((bytesIn : Rat) / ((out : Rat) + (pad : Rat)), (bytesIn : Rat) / (out : Rat))

end NanoLog
