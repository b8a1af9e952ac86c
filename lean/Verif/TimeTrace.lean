import Verif.Bytes

/-!
# Model of `runtime/TimeTrace.cc`

Per-thread rings of events and the merge that prints them.  The size of a ring is `2^k`
(`k = 13` in the code, runtime/TimeTrace.h: `BUFFER_SIZE_EXP`).  The text printed per event is
not modelled, only which events are printed in which order.
-/

namespace NanoLog

/-- `struct TimeTrace::Event`, runtime/TimeTrace.h:120-132, of an entry in use (`format` not
null); `data` stands for the format and the arguments. -/
structure TEv where
  ts : Nat
  data : Nat
  deriving DecidableEq, Repr

/-- `class TimeTrace::Buffer`, runtime/TimeTrace.h:140-179.  `none` in `ev` is an entry with
null `format`. -/
structure TBuf where
  ev : List (Option TEv)
  next : Nat
  readers : BitVec 32
  deriving DecidableEq, Repr

/-- `BUFFER_SIZE`, runtime/TimeTrace.h:156-160. -/
def TBuf.size (b : TBuf) : Nat := b.ev.length

/-- Constructor, runtime/TimeTrace.cc:80-89. -/
def TBuf.new (k : Nat) : TBuf := ⟨List.replicate (2 ^ k) none, 0, 0⟩

/-- `Buffer::record`, runtime/TimeTrace.cc:125-147. -/
def TBuf.record (b : TBuf) (e : TEv) : TBuf :=
  if 0 < b.readers.toInt then b
  else { b with ev := b.ev.set b.next (some e), next := (b.next + 1) &&& (b.size - 1) }

/-- The loop of `Buffer::reset`, runtime/TimeTrace.cc:177-182: stops at the first entry that is
not in use. -/
def resetEvs : List (Option TEv) → List (Option TEv)
  | [] => []
  | none :: l => none :: l
  | some _ :: l => none :: resetEvs l

/-- `Buffer::reset`, runtime/TimeTrace.cc:175-184. -/
def TBuf.reset (b : TBuf) : TBuf := { b with ev := resetEvs b.ev, next := 0 }

/-- `buffer->events[i]` if it is in use (`format != NULL`, runtime/TimeTrace.cc:236, 252, 261,
280).  Indices are below the size wherever this is used. -/
def TBuf.at (b : TBuf) (i : Nat) : Option TEv := (b.ev[i]?).join

/-- Index of the first event to consider, runtime/TimeTrace.cc:233-241. -/
def TBuf.first (b : TBuf) : Nat :=
  let index := (b.next + 1) % b.size
  if (b.at index).isSome then index else 0

/-- `activeReaders.fetch_and(1)`, runtime/TimeTrace.cc:217-219. -/
def TBuf.beginRead (b : TBuf) : TBuf := { b with readers := b.readers &&& 1 }

/-- `activeReaders.fetch_and(-1)`, runtime/TimeTrace.cc:333-335. -/
def TBuf.endRead (b : TBuf) : TBuf := { b with readers := b.readers &&& (-1) }

/-- The time of the first event to print, runtime/TimeTrace.cc:250-256, from the events the
cursors point to. -/
def startTime : List (Option TEv) → Nat → Nat
  | [], t => t
  | some e :: l, t => startTime l (if e.ts > t then e.ts else t)
  | none :: l, t => startTime l t

/-- `while (... timestamp < startTime && current[i] != nextIndex) ...`,
runtime/TimeTrace.cc:259-266.  The cursor meets `nextIndex` after less than `size` steps. -/
def TBuf.skip (b : TBuf) (start : Nat) : Nat → Nat → Nat
  | 0, c => c
  | fuel + 1, c =>
    match b.at c with
    | some e =>
      if e.ts < start ∧ c ≠ b.next then b.skip start fuel ((c + 1) % b.size) else c
    | none => c

/-- The event a cursor makes available to the merge, runtime/TimeTrace.cc:281-283. -/
def TBuf.avail (b : TBuf) (c : Nat) : Option TEv := if c ≠ b.next then b.at c else none

/-- Search for the earliest available event, runtime/TimeTrace.cc:276-288: index of the
buffer (counted from `i`), the event; `best` is `earliestTime`. -/
def pickEarliest : List (Option TEv) → Nat → Nat → Option (Nat × TEv) → Option (Nat × TEv)
  | [], _, _, r => r
  | some e :: l, i, best, r =>
    if e.ts < best then pickEarliest l (i + 1) e.ts (some (i, e)) else pickEarliest l (i + 1) best r
  | none :: l, i, best, r => pickEarliest l (i + 1) best r

/-- One iteration of `while (1)`, runtime/TimeTrace.cc:271-295, on the buffers and cursors:
`none` if no event is left, else the event to print and the new cursors. -/
def traceStep (bs : List TBuf) (cs : List Nat) : Option ((Nat × TEv) × List Nat) :=
  match pickEarliest (List.zipWith TBuf.avail bs cs) 0 (2 ^ 64 - 1) none with
  | none => none
  | some (i, e) =>
    match bs[i]?, cs[i]? with
    | some b, some c => some ((i, e), cs.set i ((c + 1) % b.size))
    | _, _ => none

/-- The loop, runtime/TimeTrace.cc:271-323, with a bound on the number of iterations: `none`
if it is exceeded. -/
def traceLoop : Nat → List TBuf → List Nat → Option (List (Nat × TEv))
  | 0, _, _ => none
  | fuel + 1, bs, cs =>
    match traceStep bs cs with
    | none => some []
    | some (p, cs') => (traceLoop fuel bs cs').map (p :: ·)

/-- The cursors before the loop, runtime/TimeTrace.cc:226-266. -/
def traceStart (bs : List TBuf) : List Nat :=
  let cs := bs.map TBuf.first
  let start := startTime (List.zipWith TBuf.at bs cs) 0
  List.zipWith (fun b c => b.skip start b.size c) bs cs

/-- `printInternal`, runtime/TimeTrace.cc:213-338, when no event is recorded meanwhile: the
events printed with the number of their buffer.  (`beginRead` has no effect on the events.)
The bound is the number of entries of all buffers plus one. -/
def printTrace (bs : List TBuf) : Option (List (Nat × TEv)) :=
  traceLoop ((bs.map TBuf.size).sum + 1) bs (traceStart bs)

end NanoLog
