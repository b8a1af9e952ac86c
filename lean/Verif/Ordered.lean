import Verif.Decode

/-!
# Model of ordered decompression, `Log::Decoder::decompressTo`, runtime/Log.cc:1816-1967

The three nested loops are modelled as one loop over small steps; `OMode` says where the
program is.  The vectors are kept as heaps by the code; which of several fragments with the
smallest time stamp is at the front of a heap depends on the library, so the model takes the
choice from an oracle `pick` (step number and vector ↦ position) and all theorems quantify
over all oracles that choose a smallest element (`Picks`).
-/

namespace NanoLog

/-- Position in `decompressTo`: head of the outer loop (1846), of the reading loop (1850), of
the depleting loop (1912), or after the outer loop (1963). -/
inductive OMode where
  | outer | read | deplete | done
  deriving DecidableEq, Repr

/-- State of `decompressTo`: the decoder's file, `good`, `checkpoint`, dictionary and
`freeBuffers` (last element = next to be used), and the local variables `stages` (an array of
three vectors), `stagesBuffered`, `mustDepleteAllStages`; the messages printed; the number of
choices made so far (for the oracle).  See runtime/Log.cc:1816-1845. -/
structure OSt where
  file : FileSt
  good : Bool
  ck : Checkpoint
  dict : Dict
  pool : List BufFrag
  stages : List (List BufFrag)
  nb : Nat
  must : Bool
  mode : OMode
  out : List OutMsg
  tick : Nat
  deriving DecidableEq, Repr

/-- `allocateBufferFragment`, runtime/Log.cc:1129-1138: the last fragment of the free list, or
a new one with storage of `cap` bytes. -/
def allocFrag (cap : Nat) (pool : List BufFrag) : BufFrag × List BufFrag :=
  match pool.getLast? with
  | some bf => (bf, pool.dropLast)
  | none => (BufFrag.init cap, [])

/-- The end of an iteration of the reading loop, runtime/Log.cc:1895-1906: `newStage` is set
if the extent just read carries the flag.  Leaving the array bounds is undefined. -/
def OSt.endRead (s : OSt) (newStage : Bool) : Option OSt :=
  let must := s.must || s.file.eof
  let needFlush := must || !s.good
  match s.stages[s.nb]? with
  | none => none
  | some cur =>
    let nb := if newStage || (needFlush && !cur.isEmpty) then s.nb + 1 else s.nb
    some { s with must := must, nb := nb, mode := if nb = 3 then .deplete else .read }

/-- One iteration of the reading loop, runtime/Log.cc:1851-1906.  An extent that cannot be
read is dropped (its fragment is leaked).  At a checkpoint with a non-empty first stage
nothing is read, the stages have to be depleted first (1866-1873). -/
def OSt.readStep (cap : Nat) (s : OSt) : Option OSt :=
  let (e, f) := s.file.peek
  match e with
  | .extent =>
    let (bf0, pool) := allocFrag cap s.pool
    match readBufferExtent bf0 f with
    | none => none
    | some (ok, np, bf, f1) =>
      match s.stages[s.nb]? with
      | none => none
      | some cur =>
        OSt.endRead { s with file := f1, good := ok, pool := pool
                             stages := if ok then s.stages.set s.nb (cur ++ [bf]) else s.stages }
          np
  | .checkpoint =>
    match s.stages[0]? with
    | none => none
    | some (_ :: _) => OSt.endRead { s with file := f, must := true } false
    | some [] =>
      match readDictionary s.ck s.dict f with
      | none => none
      | some (ok, ck, d, f1) =>
        OSt.endRead { s with file := f1, good := ok, ck := ck, dict := d } false
  | .dict =>
    match readDictionaryFragment s.dict f with
    | none => none
    | some (ok, d, f1) => OSt.endRead { s with file := f1, good := ok, dict := d } false
  | .invalid => OSt.endRead { s with file := f.skipPad } false

/-- Step 3a, runtime/Log.cc:1914-1925: the front of the first stage with the smallest time
stamp, as (stage, position in the vector, fragment).  `best` is the best so far, `i` the
number of the next stage. -/
def minStage (pick : List BufFrag → Nat) :
    Nat → List (List BufFrag) → Option (Nat × Nat × BufFrag) → Option (Nat × Nat × BufFrag)
  | _, [], best => best
  | i, st :: sts, best =>
    minStage pick (i + 1) sts
      (match st[pick st]? with
       | none => best
       | some bf =>
         match best with
         | none => some (i, pick st, bf)
         | some (_, _, b) => if bf.ts < b.ts then some (i, pick st, bf) else best)

/-- Step 3c, runtime/Log.cc:1950-1954: move the stages `1 .. nb-1` one down and clear stage
`nb - 1`. -/
def shiftStages (nb : Nat) (stages : List (List BufFrag)) : List (List BufFrag) :=
  (stages.take nb).drop 1 ++ [] :: stages.drop nb

/-- One iteration of the depleting loop, runtime/Log.cc:1912-1960. -/
def OSt.depleteStep (pick : Nat → List BufFrag → Nat) (s : OSt) : Option OSt :=
  match minStage (pick s.tick) 0 (s.stages.take s.nb) none with
  | none => some { s with nb := 0, mode := .outer }
  | some (i, k, bf) =>
    match decompressNext s.ck s.dict bf, s.stages[i]? with
    | some (m, bf'), some st =>
      let stages := s.stages.set i (if bf'.hasMore then st.set k bf' else st.eraseIdx k)
      let pool := if bf'.hasMore then s.pool else s.pool ++ [bf'.reset]
      let s1 := { s with out := s.out ++ m.toList, stages := stages, pool := pool
                         tick := s.tick + 1 }
      match stages[0]? with
      | none => none
      | some (_ :: _) => some s1
      | some [] =>
        some { s1 with stages := shiftStages s.nb stages, nb := s.nb - 1
                       mode := if s.must then .deplete else .outer }
    | _, _ => none

/-- One step of `decompressTo`, runtime/Log.cc:1846-1961 (`make_heap`, 1908-1910, only
arranges the vectors). -/
def OSt.step (cap : Nat) (pick : Nat → List BufFrag → Nat) (s : OSt) : Option OSt :=
  match s.mode with
  | .done => some s
  | .outer =>
    if s.file.eof = true ∨ s.good = false then some { s with mode := .done }
    else some { s with must := false, mode := .read }
  | .read =>
    if s.file.eof = true ∨ s.good = false ∨ s.must = true then some { s with mode := .deplete }
    else s.readStep cap
  | .deplete => s.depleteStep pick

/-- At most `fuel` steps of `decompressTo`.  See runtime/Log.cc:1846-1961. -/
def OSt.loop (cap : Nat) (pick : Nat → List BufFrag → Nat) : Nat → OSt → Option OSt
  | 0, s => some s
  | fuel + 1, s =>
    if s.mode = .done then some s
    else
      match s.step cap pick with
      | none => none
      | some s' => OSt.loop cap pick fuel s'

/-- Number of steps that always suffices (`OSt.loop_fuel`). -/
def OSt.fuel (cap : Nat) (f : FileSt) : Nat := 8 * (f.inp.length + 2) * (cap + 7)

/-- The state in which `decompressTo` starts, runtime/Log.cc:1816-1845, after `open`. -/
def Dec.startOrdered (s : Dec) (pool : List BufFrag) : OSt where
  file := s.file
  good := s.good
  ck := s.ck
  dict := s.dict
  pool := pool
  stages := [[], [], []]
  nb := 0
  must := false
  mode := .outer
  out := s.out
  tick := 0

/-- `decompressTo`, runtime/Log.cc:1816-1967, after `open`; `pool` is `freeBuffers`, the
fragments freed by earlier calls.  Result: the final state. -/
def Dec.ordered (s : Dec) (cap : Nat) (pool : List BufFrag) (pick : Nat → List BufFrag → Nat) :
    Option OSt :=
  OSt.loop cap pick (OSt.fuel cap s.file) (s.startOrdered pool)

end NanoLog
