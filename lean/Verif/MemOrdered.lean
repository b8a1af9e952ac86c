import Verif.Ordered
import Verif.MemIter

/-! Ordered decompression, `Log::Decoder::decompressTo`, runtime/Log.cc:1816-1967, of the decoder with its
memory for static information, for files of either mode.  The definitions are those of `Verif.Ordered` with
`readDictP`, `readDictionaryFragmentM` and `decompressNextP` for the static information. -/

namespace NanoLog

/-- State of `decompressTo`: the decoder's file, `good`, `checkpoint`, dictionary and
`freeBuffers` (last element = next to be used), and the local variables `stages` (an array of
three vectors), `stagesBuffered`, `mustDepleteAllStages`; the messages printed; the number of
choices made so far (for the oracle).  See runtime/Log.cc:1816-1845. -/
structure MSt where
  file : FileSt
  good : Bool
  ck : Checkpoint
  dict : PDict
  pool : List BufFrag
  stages : List (List BufFrag)
  nb : Nat
  must : Bool
  mode : OMode
  out : List OutMsg
  tick : Nat
  deriving DecidableEq, Repr

/-- The end of an iteration of the reading loop, runtime/Log.cc:1895-1906: `newStage` is set
if the extent just read carries the flag.  Leaving the array bounds is undefined. -/
def MSt.endRead (s : MSt) (newStage : Bool) : Option MSt :=
  let must := s.must || s.file.eof
  let needFlush := must || !s.good
  match s.stages[s.nb]? with
  | none => none
  | some cur =>
    let nb := if newStage || (needFlush && !cur.isEmpty) then s.nb + 1 else s.nb
    some { s with must := must, nb := nb, mode := if nb = 3 then .deplete else .read }

/-- One iteration of the reading loop, runtime/Log.cc:1851-1906.  An extent that cannot be
read is dropped (its fragment is leaked).  At a checkpoint with a non-empty first stage
nothing is read, the stages have to be depleted first (1866-1873). -/
def MSt.readStep (cap : Nat) (s : MSt) : Option MSt :=
  let (e, f) := s.file.peek
  match e with
  | .extent =>
    let (bf0, pool) := allocFrag cap s.pool
    match readBufferExtent bf0 f with
    | none => none
    | some (ok, np, bf, f1) =>
      match s.stages[s.nb]? with
      | none => none
      | some cur =>
        MSt.endRead { s with file := f1, good := ok, pool := pool
                             stages := if ok then s.stages.set s.nb (cur ++ [bf]) else s.stages }
          np
  | .checkpoint =>
    match s.stages[0]? with
    | none => none
    | some (_ :: _) => MSt.endRead { s with file := f, must := true } false
    | some [] =>
      match readDictP s.ck s.dict f with
      | none => none
      | some (ok, ck, d, f1) =>
        MSt.endRead { s with file := f1, good := ok, ck := ck, dict := d } false
  | .dict =>
    match readDictionaryFragmentM s.dict f with
    | none => none
    | some (ok, d, f1) => MSt.endRead { s with file := f1, good := ok, dict := d } false
  | .invalid => MSt.endRead { s with file := f.skipPad } false

/-- One iteration of the depleting loop, runtime/Log.cc:1912-1960. -/
def MSt.depleteStep (pick : Nat → List BufFrag → Nat) (s : MSt) : Option MSt :=
  match minStage (pick s.tick) 0 (s.stages.take s.nb) none with
  | none => some { s with nb := 0, mode := .outer }
  | some (i, k, bf) =>
    match decompressNextP s.ck s.dict bf, s.stages[i]? with
    | some (m, bf'), some st =>
      let stages := s.stages.set i (if bf'.hasMore then st.set k bf' else st.eraseIdx k)
      let pool := if bf'.hasMore then s.pool else s.pool ++ [bf'.reset]
      let s1 := { s with out := s.out ++ m.toList, stages := stages, pool := pool
                         tick := s.tick + 1 }
      match stages[0]? with
      | none => none
      | some (_ :: _) => some s1
      | some [] =>
        some { s1 with stages := shiftStages s.nb stages, nb := s.nb - 1
                       mode := if s.must then .deplete else .outer }
    | _, _ => none

/-- One step of `decompressTo`, runtime/Log.cc:1846-1961 (`make_heap`, 1908-1910, only
arranges the vectors). -/
def MSt.step (cap : Nat) (pick : Nat → List BufFrag → Nat) (s : MSt) : Option MSt :=
  match s.mode with
  | .done => some s
  | .outer =>
    if s.file.eof = true ∨ s.good = false then some { s with mode := .done }
    else some { s with must := false, mode := .read }
  | .read =>
    if s.file.eof = true ∨ s.good = false ∨ s.must = true then some { s with mode := .deplete }
    else s.readStep cap
  | .deplete => s.depleteStep pick

/-- At most `fuel` steps of `decompressTo`.  See runtime/Log.cc:1846-1961. -/
def MSt.loop (cap : Nat) (pick : Nat → List BufFrag → Nat) : Nat → MSt → Option MSt
  | 0, s => some s
  | fuel + 1, s =>
    if s.mode = .done then some s
    else
      match s.step cap pick with
      | none => none
      | some s' => MSt.loop cap pick fuel s'

/-- The state in which `decompressTo` starts, runtime/Log.cc:1816-1845, after `open`. -/
def PDec.startOrdered (s : PDec) (pool : List BufFrag) : MSt where
  file := s.file
  good := s.good
  ck := s.ck
  dict := s.dict
  pool := pool
  stages := [[], [], []]
  nb := 0
  must := false
  mode := .outer
  out := s.out
  tick := 0

/-- `decompressTo`, runtime/Log.cc:1816-1967, after `open`; `pool` is `freeBuffers`, the
fragments freed by earlier calls.  Result: the final state. -/
def PDec.ordered (s : PDec) (cap : Nat) (pool : List BufFrag) (pick : Nat → List BufFrag → Nat) :
    Option MSt :=
  MSt.loop cap pick (OSt.fuel cap s.file) (s.startOrdered pool)

end NanoLog
