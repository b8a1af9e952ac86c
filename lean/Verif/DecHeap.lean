import Verif.Ordered
import Verif.StdHeap
import Verif.Runtime

/-!
# Model of ordered decompression with pointers and heaps

`Log::Decoder::decompressTo`, runtime/Log.cc:1816-1967, at the level of the objects: the
buffer fragments are objects with addresses, `freeBuffers` and the three vectors `stages` hold
addresses, and the vectors are arranged by the heap functions of the library (`Verif.StdHeap`);
nothing is left to an oracle.  Reading and decoding an extent are the functions of
`Verif.Decode`, applied to the object.
-/

namespace NanoLog

/-- State of `decompressTo`: the members of the decoder used by it (runtime/Log.h:943-985),
its local variables `stages`, `stagesBuffered`, `mustDepleteAllStages`
(runtime/Log.cc:1831-1843), the position, and what was printed.  `heap`: the fragments by
address; `next`: the next address the allocator returns (a new one each time: no fragment is
deleted while the decoder exists, `delete` is in its destructor only, 1117-1118); address 0 is
the member `bufferFragment` (runtime/Log.h:955, allocated by the constructor,
runtime/Log.cc:600-632).  `lost` is not in the program: the fragments no variable points to
any more. -/
structure HSt where
  file : FileSt
  good : Bool
  ck : Checkpoint
  dict : Dict
  heap : Nat → BufFrag
  next : Nat
  free : List Nat
  lost : List Nat
  stages : List (List Nat)
  nb : Nat
  must : Bool
  mode : OMode
  out : List OutMsg

/-- `getNextLogTimestamp` of the fragment at an address, runtime/Log.cc:1696-1700; the key by
which `compareBufferFragments` (1799-1804) compares. -/
def tsOf (heap : Nat → BufFrag) (a : Nat) : Nat := (heap a).ts

/-- `allocateBufferFragment`, runtime/Log.cc:1129-1138: the address and the new state. -/
def HSt.alloc (cap : Nat) (s : HSt) : Nat × HSt :=
  match s.free.getLast? with
  | some a => (a, { s with free := s.free.dropLast })
  | none => (s.next, { s with heap := upd s.heap s.next (BufFrag.init cap), next := s.next + 1 })

/-- Step 2, runtime/Log.cc:1908-1910: `make_heap` on every stage; then the depleting loop. -/
def HSt.heapify (s : HSt) : HSt :=
  { s with stages := s.stages.map (makeHeap (tsOf s.heap)), mode := .deplete }

/-- The end of an iteration of the reading loop, runtime/Log.cc:1895-1906 (and the way to step
2 by the `break` in 1904-1905).  Leaving the array bounds is undefined. -/
def HSt.endRead (s : HSt) (newStage : Bool) : Option HSt :=
  let must := s.must || s.file.eof
  let needFlush := must || !s.good
  match s.stages[s.nb]? with
  | none => none
  | some cur =>
    let nb := if newStage || (needFlush && !cur.isEmpty) then s.nb + 1 else s.nb
    let s1 := { s with must := must, nb := nb }
    some (if nb = 3 then s1.heapify else s1)

/-- One iteration of the reading loop, runtime/Log.cc:1851-1906.  The fragment of an extent
that cannot be read is neither put into a stage nor freed (1855-1863). -/
def HSt.readStep (cap : Nat) (s : HSt) : Option HSt :=
  let (e, f) := s.file.peek
  match e with
  | .extent =>
    let (a, s1) := s.alloc cap
    match readBufferExtent (s1.heap a) f with
    | none => none
    | some (ok, np, bf, f1) =>
      let s2 := { s1 with file := f1, good := ok, heap := upd s1.heap a bf }
      if ok then
        match s2.stages[s2.nb]? with
        | none => none
        | some cur => HSt.endRead { s2 with stages := s2.stages.set s2.nb (cur ++ [a]) } np
      else HSt.endRead { s2 with lost := s2.lost ++ [a] } np
  | .checkpoint =>
    match s.stages[0]? with
    | none => none
    | some (_ :: _) => HSt.endRead { s with file := f, must := true } false
    | some [] =>
      match readDictionary s.ck s.dict f with
      | none => none
      | some (ok, ck, d, f1) =>
        HSt.endRead { s with file := f1, good := ok, ck := ck, dict := d } false
  | .dict =>
    match readDictionaryFragment s.dict f with
    | none => none
    | some (ok, d, f1) => HSt.endRead { s with file := f1, good := ok, dict := d } false
  | .invalid => HSt.endRead { s with file := f.skipPad } false

/-- Step 3a, runtime/Log.cc:1914-1925: `i` is the loop variable, `best` is `minStage` (its
number, and its front). -/
def minFront (ts : Nat → Nat) : Nat → List (List Nat) → Option (Nat × Nat) → Option (Nat × Nat)
  | _, [], best => best
  | i, [] :: sts, best => minFront ts (i + 1) sts best
  | i, (a :: _) :: sts, best =>
    minFront ts (i + 1) sts
      (match best with
       | none => some (i, a)
       | some (_, b) => if ts a < ts b then some (i, a) else best)

/-- The loop in runtime/Log.cc:1951-1953, `stages[i] = stages[i+1]` for the first `n` stages,
starting with stage `i`; leaving the array bounds is undefined. -/
def shiftLoop : Nat → Nat → List (List Nat) → Option (List (List Nat))
  | 0, _, l => some l
  | n + 1, i, l =>
    match l[i + 1]? with
    | some x => shiftLoop n (i + 1) (l.set i x)
    | none => none

/-- Step 3c, runtime/Log.cc:1950-1959: `nb` is `stagesBuffered`, not 0. -/
def HSt.exitCheck (s : HSt) : Option HSt :=
  match s.stages[0]? with
  | none => none
  | some (_ :: _) => some s
  | some [] =>
    match shiftLoop (s.nb - 1) 0 s.stages with
    | none => none
    | some l =>
      some { s with stages := l.set (s.nb - 1) [], nb := s.nb - 1
                    mode := if s.must then .deplete else .outer }

/-- `pop_heap`, then `push_heap`, or `pop_back` and `freeBufferFragment`,
runtime/Log.cc:1936-1949, for the front `a` of stage `i`, which is `st`; the object at `a` is
already changed by `decompressNextLogStatement`. -/
def HSt.repair (s : HSt) (i a : Nat) (st : List Nat) : HSt :=
  let st1 := popHeap (tsOf s.heap) st
  if (s.heap a).hasMore then { s with stages := s.stages.set i (pushHeap (tsOf s.heap) st1) }
  else { s with stages := s.stages.set i st1.dropLast
                heap := upd s.heap a (s.heap a).reset
                free := s.free ++ [a] }

/-- One iteration of the depleting loop, runtime/Log.cc:1912-1960. -/
def HSt.depleteStep (s : HSt) : Option HSt :=
  match minFront (tsOf s.heap) 0 (s.stages.take s.nb) none with
  | none => some { s with nb := 0, mode := .outer }
  | some (i, a) =>
    match decompressNext s.ck s.dict (s.heap a), s.stages[i]? with
    | some (m, bf'), some st =>
      (HSt.repair { s with out := s.out ++ m.toList, heap := upd s.heap a bf' } i a st).exitCheck
    | _, _ => none

/-- One step of `decompressTo`, runtime/Log.cc:1846-1961. -/
def HSt.step (cap : Nat) (s : HSt) : Option HSt :=
  match s.mode with
  | .done => some s
  | .outer =>
    if s.file.eof = true ∨ s.good = false then some { s with mode := .done }
    else some { s with must := false, mode := .read }
  | .read =>
    if s.file.eof = true ∨ s.good = false ∨ s.must = true then some s.heapify
    else s.readStep cap
  | .deplete => s.depleteStep

/-- At most `fuel` steps of `decompressTo` (runtime/Log.cc:1846-1964). -/
def HSt.loop (cap : Nat) : Nat → HSt → Option HSt
  | 0, s => some s
  | fuel + 1, s =>
    if s.mode = .done then some s
    else
      match s.step cap with
      | none => none
      | some s' => HSt.loop cap fuel s'

/-- The objects of a decoder: fragments by address, next address, `freeBuffers`, lost
fragments (see `HSt`); runtime/Log.h:955, 967. -/
structure Objs where
  heap : Nat → BufFrag
  next : Nat
  free : List Nat
  lost : List Nat

/-- The objects of a new decoder, runtime/Log.cc:600-632: only `bufferFragment`. -/
def Objs.new (cap : Nat) : Objs := ⟨fun _ => BufFrag.init cap, 1, [], []⟩

/-- The state in which `decompressTo` starts, runtime/Log.cc:1816-1845, after `open`. -/
def Dec.startHeap (s : Dec) (o : Objs) : HSt where
  file := s.file
  good := s.good
  ck := s.ck
  dict := s.dict
  heap := o.heap
  next := o.next
  free := o.free
  lost := o.lost
  stages := [[], [], []]
  nb := 0
  must := false
  mode := .outer
  out := s.out

/-- `decompressTo`, runtime/Log.cc:1816-1967, after `open`.  Result: the final state. -/
def Dec.orderedHeap (s : Dec) (cap : Nat) (o : Objs) : Option HSt :=
  HSt.loop cap (OSt.fuel cap s.file) (s.startHeap o)

/-- What is left for later calls when `decompressTo` returns: the local vectors `stages` are
destroyed (runtime/Log.cc:1965), not what they point to. -/
def HSt.objs (s : HSt) : Objs := ⟨s.heap, s.next, s.free, s.lost ++ s.stages.flatten⟩

/-- The addresses deleted by `~Decoder`, runtime/Log.cc:1117-1118. -/
def Objs.deleted (o : Objs) : List Nat := o.free

end NanoLog
