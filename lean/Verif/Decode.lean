import Verif.Entries
import Verif.FmtParse

/-!
# Model of the decoder, `runtime/Log.cc` (`Log::Decoder`)

The decoder of the C++17 mode (no compiled-in functions).  `none` stands for an abort (failed
`assert`, uncaught exception) or undefined behaviour (access outside a buffer); results are
never invented in these cases.
-/

namespace NanoLog

/-! ## The input file -/

/-- A `FILE*` open for reading: the bytes not yet read and the end-of-file indicator.  See runtime/Log.h:863-985. -/
structure FileSt where
  inp : List Byte
  eof : Bool
  deriving DecidableEq, Repr

/-- `fread(p, 1, n, fd)`: a short read sets the end-of-file indicator.
As in runtime/Log.cc:1003, 1014, 1048-1049, 1194, 1206. -/
def FileSt.read (n : Nat) (f : FileSt) : List Byte × FileSt :=
  if n ≤ f.inp.length then (f.inp.take n, { f with inp := f.inp.drop n })
  else (f.inp, { inp := [], eof := true })

/-- `peekEntryType(FILE*)`, runtime/Log.h:496-506: at the end of the file `fgetc` sets the
end-of-file indicator and the result is `INVALID`. -/
def FileSt.peek (f : FileSt) : EntryType × FileSt :=
  match f.inp with
  | [] => (.invalid, { f with eof := true })
  | b :: _ => (entryType b, f)

/-- `while (!feof(inputFd) && peekEntryType(inputFd) == INVALID) fgetc(inputFd);`
runtime/Log.cc:1769-1772, 1888-1891, 2042-2045. -/
def FileSt.skipPad (f : FileSt) : FileSt :=
  if f.eof then f
  else
    match f.inp.dropWhile (fun b => entryType b = .invalid) with
    | [] => { inp := [], eof := true }
    | l => { inp := l, eof := false }

/-! ## Buffer fragments -/

/-- `struct BufferFragment`, runtime/Log.h:882-925.  `stor` is the whole `storage` array
(content of earlier extents stays behind the current one), `mem` the part of it from
`readPos` on, `left` is `endOfBuffer - readPos`.  `validBytes` is used in asserts only. -/
structure BufFrag where
  stor : List Byte
  tid : Nat
  mem : List Byte
  left : Int
  hasMore : Bool
  id : Nat
  ts : Nat
  deriving DecidableEq, Repr

/-- `BufferFragment::BufferFragment`, runtime/Log.cc:1155-1165, with a storage of `cap`
bytes (runtime/Log.h:887-888 and 295-297: `STAGING_BUFFER_SIZE + sizeof(BufferExtent) + 4`). -/
def BufFrag.init (cap : Nat) : BufFrag where
  stor := List.replicate cap 0
  tid := 2 ^ 32 - 1
  mem := []
  left := 0
  hasMore := false
  id := 2 ^ 32 - 1
  ts := 0

/-- `BufferFragment::reset`, runtime/Log.cc:1170-1178. -/
def BufFrag.reset (bf : BufFrag) : BufFrag :=
  { bf with mem := [], left := 0, hasMore := false }

/-- Overwrite the front of the storage.  See runtime/Log.cc:1194-1206. -/
def overlay (new old : List Byte) : List Byte := new ++ old.drop new.length

/-- First message header of an extent whose bytes `bs` are in storage; runtime/Log.cc:1210-1236
(from `readPos = storage + sizeof(BufferExtent)`).  `b` is the first byte of the extent. -/
def BufFrag.start (bf : BufFrag) (b : Byte) (bs : List Byte) : Option (Bool × BufFrag) :=
  let stor := overlay bs bf.stor
  let len : Int := bs.length
  let first : Option (Nat × List Byte) :=
    if b.toNat / 8 % 2 = 1 then some (b.toNat / 16, stor.drop 5)
    else do
      let (v, m) ← unpackInt .u32 (b.toNat / 16) (stor.drop 5)
      some (v.toNat, m)
  match first with
  | none => none
  | some (tid, mem) =>
    let left := len - ((stor.length : Int) - mem.length)
    if left = 0 then
      some (true, { bf with stor := stor, tid := tid, mem := mem, left := left, hasMore := false })
    else
      match decompressLogHeader 0 mem with
      | none => none
      | some .bad => some (false, BufFrag.reset { bf with stor := stor, tid := tid })
      | some (.ok id ts rest) =>
        some (true, { stor := stor, tid := tid, mem := rest
                      left := left - ((mem.length : Int) - rest.length)
                      hasMore := true, id := id, ts := ts })

/-- `readBufferExtent`, runtime/Log.cc:1192-1237.  Result: success, the start-of-pass flag
(meaningful on success), the fragment, the file.  `length < 5` fails the `assert` in line
1204. -/
def readBufferExtent (bf : BufFrag) (f : FileSt) : Option (Bool × Bool × BufFrag × FileSt) :=
  let (hdr, f1) := f.read 5
  match hdr with
  | b :: lenB =>
    let len := unle lenB
    if entryType b ≠ .extent ∨ hdr.length < 5 ∨ len > bf.stor.length then
      some (false, false, BufFrag.reset { bf with stor := overlay hdr bf.stor }, f1)
    else if len < 5 then none
    else
      let (body, f2) := f1.read (len - 5)
      if body.length ≠ len - 5 then
        some (false, false, BufFrag.reset { bf with stor := overlay (hdr ++ body) bf.stor }, f2)
      else
        match bf.start b (hdr ++ body) with
        | none => none
        | some (ok, bf') => some (ok, decide (b.toNat / 4 % 2 = 1), bf', f2)
  | [] => some (false, false, bf.reset, f1)

/-! ## Dictionary -/

/-- The dictionary of the decoder: `fmtId2metadata` (as positions in the sequence of
metadata records) and the metadata records written so far, runtime/Log.h:969-981. -/
structure Dict where
  idx : List Nat
  metas : List Meta
  deriving DecidableEq, Repr

/-- Empty dictionary.  See runtime/Log.cc:600-631. -/
def Dict.empty : Dict := ⟨[], []⟩

/-- `fmtId2metadata.at(id)` and the record it points to.  An index out of range throws; a
pointer past the last record points to garbage: both `none`.  See runtime/Log.cc:1407. -/
def Dict.lookup (d : Dict) (id : Nat) : Option Meta := do
  let k ← d.idx[id]?
  d.metas[k]?

/-- One new log statement, runtime/Log.cc:1058-1066: the pointer is pushed first; if
`createMicroCode` fails (its result is ignored) the write position does not move and the
next record overwrites the slot. -/
def Dict.add (d : Dict) (i : LogInfo) : Dict :=
  let idx := d.idx ++ [d.metas.length]
  match createMicroCode i.fmt i.file i.line i.sev with
  | some m => ⟨idx, d.metas ++ [m]⟩
  | none => ⟨idx, d.metas⟩

/-- One iteration of the loop in `readDictionaryFragment`, runtime/Log.cc:1012-1066.
`some (none, f)`: short read.  `none`: a string without terminator inside its field. -/
def readLogInfo (f : FileSt) : Option (Option (LogInfo × Nat) × FileSt) :=
  let (cli, f1) := f.read 9
  if cli.length ≠ 9 then some (none, f1)
  else
    let sev := unle (cli.take 1)
    let line := unle ((cli.drop 1).take 4)
    let fl := unle ((cli.drop 5).take 2)
    let ml := unle (cli.drop 7)
    let (fileB, f2) := f1.read fl
    let (fmtB, f3) := f2.read ml
    if fileB.length + fmtB.length ≠ fl + ml then some (none, f3)
    else
      match takeCStr fileB, takeCStr fmtB with
      | some (file, _), some (fmt, _) =>
        some (some (⟨file, line, sev, fmt⟩, 9 + fl + ml), f3)
      | _, _ => none

/-- The loop of `readDictionaryFragment`, runtime/Log.cc:1012-1067.  `done` is `bytesRead`,
`total` is `newMetadataBytes`.  Every iteration reads at least 9 bytes, so `fuel` equal to
the number of remaining bytes plus one suffices. -/
def readDictLoop : Nat → Nat → Nat → Dict → FileSt → Option (Bool × Dict × FileSt)
  | 0, _, _, d, f => some (true, d, f)
  | fuel + 1, done, total, d, f =>
    if done < total ∧ f.eof = false then
      match readLogInfo f with
      | none => none
      | some (none, f1) => some (false, d, f1)
      | some (some (i, n), f1) => readDictLoop fuel (done + n) total (d.add i) f1
    else some (true, d, f)

/-- `readDictionaryFragment`, runtime/Log.cc:990-1075. -/
def readDictionaryFragment (d : Dict) (f : FileSt) : Option (Bool × Dict × FileSt) :=
  let (hdr, f1) := f.read 8
  if hdr.length ≠ 8 then some (false, d, f1)
  else readDictLoop (f1.inp.length + 1) 8 (unle (hdr.take 4) / 4) d f1

/-- `readDictionary(fd, true)`, runtime/Log.cc:646-707 with `readCheckpoint`,
runtime/Log.h:603-613, for checkpoints without attached dictionary (`newMetadataBytes = 0`,
as written in C++17 mode); other checkpoints are outside this model (`none`).  A first
byte that is not a checkpoint fails the `assert`.  On a short read the code has partly
overwritten its checkpoint; the model keeps the old one (nothing is printed afterwards in
the loops modelled here, except by `decompressTo` in the situation of
`C27_ordered_false`). -/
def readDictionary (ck : Checkpoint) (d : Dict) (f : FileSt) :
    Option (Bool × Checkpoint × Dict × FileSt) :=
  let (bs, f1) := f.read 40
  if bs.length ≠ 40 then some (false, ck, d, f1)
  else
    match bs.head?, parseCheckpoint bs with
    | some b, some c =>
      if entryType b ≠ .checkpoint then none
      else if c.newBytes ≠ 0 then none
      else if c.total ≠ 0 then some (false, c, Dict.empty, f1)
      else some (true, c, Dict.empty, f1)
    | _, _ => none

/-! ## Messages -/

/-- What is printed (or returned by the iterator) for one message: thread, id, time stamp,
the checkpoint used to convert it, static context, and the fragments with the values passed
to `fprintf`.  See runtime/Log.cc:1315-1680. -/
structure OutMsg where
  tid : Nat
  id : Nat
  ts : Nat
  ck : Checkpoint
  file : List Byte
  line : Nat
  level : Nat
  parts : List Decoded
  deriving DecidableEq, Repr

/-- `decompressNextLogStatement`, runtime/Log.cc:1315-1680 (without the preprocessor branch
1370-1411).  Result: the message, if one was produced, and the fragment. -/
def decompressNext (ck : Checkpoint) (d : Dict) (bf : BufFrag) : Option (Option OutMsg × BufFrag) :=
  if bf.left < 0 ∨ bf.hasMore = false then some (none, { bf with hasMore := false })
  else
    match d.lookup bf.id with
    | none => none
    | some m =>
      match decodeArgs m.numNibbles m.frags bf.mem with
      | none => none
      | some (parts, mem') =>
        let msg : OutMsg :=
          { tid := bf.tid, id := bf.id, ts := bf.ts, ck := ck, file := m.file, line := m.line
            level := m.level, parts := parts }
        let left' := bf.left - ((bf.mem.length : Int) - mem'.length)
        if left' ≤ 0 then
          some (some msg, { bf with mem := mem', left := left', hasMore := false })
        else
          match decompressLogHeader bf.ts mem' with
          | none => none
          | some .bad => some (some msg, { bf with mem := mem', left := left', hasMore := false })
          | some (.ok id ts rest) =>
            some (some msg, { bf with mem := rest
                                      left := left' - ((mem'.length : Int) - rest.length)
                                      hasMore := true, id := id, ts := ts })

/-! ## Unordered decoding -/

/-- The decoder object: file, `good`, checkpoint, dictionary, the fragment in use and the
messages produced so far.  See runtime/Log.h:863-985. -/
structure Dec where
  file : FileSt
  good : Bool
  ck : Checkpoint
  dict : Dict
  bf : BufFrag
  out : List OutMsg
  deriving DecidableEq, Repr

/-- `while (bf->hasNext()) bf->decompressNextLogStatement(...)`, runtime/Log.cc:1746-1754.
Each message but the last consumes at least one header byte of `mem`, so `fuel` equal to
`mem.length + 1` suffices. -/
def drain (ck : Checkpoint) (d : Dict) : Nat → BufFrag → List OutMsg → Option (BufFrag × List OutMsg)
  | 0, bf, out => some (bf, out)
  | fuel + 1, bf, out =>
    if bf.hasMore then
      match decompressNext ck d bf with
      | none => none
      | some (m, bf') => drain ck d fuel bf' (out ++ m.toList)
    else some (bf, out)

/-- One iteration of the loop of `internalDecompressUnordered`, runtime/Log.cc:1733-1774. -/
def unorderedStep (s : Dec) : Option Dec :=
  let (e, f) := s.file.peek
  match e with
  | .extent =>
    match readBufferExtent s.bf f with
    | none => none
    | some (false, _, bf, f1) => some { s with file := f1, bf := bf }
    | some (true, _, bf, f1) =>
      match drain s.ck s.dict (bf.mem.length + 1) bf s.out with
      | none => none
      | some (bf', out) => some { s with file := f1, bf := bf', out := out }
  | .checkpoint =>
    match readDictionary s.ck s.dict f with
    | none => none
    | some (ok, ck, d, f1) => some { s with file := f1, good := ok, ck := ck, dict := d }
  | .dict =>
    match readDictionaryFragment s.dict f with
    | none => none
    | some (ok, d, f1) => some { s with file := f1, good := ok, dict := d }
  | .invalid => some { s with file := f.skipPad }

/-- The loop of `internalDecompressUnordered`: `while (!feof(inputFd) && good)`,
runtime/Log.cc:1733.  `fuel` equal to the number of bytes plus one suffices
(`unorderedLoop_fuel`). -/
def unorderedLoop : Nat → Dec → Option Dec
  | 0, s => some s
  | fuel + 1, s =>
    if s.file.eof = false ∧ s.good = true then
      match unorderedStep s with
      | none => none
      | some s' => unorderedLoop fuel s'
    else some s

/-- `Decoder::open`, runtime/Log.cc:1085-1105, on an existing file with contents `bytes`.
`false`: the file is rejected. -/
def Dec.openFile (s : Dec) (bytes : List Byte) : Option (Bool × Dec) :=
  match readDictionary s.ck s.dict ⟨bytes, false⟩ with
  | none => none
  | some (false, ck, d, f) => some (false, { s with file := f, good := false, ck := ck, dict := d })
  | some (true, ck, d, f) =>
    some (true, { s with file := f, good := true, ck := ck, dict := d, out := [] })

/-- A newly constructed decoder, runtime/Log.cc:600-631. -/
def Dec.new (cap : Nat) : Dec where
  file := ⟨[], true⟩
  good := false
  ck := ⟨0, 0, [], 0, 0⟩
  dict := Dict.empty
  bf := BufFrag.init cap
  out := []

/-- `decompressUnordered`, runtime/Log.cc:2071-2075 and 1724-1783, after `open`: success and
the messages printed.  `bf` is the fragment obtained from `allocateBufferFragment` (1129-1138:
new or recycled, so its contents are arbitrary); the fragment of the iterator stays as it is. -/
def Dec.unordered (s : Dec) (bf : BufFrag) : Option (Bool × Dec) :=
  match unorderedLoop (s.file.inp.length + 1) { s with bf := bf } with
  | none => none
  | some s' => some (s'.good, { s' with bf := s.bf })

/-! ## Iterator -/

/-- The reading loop of `getNextLogStatement`, runtime/Log.cc:2009-2047; the flag is `false`
if the function returned `false` inside the loop. -/
def iterLoop : Nat → Dec → Option (Bool × Dec)
  | 0, s => some (true, s)
  | fuel + 1, s =>
    if s.bf.hasMore = false ∧ s.file.eof = false ∧ s.good = true then
      let (e, f) := s.file.peek
      match e with
      | .extent =>
        match readBufferExtent s.bf f with
        | none => none
        | some (false, _, bf, f1) => some (false, { s with file := f1, bf := bf, good := false })
        | some (true, _, bf, f1) => iterLoop fuel { s with file := f1, bf := bf }
      | .checkpoint =>
        match readDictionary s.ck s.dict f with
        | none => none
        | some (true, ck, d, f1) => iterLoop fuel { s with file := f1, ck := ck, dict := d }
        | some (false, ck, d, f1) =>
          some (false, { s with file := f1, ck := ck, dict := d, good := false })
      | .dict =>
        match readDictionaryFragment s.dict f with
        | none => none
        | some (ok, d, f1) => iterLoop fuel { s with file := f1, good := ok, dict := d }
      | .invalid => iterLoop fuel { s with file := f.skipPad }
    else some (true, s)

/-- `getNextLogStatement`, runtime/Log.cc:1987-2057.  Result: return value, the message
delivered, the decoder.  (A return value of `true` without a message is possible on corrupt
files only: `left < 0`.) -/
def Dec.next (s : Dec) : Option (Bool × Option OutMsg × Dec) :=
  if s.bf.hasMore then
    match decompressNext s.ck s.dict s.bf with
    | none => none
    | some (m, bf) => some (true, m, { s with bf := bf, out := s.out ++ m.toList })
  else if s.file.eof = true ∨ s.good = false then some (false, none, s)
  else
    match iterLoop (s.file.inp.length + 2) s with
    | none => none
    | some (false, s1) => some (false, none, s1)
    | some (true, s1) =>
      match decompressNext s1.ck s1.dict s1.bf with
      | none => none
      | some (m, bf) => some (m.isSome, m, { s1 with bf := bf, out := s1.out ++ m.toList })

/-- Call the iterator until it returns `false`, at most `fuel` times.  See runtime/Log.cc:1987-2057. -/
def Dec.iterate : Nat → Dec → Option Dec
  | 0, s => some s
  | fuel + 1, s =>
    match s.next with
    | none => none
    | some (false, _, s1) => some s1
    | some (true, _, s1) => Dec.iterate fuel s1

end NanoLog
