import Verif.GenCode
import Verif.Encode
import Verif.Decode

/-!
# Model of preprocessor mode: dictionary, encoder and decoder

With `PREPROCESSOR_NANOLOG` the static information of all log statements is known when the program
is built.  The generated function `writeDictionary` puts it behind the checkpoint at the start of a log
file, `encodeLogMsgs` uses the generated compression functions, and the decoder reads the information
back into raw memory (`rawMetadata`), or uses the generated decompression functions.

Files that also contain dictionary fragments (a program that mixes both versions of NanoLog) are outside
this model.  `none` is undefined behaviour or an abort.
-/

namespace NanoLog

/-! ## String literals of the generated code -/

/-- State of a C++ compiler inside a string literal: plain text, after a backslash, in an octal
escape (digits so far, value), in a hexadecimal escape. -/
inductive LitSt where
  | plain
  | esc
  | oct (n v : Nat)
  | hex (v : Option Nat)
  deriving DecidableEq, Repr

/-- Value of an octal digit. -/
def octDigit (c : Byte) : Option Nat :=
  if 48 ≤ c.toNat ∧ c.toNat ≤ 55 then some (c.toNat - 48) else none

/-- Value of a hexadecimal digit. -/
def hexDigit (c : Byte) : Option Nat :=
  if 48 ≤ c.toNat ∧ c.toNat ≤ 57 then some (c.toNat - 48)
  else if 65 ≤ c.toNat ∧ c.toNat ≤ 70 then some (c.toNat - 55)
  else if 97 ≤ c.toNat ∧ c.toNat ≤ 102 then some (c.toNat - 87)
  else none

/-- The simple escape sequences of C++. -/
def litEscs : List (Byte × Byte) :=
  [(ch 'n', 10), (ch 't', 9), (ch 'r', 13), (ch 'a', 7), (ch 'b', 8), (ch 'f', 12), (ch 'v', 11),
   (ch '\\', 92), (ch '"', 34), (ch '\'', 39), (ch '?', 63)]

/-- A character given by its number; out of range is an error. -/
def charOf (v : Nat) : Option (List Byte) := if v < 256 then some [UInt8.ofNat v] else none

/-- A character in plain text. -/
def litPlain (c : Byte) : LitSt × List Byte := if c = ch '\\' then (.esc, []) else (.plain, [c])

/-- The character after a backslash; `none`: unknown escape sequence (universal character names are not
modelled). -/
def litEsc (c : Byte) : Option (LitSt × List Byte) :=
  if c = ch 'x' then some (.hex none, [])
  else
    match octDigit c with
    | some v => some (.oct 1 v, [])
    | none => (litEscs.lookup c).map fun b => (.plain, [b])

/-- One character of a literal: new state and characters completed by it. -/
def litStep : LitSt → Byte → Option (LitSt × List Byte)
  | .plain, c => some (litPlain c)
  | .esc, c => litEsc c
  | .oct n v, c =>
    match octDigit c with
    | some d =>
      if n < 3 then some (.oct (n + 1) (8 * v + d), [])
      else (charOf v).map fun o => ((litPlain c).1, o ++ (litPlain c).2)
    | none => (charOf v).map fun o => ((litPlain c).1, o ++ (litPlain c).2)
  | .hex none, c => (hexDigit c).map fun d => (.hex (some d), [])
  | .hex (some v), c =>
    match hexDigit c with
    | some d => some (.hex (some (16 * v + d)), [])
    | none => (charOf v).map fun o => ((litPlain c).1, o ++ (litPlain c).2)

/-- End of the literal. -/
def litEnd : LitSt → Option (List Byte)
  | .plain => some []
  | .esc => none
  | .oct _ v => charOf v
  | .hex none => none
  | .hex (some v) => charOf v

/-- Characters of a literal from a state on. -/
def litRun : LitSt → List Byte → Option (List Byte)
  | st, [] => litEnd st
  | st, c :: s =>
    match litStep st c with
    | none => none
    | some (st', o) => (litRun st' s).map (o ++ ·)

/-- The array (without the terminating null character) of the string literal with the source text `s`
between the quotes; `none`: does not compile.  The generated code contains such literals at
preprocessor/FunctionGenerator.py:649, 672, 682, 684. -/
def cLit (s : List Byte) : Option (List Byte) := litRun .plain s

/-! ## Statements -/

/-- A log statement as found by the preprocessor: source text of the format and of the file name, line,
and value of the log level. -/
structure PStmt where
  fmt : List Byte
  file : List Byte
  line : Nat
  level : Nat
  deriving DecidableEq, Repr

/-- What the dictionary fragment generated for a statement writes,
preprocessor/FunctionGenerator.py:632-690: `nameLen` is the constant `len(filename) + 1`, `name` the
array of the literal for the file name, `frags` the print fragments with the arrays of their literals. -/
structure PEntry where
  nibbles : Nat
  level : Nat
  line : Nat
  nameLen : Nat
  name : List Byte
  frags : List Frag
  deriving DecidableEq, Repr

/-- The literals of the print fragments, preprocessor/FunctionGenerator.py:670-684. -/
def litFrags : List Frag → Option (List Frag)
  | [] => some []
  | f :: fs =>
    match cLit f.text, litFrags fs with
    | some t, some gs => some ({ f with text := t } :: gs)
    | _, _ => none

/-- The dictionary fragment of a statement, preprocessor/FunctionGenerator.py:632-690. -/
def PStmt.entry (s : PStmt) : Option PEntry :=
  match pySplit s.fmt with
  | none => none
  | some fs =>
    match pyFrags fs with
    | none => none
    | some gs =>
      match cLit s.file, litFrags gs with
      | some name, some frags => some ⟨pyNibbles fs, s.level, s.line, s.file.length + 1, name, frags⟩
      | _, _ => none

/-- All statements.  See preprocessor/FunctionGenerator.py:632-690. -/
def entriesOf : List PStmt → Option (List PEntry)
  | [] => some []
  | s :: ss =>
    match s.entry, entriesOf ss with
    | some e, some es => some (e :: es)
    | _, _ => none

/-! ## `writeDictionary` -/

/-- The bytes `stpcpy` copies before the terminator: up to the first null character. -/
def cstr (l : List Byte) : List Byte := l.takeWhile (· ≠ 0)

/-- The order of `enum FormatType`, runtime/Log.h:439-466; 0 is `NONE`. -/
def formatTypes : List FormatType :=
  [.uchar, .ushort, .uint, .ulong, .ulonglong, .uintmax, .sizeT, .wint, .schar, .short, .int, .long,
   .longlong, .intmax, .ptrdiff, .double, .longDouble, .voidPtr, .charPtr, .wcharPtr]

/-- Value of an enumerator. -/
def typeCode : Option FormatType → Nat
  | none => 0
  | some t => formatTypes.findIdx (· = t) + 1

/-- The enumerator with a value; `none`: `MAX_FORMAT_TYPE` or more. -/
def typeOfCode (n : Nat) : Option (Option FormatType) :=
  match n with
  | 0 => some none
  | n + 1 => (formatTypes[n]?).map some

/-- A `PrintFragment`, runtime/Log.h:412-429, as written at
preprocessor/FunctionGenerator.py:675-684.  The eighth bit of the first byte keeps its previous content
(`junk`). -/
def fragBytes (junk : Nat) (f : Frag) : List Byte :=
  UInt8.ofNat (typeCode f.ty + (if f.dynW then 32 else 0) + (if f.dynP then 64 else 0) + 128 * (junk % 2))
    :: (le 2 (f.text.length + 1) ++ (cstr f.text ++ [0]))

/-- The statements for the print fragments, preprocessor/FunctionGenerator.py:669-690; `space` is
`endOfBuffer - buffer`.  `none`: `return -1`. -/
def writeFrags (junk : Nat → Nat) : Nat → List Frag → Option (List Byte)
  | _, [] => some []
  | space, f :: fs =>
    if 3 + (f.text.length + 1) ≥ space then none
    else
      let b := fragBytes (junk space) f
      (writeFrags junk (space - b.length) fs).map (b ++ ·)

/-- `FormatMetadata`, runtime/Log.h:386-404, as written at preprocessor/FunctionGenerator.py:636-649. -/
def entryHead (e : PEntry) : List Byte :=
  le 1 e.nibbles ++ le 1 e.frags.length ++ le 1 e.level ++ le 4 e.line ++ le 2 e.nameLen
    ++ (cstr e.name ++ [0])

/-- `writeDictionary`, preprocessor/FunctionGenerator.py:266-271 with the fragments 632-690.  `none`:
the result is -1. -/
def writeDict (junk : Nat → Nat) : Nat → List PEntry → Option (List Byte)
  | _, [] => some []
  | space, e :: es =>
    if 9 + e.nameLen ≥ space then none
    else
      match writeFrags junk (space - (entryHead e).length) e.frags with
      | none => none
      | some fb =>
        (writeDict junk (space - (entryHead e).length - fb.length) es).map (entryHead e ++ fb ++ ·)

/-- `insertCheckpoint` with dictionary, runtime/Log.cc:46-79; `none`: no room (`false`).  `c` gives
the time fields, `ck` the old bits next to the entry type. -/
def checkpointP (junk : Nat → Nat) (ck : Nat) (space : Nat) (c : Checkpoint) (es : List PEntry) :
    Option (List Byte) :=
  if space < 40 then none
  else
    match writeDict junk (space - 40) es with
    | none => none
    | some bs =>
      some (checkpointBytes ck { c with newBytes := bs.length % 2 ^ 32, total := es.length % 2 ^ 32 }
        ++ bs)

/-! ## The decoder's memory for static information -/

/-- Overwrite memory from position `pos` on. -/
def pokeAt (pos : Nat) (bs raw : List Byte) : List Byte :=
  raw.take pos ++ bs ++ raw.drop (pos + bs.length)

/-- The loop over the print fragments in `readDictionary`, runtime/Log.cc:678-684: position after
them.  `fmtString.append(pf->formatFragment)` looks for the end of the string. -/
def skipFrags (raw : List Byte) (newEnd : Nat) : Nat → Nat → Option Nat
  | 0, pos => some pos
  | n + 1, pos =>
    if newEnd ≥ pos then
      match raw.drop pos with
      | _ :: a :: b :: rest =>
        match takeCStr rest with
        | none => none
        | some _ => skipFrags raw newEnd n (pos + 3 + unle [a, b])
      | _ => none
    else some pos

/-- The loop of `readDictionary`, runtime/Log.cc:670-687: final position and `fmtId2metadata` (as
offsets into the raw memory).  Every iteration advances by nine bytes or more. -/
def indexLoop (raw : List Byte) (newEnd : Nat) : Nat → Nat → List Nat → Option (Nat × List Nat)
  | 0, _, _ => none
  | fuel + 1, pos, ptrs =>
    if pos < newEnd then
      match takeN 9 (raw.drop pos) with
      | none => none
      | some (fm, _) =>
        match skipFrags raw newEnd (unle ((fm.drop 1).take 1)) (pos + 9 + unle (fm.drop 7)) with
        | none => none
        | some pos' => indexLoop raw newEnd fuel pos' (ptrs ++ [pos])
    else some (pos, ptrs)

/-- The static information in the decoder: `rawMetadata`, `endOfRawMetadata`, `fmtId2metadata`,
runtime/Log.h:969-981. -/
structure PDict where
  raw : List Byte
  fin : Nat
  ptrs : List Nat
  deriving DecidableEq, Repr

/-- `readDictionary(fd, true)`, runtime/Log.cc:646-707.  The bytes are read to `endOfRawMetadata`
before the old dictionary is flushed; the index is built from the start of the memory. -/
def readDictP (ck : Checkpoint) (d : PDict) (f : FileSt) : Option (Bool × Checkpoint × PDict × FileSt) :=
  let (bs, f1) := f.read 40
  if bs.length ≠ 40 then some (false, ck, d, f1)
  else
    match bs.head?, parseCheckpoint bs with
    | some b, some c =>
      if entryType b ≠ .checkpoint then none
      else
        let (md, f2) := f1.read c.newBytes
        if d.fin + md.length > d.raw.length then none
        else
          let raw := pokeAt d.fin md d.raw
          if md.length ≠ c.newBytes then some (false, c, { d with raw := raw }, f2)
          else
            match indexLoop raw md.length (md.length + 1) 0 [] with
            | none => none
            | some (pos, ptrs) =>
              some (decide (pos = md.length ∧ ptrs.length = c.total), c, ⟨raw, pos, ptrs⟩, f2)
    | _, _ => none

/-- The `n` print fragments at a position, as `decompressNextLogStatement` reads them,
runtime/Log.cc:1427-1443, 1660-1664. -/
def fragsAt : Nat → List Byte → Option (List Frag)
  | 0, _ => some []
  | n + 1, t :: a :: b :: rest =>
    match typeOfCode (t.toNat % 32), takeCStr rest with
    | some ty, some (text, _) =>
      (fragsAt n (rest.drop (unle [a, b]))).map
        (⟨ty, t.toNat / 32 % 2 = 1, t.toNat / 64 % 2 = 1, text⟩ :: ·)
    | _, _ => none
  | _ + 1, _ => none

/-- The `FormatMetadata` at a position, as `decompressNextLogStatement` reads it,
runtime/Log.cc:1410-1443. -/
def metaAt (mem : List Byte) : Option Meta :=
  match takeN 9 mem with
  | none => none
  | some (fm, rest) =>
    match takeCStr rest, fragsAt (unle ((fm.drop 1).take 1)) (rest.drop (unle (fm.drop 7))) with
    | some (file, _), some frags =>
      some { file := file, line := unle ((fm.drop 3).take 4), level := unle ((fm.drop 2).take 1)
             numNibbles := unle (fm.take 1), frags := frags }
    | _, _ => none

/-- `fmtId2metadata.at(id)` and what it points to.  See runtime/Log.cc:1407. -/
def PDict.lookup (d : PDict) (id : Nat) : Option Meta :=
  match d.ptrs[id]? with
  | none => none
  | some p => metaAt (d.raw.drop p)

/-! ## The encoder -/

/-- The generated functions: for every identifier the specifiers of the format from which they were
generated, preprocessor/FunctionGenerator.py:245-263. -/
abbrev GenFns := List (List PyFmt)

/-- What the generated record function puts into the staging buffer for a call of statement `id`,
preprocessor/FunctionGenerator.py:461-488 (`re->fmtId`, `re->entrySize`, `re->timestamp`, arguments). -/
def genEntry (id ts : Nat) (fs : List PyFmt) (args : List GArg) : Option (List Byte) :=
  (genRecord fs args).map fun r => le 4 id ++ le 4 r.2.1 ++ le 8 ts ++ r.2.2

/-- One past the last byte touched when a message is compressed (compare `encodeTouch`). -/
def genTouch (fs : List PyFmt) (id ts last : Nat) (argData out : List Byte) : Option Nat :=
  match readBack (pyArgs fs) (argsIdx false (pyArgs fs) 0) argData with
  | none => none
  | some (ss, _) =>
    some (max (compressLogHeaderWrites id)
      (max (scalarsTouch ((compressLogHeader id ts last).length + (ss.length + 1) / 2) ss) out.length))

/-- Body of the loop of the preprocessor version of `encodeLogMsgs`, runtime/Log.cc:228-262, compare
`encodeStep`.  A format id beyond the table is undefined. -/
def encodeStepP (cfg : Config) (junk : Nat → Nat) (fns : GenFns) (remaining : Int) (space last : Nat)
    (mem : List Byte) : Option (Option (List Byte × Nat × Nat)) :=
  match parseEntry mem with
  | none => none
  | some (id, esz, ts, argData) =>
    if (esz : Int) > remaining ∧ esz < cfg.staging / 2 then some none
    else
      let maxCompressed := 2 * esz % 2 ^ 32 + 16
      if maxCompressed ≥ 2 ^ 32 then none
      else if maxCompressed > space then some none
      else
        match fns[id]? with
        | none => none
        | some fs =>
          match genCompress (junk space) fs esz argData with
          | none => none
          | some args =>
            let out := compressLogHeader id ts last ++ args
            match genTouch fs id ts last argData out with
            | none => none
            | some touched => if touched > space then none else some (some (out, esz, ts))

/-- The loop of the preprocessor version of `encodeLogMsgs`, runtime/Log.cc:225-262. -/
def encodeLoopP (cfg : Config) (junk : Nat → Nat) (fns : GenFns) :
    Nat → Int → Nat → Nat → List Byte → Option (List Byte × Int)
  | 0, _, _, _, _ => none
  | fuel + 1, remaining, space, last, mem =>
    if remaining ≤ 0 then some ([], remaining)
    else
      match encodeStepP cfg junk fns remaining space last mem with
      | none => none
      | some none => some ([], remaining)
      | some (some (out, esz, ts)) =>
        match encodeLoopP cfg junk fns fuel (remaining - esz) (space - out.length) ts (mem.drop esz) with
        | none => none
        | some (outs, rem) => some (out ++ outs, rem)

/-- The preprocessor version of `encodeLogMsgs`, runtime/Log.cc:211-274, compare `encodeLogMsgs`. -/
def encodeLogMsgsP (cfg : Config) (junk : Nat → Nat) (fns : GenFns) (space : Nat) (mem : List Byte)
    (nbytes tid : Nat) (newPass : Bool) : Option (List Byte × Int) :=
  if 9 > space then some ([], 0)
  else if extentTouch tid > space then none
  else
    match encodeLoopP cfg junk fns (mem.length + 1) nbytes (space - extentHeaderSize tid) 0 mem with
    | none => none
    | some (body, rem) => some (extentBytes tid newPass body, nbytes - rem)

/-! ## A run of the background thread -/

/-- Output file and contents of the encoder's buffer. -/
structure PSt where
  file : List Byte
  buf : List Byte
  deriving DecidableEq, Repr

/-- A call of a log statement: identifier, time stamp, and arguments, each with the precision that
applies to it (for the specification; the code gets the arguments). -/
structure PCall where
  id : Nat
  ts : Nat
  args : List (GArg × Option Nat)
  deriving DecidableEq, Repr

/-- Operations on the encoder, compare `EncOp`: a new encoder (with checkpoint and dictionary), one
`encodeLogMsgs` on memory `mem` (the calls are for the specification only), and handing the buffer to
the file. -/
inductive POp where
  | start (junk : Nat → Nat) (ck : Nat) (c : Checkpoint)
  | batch (junk : Nat → Nat) (cs : List PCall) (mem : List Byte) (nbytes tid : Nat) (np : Bool)
  | flush

/-- One operation of a program with the static information `es` and generated functions `fns`, compare
`EncSt.step`; runtime/Log.cc:94-126 for the constructor (which exits if the dictionary does not fit). -/
def PSt.step (cfg : Config) (es : List PEntry) (fns : GenFns) (st : PSt) : POp → Option (PSt × Option Int)
  | .start junk ck c =>
    if st.buf ≠ [] then none
    else (checkpointP junk ck cfg.output c es).map fun bs => (⟨st.file, bs⟩, none)
  | .batch junk _ mem nbytes tid np =>
    (encodeLogMsgsP cfg junk fns (cfg.output - st.buf.length) mem nbytes tid np).map fun r =>
      (⟨st.file, st.buf ++ r.1⟩, some r.2)
  | .flush => some (⟨st.file ++ st.buf, []⟩, none)

/-- A sequence of operations; the list collects the results of the batches. -/
def PSt.run (cfg : Config) (es : List PEntry) (fns : GenFns) (st : PSt) :
    List POp → Option (PSt × List Int)
  | [] => some (st, [])
  | op :: ops =>
    match st.step cfg es fns op with
    | none => none
    | some (st1, n) => (PSt.run cfg es fns st1 ops).map fun r => (r.1, n.toList ++ r.2)

/-! ## The decoder -/

/-- The end of `decompressNextLogStatement`, runtime/Log.cc:1671-1680: the header of the next message;
`mem'` is the memory after the message. -/
def nextHeader (bf : BufFrag) (mem' : List Byte) : Option BufFrag :=
  let left' := bf.left - ((bf.mem.length : Int) - mem'.length)
  if left' ≤ 0 then some { bf with mem := mem', left := left', hasMore := false }
  else
    match decompressLogHeader bf.ts mem' with
    | none => none
    | some .bad => some { bf with mem := mem', left := left', hasMore := false }
    | some (.ok id ts rest) =>
      some { bf with mem := rest, left := left' - ((mem'.length : Int) - rest.length)
                     hasMore := true, id := id, ts := ts }

/-- `decompressNextLogStatement`, runtime/Log.cc:1315-1680, using the dictionary (no aggregation
function, dictionary not empty). -/
def decompressNextP (ck : Checkpoint) (d : PDict) (bf : BufFrag) : Option (Option OutMsg × BufFrag) :=
  if bf.left < 0 ∨ bf.hasMore = false then some (none, { bf with hasMore := false })
  else
    match d.lookup bf.id with
    | none => none
    | some m =>
      match decodeArgs m.numNibbles m.frags bf.mem with
      | none => none
      | some (parts, mem') =>
        (nextHeader bf mem').map fun bf' =>
          (some { tid := bf.tid, id := bf.id, ts := bf.ts, ck := ck, file := m.file, line := m.line
                  level := m.level, parts := parts }, bf')

/-- `while (bf->hasNext()) ...`, runtime/Log.cc:1746-1754, see `drain`. -/
def drainP (ck : Checkpoint) (d : PDict) : Nat → BufFrag → List OutMsg → Option (BufFrag × List OutMsg)
  | 0, bf, out => some (bf, out)
  | fuel + 1, bf, out =>
    if bf.hasMore then
      match decompressNextP ck d bf with
      | none => none
      | some (m, bf') => drainP ck d fuel bf' (out ++ m.toList)
    else some (bf, out)

/-- The decoder. -/
structure PDec where
  file : FileSt
  good : Bool
  ck : Checkpoint
  dict : PDict
  bf : BufFrag
  out : List OutMsg
  deriving DecidableEq, Repr

/-- One iteration of the loop of `internalDecompressUnordered`, runtime/Log.cc:1733-1774, see
`unorderedStep`.  A dictionary fragment is outside this model. -/
def stepP (s : PDec) : Option PDec :=
  let (e, f) := s.file.peek
  match e with
  | .extent =>
    match readBufferExtent s.bf f with
    | none => none
    | some (false, _, bf, f1) => some { s with file := f1, bf := bf }
    | some (true, _, bf, f1) =>
      match drainP s.ck s.dict (bf.mem.length + 1) bf s.out with
      | none => none
      | some (bf', out) => some { s with file := f1, bf := bf', out := out }
  | .checkpoint =>
    match readDictP s.ck s.dict f with
    | none => none
    | some (ok, ck, d, f1) => some { s with file := f1, good := ok, ck := ck, dict := d }
  | .dict => none
  | .invalid => some { s with file := f.skipPad }

/-- The loop of `internalDecompressUnordered`, runtime/Log.cc:1733. -/
def loopP : Nat → PDec → Option PDec
  | 0, s => some s
  | fuel + 1, s =>
    if s.file.eof = false ∧ s.good = true then
      match stepP s with
      | none => none
      | some s' => loopP fuel s'
    else some s

/-- A new decoder, runtime/Log.cc:600-631, with `raw` the contents of the memory allocated for static
information, `open`, runtime/Log.cc:1085-1105, and `decompressUnordered`, 2071-2075, with a fragment
`bf`.  Result: were the file opened and read without error, and the messages printed. -/
def decodeFileP (raw : List Byte) (bf : BufFrag) (bytes : List Byte) : Option (Bool × List OutMsg) :=
  match readDictP ⟨0, 0, [], 0, 0⟩ ⟨raw, 0, []⟩ ⟨bytes, false⟩ with
  | none => none
  | some (false, _, _, _) => some (false, [])
  | some (true, ck, d, f) =>
    (loopP (bytes.length + 1) ⟨f, true, ck, d, bf, []⟩).map fun s => (s.good, s.out)

/-! ## The generated decompression functions -/

/-- Static context printed by the branch of `decompressNextLogStatement` for generated functions
(`LogMetadata`, preprocessor/FunctionGenerator.py:186-191). -/
structure GMeta where
  file : List Byte
  line : Nat
  level : Nat
  deriving DecidableEq, Repr

/-- A message decoded by a generated function: id, time stamp, context, arguments given to `fprintf`. -/
structure GMsg where
  tid : Nat
  id : Nat
  ts : Nat
  ctx : GMeta
  args : List PArg
  deriving DecidableEq, Repr

/-- `decompressNextLogStatement` with an aggregation function or with an empty dictionary,
runtime/Log.cc:1369-1404.  `metas` is `logId2Metadata`; it is read before the id is compared with
`numLogIds`.  `oob` is what happens when it is read beyond its end: `none` a crash, `some` some
values. -/
def decompressNextG (fns : GenFns) (metas : List GMeta) (oob : Option GMeta) (bf : BufFrag) :
    Option (Option GMsg × BufFrag) :=
  if bf.left < 0 ∨ bf.hasMore = false then some (none, { bf with hasMore := false })
  else
    match (match metas[bf.id]? with | some m => some m | none => oob) with
    | none => none
    | some ctx =>
      match fns[bf.id]? with
      | none => some (none, bf)
      | some fs =>
        match genDecompress fs bf.mem with
        | none => none
        | some (vs, mem') => (nextHeader bf mem').map fun bf' => (some ⟨bf.tid, bf.id, bf.ts, ctx, vs⟩, bf')

/-- `while (bf->hasNext()) ...`, runtime/Log.cc:1746-1754, with generated functions; `none` for
undefined behaviour, `some none` if `fuel` iterations do not suffice. -/
def drainG (fns : GenFns) (metas : List GMeta) (oob : Option GMeta) :
    Nat → BufFrag → List GMsg → Option (Option (BufFrag × List GMsg))
  | 0, bf, out => if bf.hasMore then some none else some (some (bf, out))
  | fuel + 1, bf, out =>
    if bf.hasMore then
      match decompressNextG fns metas oob bf with
      | none => none
      | some (m, bf') => drainG fns metas oob fuel bf' (out ++ m.toList)
    else some (some (bf, out))

end NanoLog
