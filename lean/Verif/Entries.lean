import Verif.Packer

/-!
# Model of the records of a compressed log, `runtime/Log.h` and `runtime/Log.cc`

Records: message header (`CompressedEntry`), extent header (`BufferExtent`), `Checkpoint`,
`DictionaryFragment` with `CompressedLogInfo` entries.  Bit-fields are allocated from the
least significant bit.
-/

namespace NanoLog

/-- `EntryType`, runtime/Log.h:203-218. -/
inductive EntryType where
  | invalid | dict | extent | checkpoint
  deriving DecidableEq, Repr

/-- The two-bit type field of a byte (`UnknownHeader::entryType`, runtime/Log.h:226-229;
used by `peekEntryType`, 477-506). -/
def entryType (b : Byte) : EntryType :=
  match b.toNat % 4 with
  | 0 => .invalid
  | 1 => .dict
  | 2 => .extent
  | _ => .checkpoint

/-! ## Message header -/

/-- `compressLogHeader`, runtime/Log.h:530-548.  `id` is a `uint32_t`, `ts` and `last` are
`uint64_t`. -/
def compressLogHeader (id ts last : Nat) : List Byte :=
  let idp := packU 4 id
  let tsp := packI64 (ITy.i64.cast ((ts : Int) - last))
  let b := 1 + 4 * ((idp.1 - 1) % 4) + 16 * (tsp.1 % 16)
  UInt8.ofNat b :: (idp.2 ++ tsp.2)

/-- The value `compressLogHeader` returns, runtime/Log.h:545-547 (unused by the encoder). -/
def compressLogHeaderReturn (id ts last : Nat) : Nat :=
  let idp := packU 4 id
  let tsp := packI64 (ITy.i64.cast ((ts : Int) - last))
  1 + ((idp.1 - 1) % 4 + 1) + (tsp.1 % 16) % 8

/-- One past the last byte touched by `compressLogHeader`, relative to its start: `pack`
copies 4 bytes for the id and 8 bytes for the time difference (runtime/Packer.h:126). -/
def compressLogHeaderWrites (id : Nat) : Nat :=
  let idp := packU 4 id
  max (1 + 4) (1 + idp.2.length + 8)

/-- Result of `decompressLogHeader`: `bad` is the return value `false`.  See runtime/Log.h:565-583. -/
inductive Hdr where
  | bad
  | ok (id ts : Nat) (rest : List Byte)
  deriving DecidableEq, Repr

/-- `decompressLogHeader`, runtime/Log.h:565-584.  `none`: read beyond the memory. -/
def decompressLogHeader (last : Nat) (mem : List Byte) : Option Hdr :=
  match mem with
  | [] => none
  | b :: bs =>
    if entryType b = .dict then do
      let (id, r1) ← unpackInt .u32 (b.toNat / 4 % 4 + 1) bs
      let (d, r2) ← unpackInt .i64 (b.toNat / 16) r1
      some (.ok id.toNat ((d + last) % 2 ^ 64).toNat r2)
    else some .bad

/-! ## Extent header -/

/-- Thread id field of an extent header and the packed id bytes after it,
`encodeBufferExtentStart`, runtime/Log.cc:434-441. -/
def extentId (tid : Nat) : Bool × Nat × List Byte :=
  if tid < 16 then (true, tid % 16, [])
  else
    let p := packU 4 tid
    (false, p.1 % 16, p.2)

/-- Bytes of a finished extent: header (`encodeBufferExtentStart`, runtime/Log.cc:419-448),
with the length field as finally patched by `encodeLogMsgs` (388-392), then the encoded
messages `body`.  The length counts the whole extent including its header. -/
def extentBytes (tid : Nat) (newPass : Bool) (body : List Byte) : List Byte :=
  let (short, nib, idb) := extentId tid
  let b := 2 + (if newPass then 4 else 0) + (if short then 8 else 0) + 16 * nib
  UInt8.ofNat b :: (le 4 (5 + idb.length + body.length) ++ idb ++ body)

/-- Number of bytes `encodeBufferExtentStart` advances the write position by.  See runtime/Log.cc:419-448. -/
def extentHeaderSize (tid : Nat) : Nat := 5 + (extentId tid).2.2.length

/-! ## Checkpoint -/

/-- `struct Checkpoint`, runtime/Log.h:309-333.  `freq` is the object representation of the
`double cyclesPerSecond`. -/
structure Checkpoint where
  rdtsc : Nat
  unixTime : Int
  freq : List Byte
  newBytes : Nat
  total : Nat
  deriving DecidableEq, Repr

/-- The checkpoint's fields are in range. -/
def Checkpoint.Valid (c : Checkpoint) : Prop :=
  c.rdtsc < 2 ^ 64 ∧ ITy.i64.InRange c.unixTime ∧ c.freq.length = 8 ∧
  c.newBytes < 2 ^ 32 ∧ c.total < 2 ^ 32

instance instDecidableCheckpointValid (c : Checkpoint) : Decidable c.Valid := by unfold Checkpoint.Valid; infer_instance

/-- `insertCheckpoint`, runtime/Log.cc:46-61: 40 bytes.  The 62 bits next to the type keep
the previous content of the buffer: `junk`. -/
def checkpointBytes (junk : Nat) (c : Checkpoint) : List Byte :=
  le 8 (3 + 4 * junk) ++ le 8 c.rdtsc ++ le 8 (c.unixTime % 2 ^ 64).toNat ++ c.freq ++
  le 4 c.newBytes ++ le 4 c.total

/-- The fields of a checkpoint image, runtime/Log.h:603-613. -/
def parseCheckpoint (bs : List Byte) : Option Checkpoint := do
  let (_, r0) ← takeN 8 bs
  let (a, r1) ← takeN 8 r0
  let (t, r2) ← takeN 8 r1
  let (f, r3) ← takeN 8 r2
  let (n, r4) ← takeN 4 r3
  let (k, _) ← takeN 4 r4
  some { rdtsc := unle a, unixTime := ITy.i64.cast (unle t), freq := f
         newBytes := unle n, total := unle k }

/-! ## Dictionary fragment -/

/-- The static information of a log statement that goes into the dictionary
(`StaticLogInfo`, runtime/Log.h:119-165: filename, line, severity, format string; without
NUL terminators). -/
structure LogInfo where
  file : List Byte
  line : Nat
  sev : Nat
  fmt : List Byte
  deriving DecidableEq, Repr

/-- One `CompressedLogInfo` with the two strings, runtime/Log.cc:166-176.  The lengths
include the terminating NUL and are truncated to 16 bits. -/
def logInfoBytes (i : LogInfo) : List Byte :=
  le 1 i.sev ++ le 4 i.line ++ le 2 (i.file.length + 1) ++ le 2 (i.fmt.length + 1) ++
  (i.file ++ [0]) ++ (i.fmt ++ [0])

/-- `nextDictSize`, runtime/Log.cc:156-160. -/
def logInfoSize (i : LogInfo) : Nat := 9 + (i.file.length + 1) + (i.fmt.length + 1)

/-- The loop of `encodeNewDictionaryEntries`, runtime/Log.cc:154-178: encode entries while
they fit into `space` bytes. Result: encoded entries and bytes. -/
def dictEntries (space : Nat) : List LogInfo → Nat × List Byte
  | [] => (0, [])
  | i :: is =>
    if logInfoSize i ≥ space then (0, [])
    else
      let (n, bs) := dictEntries (space - logInfoSize i) is
      (n + 1, logInfoBytes i ++ bs)

/-- `encodeNewDictionaryEntries`, runtime/Log.cc:140-184: `pos` is `currentPosition`, `all`
the static information known.  Result: new position and bytes appended; nothing if there is
no room for the fragment header. -/
def encodeDict (space pos : Nat) (all : List LogInfo) : Nat × List Byte :=
  if 8 ≥ space then (pos, [])
  else
    let (n, bs) := dictEntries (space - 8) (all.drop pos)
    (pos + n, le 4 (1 + 4 * ((8 + bs.length) % 2 ^ 30)) ++ le 4 (pos + n) ++ bs)

end NanoLog
