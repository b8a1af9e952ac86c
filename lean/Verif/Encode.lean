import Verif.Args
import Verif.Entries

/-!
# Model of the encoder, `runtime/Log.cc` (`Log::Encoder`)

`none` stands for an abort or an access outside the memory given.
-/

namespace NanoLog

/-- Compile-time constants of runtime/Config.h: `STAGING_BUFFER_SIZE`, `OUTPUT_BUFFER_SIZE`,
`RELEASE_THRESHOLD`.  Parameters here, so that the theorems cover every configuration.
See runtime/Config.h:36-54. -/
structure Config where
  staging : Nat
  output : Nat
  release : Nat
  deriving DecidableEq, Repr

/-- The values in runtime/Config.h: 1<<20 (line 36), 1<<26 (line 41), half the first
(line 54). -/
def Config.default : Config := ⟨2 ^ 20, 2 ^ 26, 2 ^ 19⟩

/-- A registered log statement (`StaticLogInfo`, runtime/Log.h:121-172): the dictionary part,
the parameter types, and the argument types its compression function was instantiated
with. -/
structure Site where
  info : LogInfo
  params : List ParamType
  tys : List ATy
  deriving DecidableEq, Repr

/-- `StaticLogInfo::numNibbles`, computed at runtime/NanoLogCpp17.h:1084. -/
def Site.numNibbles (s : Site) : Nat := numNibblesNeeded s.params

/-- The dynamic part of one execution of a log statement.  See runtime/Log.h:181-196. -/
structure LogCall where
  id : Nat
  ts : Nat
  args : List Arg
  deriving DecidableEq, Repr

/-- `entrySize` of the `UncompressedEntry`: 16 header bytes plus the arguments,
runtime/NanoLogCpp17.h:1025-1026 and 1037. -/
def LogCall.size (s : Site) (c : LogCall) : Nat := 16 + argAllocSize s.params c.args

/-- Bytes a log call puts into the staging buffer, runtime/NanoLogCpp17.h:1028-1040 with
`UncompressedEntry`, runtime/Log.h:181-196. -/
def entryBytes (s : Site) (c : LogCall) : List Byte :=
  le 4 c.id ++ le 4 (c.size s) ++ le 8 c.ts ++ storedArgs s.params c.args

/-- `reinterpret_cast<UncompressedEntry*>(from)`: id, entry size, time stamp, arguments.
See runtime/Log.cc:227, 323; runtime/Log.h:181-196. -/
def parseEntry (mem : List Byte) : Option (Nat × Nat × Nat × List Byte) := do
  let (a, r1) ← takeN 4 mem
  let (b, r2) ← takeN 4 r1
  let (c, r3) ← takeN 8 r2
  some (unle a, unle b, unle c, r3)

/-! ## Physical writes

`pack` and `memcpy` touch bytes beyond the position to which the write pointer is finally
advanced.  The functions below compute one past the last byte touched. -/

/-- Number of bytes `pack` physically writes for a scalar, runtime/Packer.h:126, 145-172,
209-211, 226. -/
def Scalar.writes : Scalar → Nat
  | .int t _ => packIntWrites t
  | .ptr _ => 8
  | .f32 _ => 4
  | .f64 _ => 8
  | .f80 _ => 16

/-- One past the last byte touched by packing `ss` one after the other at offset `pos`.
See runtime/Packer.h:98-230. -/
def scalarsTouch (pos : Nat) : List Scalar → Nat
  | [] => pos
  | s :: ss => max (pos + s.writes) (scalarsTouch (pos + s.pack.2.length) ss)

/-- The scalars packed by the first pass of `compress`, runtime/NanoLogCpp17.h:796-815. -/
def passScalars : List ATy → List ParamType → List Byte → Option (List Scalar)
  | t :: ts, p :: ps, inp =>
    if p.code > -3 then do
      let (lenB, in1) ← takeN 4 inp
      let (_, in2) ← takeN (unle lenB) in1
      passScalars ts ps in2
    else do
      let (raw, in1) ← takeN t.size inp
      let ss ← passScalars ts ps in1
      some (readScalar t raw :: ss)
  | [], [], _ => some []
  | _, _, _ => none

/-- One past the last byte touched by `encodeStep` relative to the write position at its
start: the header with its overshoot, the packed scalars with theirs, and the end of the
message (nibbles and strings are written exactly).  See runtime/Log.cc:322-390. -/
def encodeTouch (site : Site) (id ts last : Nat) (argData out : List Byte) : Option Nat := do
  let ss ← passScalars site.tys site.params argData
  let hdr := (compressLogHeader id ts last).length
  some (max (compressLogHeaderWrites id)
    (max (scalarsTouch (hdr + (site.numNibbles + 1) / 2) ss) out.length))

/-! ## Encoding a batch -/

/-- Body of the loop of `encodeLogMsgs`, runtime/Log.cc:322-384.  `some none`: the loop is
left.  Otherwise: bytes written, entry size, time stamp.  `junk space` is the old content of
the unused half byte when `space` bytes are free.  A write beyond the free space is `none`.
(The counters of metadata misses and the error messages are not modelled.) -/
def encodeStep (cfg : Config) (junk : Nat → Nat) (sites : List Site) (remaining : Int)
    (space last : Nat) (mem : List Byte) : Option (Option (List Byte × Nat × Nat)) := do
  let (id, esz, ts, argData) ← parseEntry mem
  match sites[id]? with
  | none => some none
  | some site =>
    if (esz : Int) > remaining ∧ esz < cfg.staging / 2 then some none
    else
      let maxCompressed := 2 * esz % 2 ^ 32 + 16
      if maxCompressed ≥ 2 ^ 32 then none
      else if maxCompressed > space then some none
      else do
        let (args, _) ← compress (junk space) site.numNibbles site.tys site.params argData
        let out := compressLogHeader id ts last ++ args
        let touched ← encodeTouch site id ts last argData out
        if touched > space then none else some (some (out, esz, ts))

/-- The loop of `encodeLogMsgs`, runtime/Log.cc:322-385.  Result: bytes written and final
`remaining`.  `none` also if an entry size of 0 makes the loop run for ever. -/
def encodeLoop (cfg : Config) (junk : Nat → Nat) (sites : List Site) :
    Nat → Int → Nat → Nat → List Byte → Option (List Byte × Int)
  | 0, _, _, _, _ => none
  | fuel + 1, remaining, space, last, mem =>
    if remaining ≤ 0 then some ([], remaining)
    else
      match encodeStep cfg junk sites remaining space last mem with
      | none => none
      | some none => some ([], remaining)
      | some (some (out, esz, ts)) =>
        match encodeLoop cfg junk sites fuel (remaining - esz) (space - out.length) ts
            (mem.drop esz) with
        | none => none
        | some (outs, rem) => some (out ++ outs, rem)

/-- One past the last byte touched by `encodeBufferExtentStart`, runtime/Log.cc:428-441: the
packed header of 5 bytes, and for an id of 16 or more the 4 bytes `pack` copies. -/
def extentTouch (tid : Nat) : Nat := if tid < 16 then 5 else 5 + 4

/-- `encodeLogMsgs`, runtime/Log.cc:306-402, with `space` bytes free in the output buffer.
Result: bytes appended to the output and the return value.  `mem` is the readable memory from
`from` on, `nbytes` the limit passed.  A write beyond the free space is `none`. -/
def encodeLogMsgs (cfg : Config) (junk : Nat → Nat) (sites : List Site) (space : Nat)
    (mem : List Byte) (nbytes tid : Nat) (newPass : Bool) : Option (List Byte × Int) :=
  if 9 > space then some ([], 0)
  else if extentTouch tid > space then none
  else
    match encodeLoop cfg junk sites (mem.length + 1) nbytes (space - extentHeaderSize tid) 0
        mem with
    | none => none
    | some (body, rem) => some (extentBytes tid newPass body, nbytes - rem)

end NanoLog
