import Verif.PreDict
import Verif.FmtLemmas

/-!
# The decoder's memory for static information in C++17 mode

`createMicroCode` (runtime/Log.cc:825-979) as it works on memory: it writes a `FormatMetadata`, the
file name and the `PrintFragment`s to `endOfRawMetadata`, increments 8-bit counters in place, and goes
back to the last fragment to extend it.  `Verif.FmtParse` describes the same function as a computation of
a list of fragments; `Verif.Props.MicroMem` proves that what the interpreter reads from the memory is that
list.  Positions are offsets from `rawMetadata`.
-/

namespace NanoLog

/-- A write to `rawMetadata`, runtime/Log.cc:620 (the memory is allocated once).  `none`: the write leaves the
allocation.  The code has no such test. -/
def writeAt (pos : Nat) (bs raw : List Byte) : Option (List Byte) :=
  if pos + bs.length ≤ raw.length then some (pokeAt pos bs raw) else none

/-- `k` increments of the `uint8_t` at `pos` (`++fm->numNibbles`, `++fm->numPrintFragments`,
runtime/Log.cc:926-932, 944). -/
def bumpAt (pos k : Nat) (raw : List Byte) : Option (List Byte) :=
  match raw[pos]? with
  | none => none
  | some b => writeAt pos (le 1 (b.toNat + k)) raw

/-- The assignments to the bit fields of the `PrintFragment` at `pf`, runtime/Log.cc:910-913, 953-954 with
runtime/Log.h:412-429.  The eighth bit keeps its content. -/
def setBits (pf : Nat) (ty : Option FormatType) (dynW dynP : Bool) (raw : List Byte) : Option (List Byte) :=
  match raw[pf]? with
  | none => none
  | some b =>
    writeAt pf [UInt8.ofNat (typeCode ty + (if dynW then 32 else 0) + (if dynP then 64 else 0)
      + 128 * (b.toNat / 128))] raw

/-- The local variables of `createMicroCode`, runtime/Log.cc:834-859: the memory, `*microCode`, `i`,
`consecutivePercents`, `startOfNextFragment`, `pf`. -/
structure MicroSt where
  raw : List Byte
  w : Nat
  i : Nat
  pct : Nat
  start : Nat
  pf : Option Nat
  deriving DecidableEq, Repr

/-- A fragment for the conversion `m` that ends before position `i`, runtime/Log.cc:889-944 after the
test of the type.  `s` is the format string with its terminator, `p` the position of the
`FormatMetadata`. -/
def emitFrag (s : List Byte) (p : Nat) (st : MicroSt) (i : Nat) (m : RMatch) (ty : FormatType) :
    Option MicroSt :=
  let dynW := decide (m.width.head? = some (ch '*'))
  let dynP := decide (m.prec.head? = some (ch '*'))
  let len := (i - st.start + 1) % 2 ^ 16
  let w := st.w + 3 + len
  if st.start + len > s.length then none
  else
    (setBits st.w (some ty) dynW dynP st.raw).bind fun r1 =>
    (writeAt (st.w + 1) (le 2 len) r1).bind fun r2 =>
    (writeAt (st.w + 3) ((s.drop st.start).take len) r2).bind fun r3 =>
    (writeAt (w - 1) [0] r3).bind fun r4 =>
    (bumpAt p ((if m.spec ≠ ch 's' then 1 else 0) + (if dynW then 1 else 0) + (if dynP then 1 else 0)) r4).bind
      fun r5 =>
    (bumpAt (p + 1) 1 r5).map fun r6 => ⟨r6, w, i, 0, i, some st.w⟩

/-- The loop of `createMicroCode`, runtime/Log.cc:866-945.  `false`: `return false`, `*microCode` is
back at its start.  The string ends at its terminator for `std::regex_search`.  Every iteration
increases `i`, so `fuel` equal to the length suffices. -/
def microMemLoop (s : List Byte) (p : Nat) : Nat → MicroSt → Option (Bool × MicroSt)
  | 0, st => some (true, st)
  | fuel + 1, st =>
    match s[st.i]? with
    | none => some (true, st)
    | some c =>
      if c = ch '\\' then microMemLoop s p fuel { st with i := st.i + 2 }
      else if c ≠ ch '%' then microMemLoop s p fuel { st with i := st.i + 1, pct := 0 }
      else
        let t := cstr (s.drop st.i)
        match (if (st.pct + 1) % 2 = 0 then none else regexMatch t) with
        | none => microMemLoop s p fuel { st with i := st.i + 1, pct := st.pct + 1 }
        | some m =>
          match getFormatType m.len m.spec with
          | none => some (false, { st with w := p })
          | some ty =>
            match emitFrag s p st (st.i + (t.length - m.rest.length)) m ty with
            | none => none
            | some st' => microMemLoop s p fuel st'

/-- After the loop, runtime/Log.cc:947-967.  `downCast` (runtime/Common.h:55-62) asserts that the value
fits. -/
def finishMicro (s : List Byte) (p : Nat) (st : MicroSt) : Option (List Byte × Nat) :=
  match st.pf with
  | none =>
    if s.length ≥ 2 ^ 16 then none
    else
      (writeAt (p + 1) (le 1 1) st.raw).bind fun r1 =>
      (setBits st.w none false false r1).bind fun r2 =>
      (writeAt (st.w + 1) (le 2 s.length) r2).bind fun r3 =>
      (writeAt (st.w + 3) s r3).map fun r4 => (r4, st.w + 3 + s.length)
  | some q =>
    let len := unle ((st.raw.drop (q + 1)).take 2)
    let ending := s.length - st.start
    if len + ending - 1 ≥ 2 ^ 16 then none
    else
      (writeAt (q + 3 + len - 1) (s.drop st.start) st.raw).bind fun r1 =>
      (writeAt (q + 1) (le 2 (len + ending - 1)) r1).map fun r2 => (r2, st.w + ending)

/-- `createMicroCode`, runtime/Log.cc:825-979, with `*microCode = p`: its result, the memory and the new
`*microCode`.  `fmt` and `file` are the strings without terminator.  The fields are assigned in another
order than in the code. -/
def microMem (raw : List Byte) (p : Nat) (fmt file : List Byte) (line level : Nat) :
    Option (Bool × List Byte × Nat) :=
  let head := le 1 0 ++ le 1 0 ++ le 1 level ++ le 4 line ++ le 2 (file.length + 1) ++ (file ++ [0])
  match writeAt p head raw with
  | none => none
  | some r =>
    let s := fmt ++ [0]
    match microMemLoop s p s.length ⟨r, p + head.length, 0, 0, 0, none⟩ with
    | none => none
    | some (false, st) => some (false, st.raw, st.w)
    | some (true, st) => (finishMicro s p st).map fun x => (true, x.1, x.2)

/-- A new log statement in `readDictionaryFragment`, runtime/Log.cc:1058-1066: the pointer is pushed, then
the record is written; the result of `createMicroCode` is ignored. -/
def PDict.addInfo (d : PDict) (i : LogInfo) : Option PDict :=
  (microMem d.raw d.fin i.fmt i.file i.line i.sev).map fun r => ⟨r.2.1, r.2.2, d.ptrs ++ [d.fin]⟩

/-- New log statements one after the other: the calls `createMicroCode` of the loop of
`readDictionaryFragment`, runtime/Log.cc:1012-1067. -/
def PDict.addInfos (d : PDict) : List LogInfo → Option PDict
  | [] => some d
  | i :: is => (d.addInfo i).bind fun d' => d'.addInfos is

/-- The loop of `readDictionaryFragment`, runtime/Log.cc:1012-1067, on the decoder's memory; see
`readDictLoop`. -/
def readDictLoopM : Nat → Nat → Nat → PDict → FileSt → Option (Bool × PDict × FileSt)
  | 0, _, _, d, f => some (true, d, f)
  | fuel + 1, done, total, d, f =>
    if done < total ∧ f.eof = false then
      match readLogInfo f with
      | none => none
      | some (none, f1) => some (false, d, f1)
      | some (some (i, n), f1) =>
        match d.addInfo i with
        | none => none
        | some d' => readDictLoopM fuel (done + n) total d' f1
    else some (true, d, f)

/-- `readDictionaryFragment`, runtime/Log.cc:990-1075. -/
def readDictionaryFragmentM (d : PDict) (f : FileSt) : Option (Bool × PDict × FileSt) :=
  let (hdr, f1) := f.read 8
  if hdr.length ≠ 8 then some (false, d, f1)
  else readDictLoopM (f1.inp.length + 1) 8 (unle (hdr.take 4) / 4) d f1

/-- One iteration of the loop of `internalDecompressUnordered`, runtime/Log.cc:1733-1774, for files
of either mode. -/
def stepM (s : PDec) : Option PDec :=
  match s.file.peek with
  | (.dict, f) =>
    match readDictionaryFragmentM s.dict f with
    | none => none
    | some (ok, d, f1) => some { s with file := f1, good := ok, dict := d }
  | _ => stepP s

/-- The loop of `internalDecompressUnordered`, runtime/Log.cc:1733. -/
def loopM : Nat → PDec → Option PDec
  | 0, s => some s
  | fuel + 1, s =>
    if s.file.eof = false ∧ s.good = true then
      match stepM s with
      | none => none
      | some s' => loopM fuel s'
    else some s

/-- `decodeFileP` for files of either mode: a new decoder with memory `raw`, `open`,
`decompressUnordered` with a fragment `bf`. -/
def decodeFileM (raw : List Byte) (bf : BufFrag) (bytes : List Byte) : Option (Bool × List OutMsg) :=
  match readDictP ⟨0, 0, [], 0, 0⟩ ⟨raw, 0, []⟩ ⟨bytes, false⟩ with
  | none => none
  | some (false, _, _, _) => some (false, [])
  | some (true, ck, d, f) =>
    (loopM (f.inp.length + 1) ⟨f, true, ck, d, bf, []⟩).map fun s => (s.good, s.out)

end NanoLog
