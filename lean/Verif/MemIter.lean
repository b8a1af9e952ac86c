import Verif.MicroMem

/-! The iterator interface of the decoder with its memory for static information, for files of either
mode (compare `Verif.Decode` for C++17 mode with the static information as a list). -/

namespace NanoLog

/-- The reading loop of `getNextLogStatement`, runtime/Log.cc:2009-2047; the flag is `false`
if the function returned `false` inside the loop. -/
def iterLoopM : Nat → PDec → Option (Bool × PDec)
  | 0, s => some (true, s)
  | fuel + 1, s =>
    if s.bf.hasMore = false ∧ s.file.eof = false ∧ s.good = true then
      let (e, f) := s.file.peek
      match e with
      | .extent =>
        match readBufferExtent s.bf f with
        | none => none
        | some (false, _, bf, f1) => some (false, { s with file := f1, bf := bf, good := false })
        | some (true, _, bf, f1) => iterLoopM fuel { s with file := f1, bf := bf }
      | .checkpoint =>
        match readDictP s.ck s.dict f with
        | none => none
        | some (true, ck, d, f1) => iterLoopM fuel { s with file := f1, ck := ck, dict := d }
        | some (false, ck, d, f1) =>
          some (false, { s with file := f1, ck := ck, dict := d, good := false })
      | .dict =>
        match readDictionaryFragmentM s.dict f with
        | none => none
        | some (ok, d, f1) => iterLoopM fuel { s with file := f1, good := ok, dict := d }
      | .invalid => iterLoopM fuel { s with file := f.skipPad }
    else some (true, s)

/-- `getNextLogStatement`, runtime/Log.cc:1987-2057.  Result: return value, the message
delivered, the decoder. -/
def PDec.next (s : PDec) : Option (Bool × Option OutMsg × PDec) :=
  if s.bf.hasMore then
    match decompressNextP s.ck s.dict s.bf with
    | none => none
    | some (m, bf) => some (true, m, { s with bf := bf, out := s.out ++ m.toList })
  else if s.file.eof = true ∨ s.good = false then some (false, none, s)
  else
    match iterLoopM (s.file.inp.length + 2) s with
    | none => none
    | some (false, s1) => some (false, none, s1)
    | some (true, s1) =>
      match decompressNextP s1.ck s1.dict s1.bf with
      | none => none
      | some (m, bf) => some (m.isSome, m, { s1 with bf := bf, out := s1.out ++ m.toList })

/-- A caller of `getNextLogStatement` (runtime/Log.cc:1987) that stops when it returns `false`, as
`runMinMaxMean`, runtime/LogDecompressor.cc:296-315, at most `fuel` calls. -/
def PDec.iterate : Nat → PDec → Option PDec
  | 0, s => some s
  | fuel + 1, s =>
    match s.next with
    | none => none
    | some (false, _, s1) => some s1
    | some (true, _, s1) => PDec.iterate fuel s1

/-- A new decoder, runtime/Log.cc:600-631, with `raw` the contents of the memory allocated for static
information, and `open`, runtime/Log.cc:1085-1105: success and the decoder. -/
def openM (raw : List Byte) (bf : BufFrag) (bytes : List Byte) : Option (Bool × PDec) :=
  (readDictP ⟨0, 0, [], 0, 0⟩ ⟨raw, 0, []⟩ ⟨bytes, false⟩).map fun r =>
    (r.1, ⟨r.2.2.2, r.1, r.2.1, r.2.2.1, bf, []⟩)

end NanoLog
