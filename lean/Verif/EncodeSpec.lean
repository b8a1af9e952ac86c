import Verif.Encode
import Verif.Decode
import Verif.ArgsSpec
import Verif.FmtSpec
import Mathlib.Data.List.Forall2

/-!
# Specification of log calls and of what they must print
-/

namespace NanoLog

/-- A log statement whose format string is one both sides of NanoLog understand (a sequence
of text, `%%` and conversions), small enough for the 8-bit counters of the decoder and the
16-bit lengths of the dictionary.  The parameters used to store and compress the arguments
are those the compile-time parser finds in the format string. -/
structure Site.Supported (s : Site) (is : List FItem) : Prop where
  wf : ∀ i ∈ is, i.WF
  fmt : s.info.fmt = render is
  parsed : analyze s.info.fmt = some s.params
  nibbles : numNibblesNeeded (itemParams is) ≤ 255
  frags : (pieces is).length ≤ 255
  fileLen : s.info.file.length < 65535
  fmtLen : s.info.fmt.length < 65535
  fileNul : ∀ b ∈ s.info.file, b ≠ 0
  fmtNul : ∀ b ∈ s.info.fmt, b ≠ 0
  line : s.info.line < 2 ^ 32
  sev : s.info.sev < 256

/-- Static information that the fields of a dictionary entry can hold: strings without NUL
whose length including the terminator fits 16 bits. -/
structure LogInfo.Fits (i : LogInfo) : Prop where
  fileLen : i.file.length < 65535
  fmtLen : i.fmt.length < 65535
  fileNul : ∀ b ∈ i.file, b ≠ 0
  fmtNul : ∀ b ∈ i.fmt, b ≠ 0
  line : i.line < 2 ^ 32
  sev : i.sev < 256

/-- The decoder's description of a log statement. -/
def microOf (s : Site) : Option Meta :=
  createMicroCode s.info.fmt s.info.file s.info.line s.info.sev

/-- The dictionary describes exactly `sites`. -/
def Describes (d : Dict) (sites : List Site) : Prop :=
  d.idx = List.range sites.length ∧ sites.map microOf = d.metas.map some

/-- A log call that the C++ compiler accepts, of a size the entry header can describe. -/
structure LogCall.OK (sites : List Site) (c : LogCall) (s : Site) : Prop where
  site : sites[c.id]? = some s
  tys : c.args.map Arg.ty = s.tys
  valid : ∀ a ∈ c.args, a.Valid
  id : c.id < 2 ^ 32
  ts : c.ts < 2 ^ 64
  size : c.size s < 2 ^ 31 - 16

/-- `Prints sites tid ck c m`: log call `c` of thread `tid` must be printed as `m` by a
decoder that uses checkpoint `ck`: its own id, time stamp, static information, and for each
conversion what `printf` must receive. -/
inductive Prints (sites : List Site) (tid : Nat) (ck : Checkpoint) : LogCall → OutMsg → Prop where
  | mk {c : LogCall} {s : Site} {is : List FItem} {ds : List Decoded}
      (ok : c.OK sites s) (sup : s.Supported is) (pr : FormatPrints (pieces is) c.args ds) :
      Prints sites tid ck c
        { tid := tid, id := c.id, ts := c.ts, ck := ck, file := s.info.file
          line := s.info.line, level := s.info.sev, parts := ds }

/-- Bytes in the staging buffer for a sequence of calls; calls of unknown statements do not
occur. -/
def queueBytes (sites : List Site) : List LogCall → List Byte
  | [] => []
  | c :: cs =>
    (match sites[c.id]? with
     | some s => entryBytes s c
     | none => []) ++ queueBytes sites cs

/-- Staging buffer bytes used by a call. -/
def callSize (sites : List Site) (c : LogCall) : Nat :=
  match sites[c.id]? with
  | some s => c.size s
  | none => 0

/-- Staging buffer bytes used by a sequence of calls. -/
def queueSize (sites : List Site) (cs : List LogCall) : Nat := (cs.map (callSize sites)).sum

end NanoLog
