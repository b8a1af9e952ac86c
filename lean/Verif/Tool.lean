import Verif.Ordered
import Verif.Rcdf

/-!
# Model of the program `decompressor`, `runtime/LogDecompressor.cc` (`main`)

The choice of the command and the commands `decompress` and `decompressUnordered`.  The commands
`rcdfTime` and `minMaxMean` are in `Rcdf.lean` and `Aggregate.lean`; here they only appear as results of
the choice.  `none` is an abort or undefined behaviour, as in `Decode.lean`.
-/

namespace NanoLog

/-- `isspace` in the C locale, used by `strtol`.  See runtime/LogDecompressor.cc:187. -/
def isSpaceC (c : Byte) : Bool := c == 32 || (9 ≤ c && c ≤ 13)

/-- Value of a digit.  See runtime/LogDecompressor.cc:187. -/
def digitC (c : Byte) : Option Nat := if 48 ≤ c ∧ c ≤ 57 then some (c.toNat - 48) else none

/-- The number formed by the leading digits (`acc` so far, `any`: there was one).
See runtime/LogDecompressor.cc:187. -/
def leadDigits (acc : Nat) (any : Bool) : List Byte → Option Nat
  | [] => if any then some acc else none
  | c :: cs =>
    match digitC c with
    | some d => leadDigits (10 * acc + d) true cs
    | none => if any then some acc else none

/-- Result of `std::stoi`: a value, or one of the two exceptions.  See runtime/LogDecompressor.cc:187-199. -/
inductive Stoi where
  | ok (v : Int)
  | invalid
  | range
  deriving DecidableEq, Repr

/-- `std::stoi` without the second argument, as called in runtime/LogDecompressor.cc:187: white space, a sign,
digits; what follows is ignored. -/
def stoi (s : List Byte) : Stoi :=
  let s := s.dropWhile isSpaceC
  let (neg, s) := match s with
    | c :: cs => if c = 45 then (true, cs) else if c = 43 then (false, cs) else (false, s)
    | [] => (false, s)
  match leadDigits 0 false s with
  | none => .invalid
  | some n =>
    let v : Int := if neg then -n else n
    if -2 ^ 31 ≤ v ∧ v < 2 ^ 31 then .ok v else .range

/-- Characters of an ASCII string as bytes. -/
def bytesOf (s : String) : List Byte := s.toList.map ch

/-- What `main` does, runtime/LogDecompressor.cc:157-212: print the usage (exit status 1); report a wrong id
(-1); or run a command on the log file. -/
inductive Cmd where
  | help
  | badId
  | decompress
  | unordered
  | rcdf
  | minMaxMean (id : Int)
  | find (needle : List Byte)
  deriving DecidableEq, Repr

/-- The comparisons, runtime/LogDecompressor.cc:158-212.  `pre`: compiled with `PREPROCESSOR_NANOLOG`.  `args`
are the arguments after the name of the program. -/
def parseCmd (pre : Bool) (args : List (List Byte)) : Cmd :=
  match args with
  | cmd :: _ :: rest =>
    if cmd = bytesOf "decompress" then .decompress
    else if cmd = bytesOf "decompressUnordered" then .unordered
    else if cmd = bytesOf "rcdfTime" then .rcdf
    else if pre then
      if cmd = bytesOf "minMaxMean" then
        match rest with
        | [] => .help
        | id :: _ =>
          match stoi id with
          | .invalid | .range => .badId
          | .ok v => if v < 0 then .badId else .minMaxMean v
      else if cmd = bytesOf "find" then
        match rest with
        | [] => .help
        | needle :: _ => .find needle
      else .help
    else .help
  | _ => .help

/-- The loop of `decompressUnordered`, runtime/LogDecompressor.cc:279-281: the number of calls that returned
`true`.  `fuel` bounds the number of calls. -/
def Dec.countLoop : Nat → Nat → Dec → Option (Nat × Dec)
  | 0, c, s => some (c, s)
  | fuel + 1, c, s =>
    match s.next with
    | none => none
    | some (false, _, s1) => some (c, s1)
    | some (true, _, s1) => Dec.countLoop fuel (c + 1) s1

/-- Number of calls that always suffices (each call leaves less to read). -/
def Dec.calls (s : Dec) : Nat := (s.file.inp.length + 1) * (max s.bf.stor.length 5 + 2) + s.bf.mem.length + 2

/-- What is visible from outside: exit status, the messages printed, and the number in the last line.
See runtime/LogDecompressor.cc:157-287. -/
structure ToolOut where
  status : Int
  out : List OutMsg
  total : Option Int
  deriving DecidableEq, Repr

/-- `decompress`, runtime/LogDecompressor.cc:268-275.  The number is `logMsgsPrinted` of the decoder
(runtime/Log.cc:1102, 1934, 1966), which counts the messages printed. -/
def toolOrdered (cap : Nat) (pick : Nat → List BufFrag → Nat) (s : Dec) : Option ToolOut :=
  (s.ordered cap [] pick).map fun s' => ⟨0, s'.out, some s'.out.length⟩

/-- `decompressUnordered`, runtime/LogDecompressor.cc:277-287. -/
def toolUnordered (s : Dec) : Option ToolOut :=
  (Dec.countLoop s.calls 0 s).map fun r => ⟨0, r.2.out, some r.1⟩

/-- `main`, runtime/LogDecompressor.cc:157-287, for the commands that print messages; the file is given by its
contents, `none` if it cannot be opened.  The decoder is a new one (line 214). -/
def tool (pre : Bool) (cap : Nat) (pick : Nat → List BufFrag → Nat) (args : List (List Byte))
    (file : Option (List Byte)) : Option ToolOut :=
  match parseCmd pre args with
  | .help => some ⟨1, [], none⟩
  | .badId => some ⟨-1, [], none⟩
  | c =>
    match file.map fun bytes => (Dec.new cap).openFile bytes with
    | none => some ⟨1, [], none⟩
    | some none => none
    | some (some (false, _)) => some ⟨1, [], none⟩
    | some (some (true, s)) =>
      match c with
      | .decompress => toolOrdered cap pick s
      | .unordered => toolUnordered s
      | _ => some ⟨0, [], none⟩

/-- `strstr`: is `needle` found in `hay`, searching from each position.  See runtime/LogDecompressor.cc:55. -/
def strstr (hay needle : List Byte) : Bool :=
  match hay with
  | [] => needle.isEmpty
  | c :: cs => needle.isPrefixOf (c :: cs) || strstr cs needle

/-- `printLogMetadataContainingSubstring`, runtime/LogDecompressor.cc:48-58: the ids found, for format strings without null
characters. -/
def findIds (needle : List Byte) (i : Nat) : List (List Byte) → List Nat
  | [] => []
  | f :: fs => if strstr f needle then i :: findIds needle (i + 1) fs else findIds needle (i + 1) fs

end NanoLog
