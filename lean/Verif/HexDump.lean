import Verif.FmtParse

/-!
# `Util::format` and `Util::hexDump`

`runtime/Util.cc`.  The text that `vsnprintf` produces for a format and its arguments is a parameter
(`format.c`-like conversions are the subject of the Fmt modules); `%02x` and `%016lx` are modelled here.
-/

namespace NanoLog

/-- The bytes of a C string: up to the first null character (`s = buf`, runtime/Util.cc:63). -/
def cText (l : List Byte) : List Byte := l.takeWhile (· ≠ 0)

/-- Results of `vformat`: the string; the assertion of line 61 fails; undefined behaviour (overflow of `r + 1` in
line 66). -/
inductive FmtOut where
  | ok (s : List Byte)
  | assertFails
  | ub
  deriving DecidableEq, Repr

/-- Result of `vsnprintf(buf, size, ...)`, runtime/Util.cc:60, for the text `t`: -1 if its length is not an `int` (EOVERFLOW), otherwise
its length, and `buf` has the first `size - 1` bytes and a null character. -/
def vsn (t : List Byte) (size : Nat) : Int × List Byte :=
  if 2 ^ 31 ≤ t.length then (-1, []) else (t.length, t.take (size - 1) ++ [0])

/-- The loop of `vformat`, runtime/Util.cc:54-67; `fuel` bounds the rounds.  The second component counts the
rounds. -/
def vformatLoop (t : List Byte) : Nat → Nat → Nat → Option (FmtOut × Nat)
  | 0, _, _ => none
  | fuel + 1, size, rounds =>
    let (r, buf) := vsn t size
    if r < 0 then some (.assertFails, rounds + 1)
    else if r < size then some (.ok (cText buf), rounds + 1)
    else if r + 1 ≥ 2 ^ 31 then some (.ub, rounds + 1)
    else vformatLoop t fuel (r + 1).toNat (rounds + 1)

/-- `vformat`, runtime/Util.cc:46-70 (`bufSize = 1024`). -/
def vformat (fuel : Nat) (t : List Byte) : Option (FmtOut × Nat) := vformatLoop t fuel 1024 0

/-- One digit of `%x` (`%016lx`, `%02x`, runtime/Util.cc:89, 97). -/
def hexChar (d : Nat) : Byte := if d < 10 then UInt8.ofNat (48 + d) else UInt8.ofNat (87 + d)

/-- The digits printed by `%x` for a positive number; nothing for 0 (runtime/Util.cc:89, 97). -/
def hexPos (n : Nat) : List Byte :=
  if n = 0 then [] else hexPos (n / 16) ++ [hexChar (n % 16)]
termination_by n
decreasing_by omega

/-- `%0wx`: at least `w` digits (runtime/Util.cc:89, 97). -/
def hexPad (w n : Nat) : List Byte :=
  let d := if n = 0 then [hexChar 0] else hexPos n
  List.replicate (w - d.length) 48 ++ d

/-- `isprint` in the C locale, runtime/Util.cc:100. -/
def isPrint (b : Byte) : Bool := 32 ≤ b ∧ b ≤ 126

/-- `snprintf` into an array of `size` characters, then read as a string (runtime/Util.cc:89, 94, 97). -/
def snText (size : Nat) (t : List Byte) : List Byte := cText (t.take (size - 1) ++ [0])

/-- `hex[j]`, runtime/Util.cc:93-99. -/
def hexCell (buf : Nat → Byte) (bytes k : Nat) : List Byte :=
  if k ≥ bytes then snText 3 [32, 32] else snText 3 (hexPad 2 (buf k).toNat)

/-- `ascii[j]`, runtime/Util.cc:95, 100-103. -/
def asciiCell (buf : Nat → Byte) (bytes k : Nat) : Byte :=
  if k ≥ bytes then 0 else if isPrint (buf k) then buf k else 46

/-- `%s %s ... %s`: the texts with single spaces between them (runtime/Util.cc:109). -/
def spaced : List (List Byte) → List Byte
  | [] => []
  | [a] => a
  | a :: r => a ++ 32 :: spaced r

/-- One round of the loop, runtime/Util.cc:84-113. -/
def hexLine (buf : Nat → Byte) (bytes i : Nat) : List Byte :=
  snText 17 (hexPad 16 i) ++ [32, 32] ++ spaced ((List.range 8).map fun j => hexCell buf bytes (i + j)) ++ [32, 32] ++
    spaced ((List.range 8).map fun j => hexCell buf bytes (i + (8 + j))) ++ [32, 32] ++ [124] ++
    cText ((List.range 16).map (fun j => asciiCell buf bytes (i + j)) ++ [0]) ++ [124, 10]

/-- The loop of `hexDump`, runtime/Util.cc:84-113; `i` is a `uint64_t`; `none`: the loop has not ended after `fuel` rounds.
(`format` returns the line: it is shorter than 1024 characters and contains no null character.) -/
def hexLoop (buf : Nat → Byte) (bytes : Nat) : Nat → Nat → Option (List Byte)
  | 0, _ => none
  | fuel + 1, i =>
    if i < bytes then (hexLoop buf bytes fuel ((i + 16) % 2 ^ 64)).map (hexLine buf bytes i ++ ·) else some []

/-- `hexDump`, runtime/Util.cc:77-115. -/
def hexDump (fuel : Nat) (buf : Nat → Byte) (bytes : Nat) : Option (List Byte) := hexLoop buf bytes fuel 0

/-! ## Specification: reading a dump -/

/-- Value of a hexadecimal digit. -/
def dumpVal (b : Byte) : Option Nat :=
  if 48 ≤ b ∧ b ≤ 57 then some (b.toNat - 48) else if 97 ≤ b ∧ b ≤ 102 then some (b.toNat - 87) else none

/-- A number in hexadecimal. -/
def readHex : List Byte → Nat → Option Nat
  | [], n => some n
  | b :: r, n => match dumpVal b with | some d => readHex r (16 * n + d) | none => none

/-- Bytes as pairs of digits with spaces around them, up to the bar. -/
def readCells : List Byte → Option (List Byte)
  | [] => none
  | 124 :: _ => some []
  | 32 :: r => readCells r
  | [_] => none
  | a :: b :: r =>
    match dumpVal a, dumpVal b, readCells r with
    | some x, some y, some l => some (UInt8.ofNat (16 * x + y) :: l)
    | _, _, _ => none

/-- A line: offset and bytes. -/
def readLine (l : List Byte) : Option (Nat × List Byte) :=
  match readHex (l.take 16) 0, readCells (l.drop 16) with
  | some o, some bs => some (o, bs)
  | _, _ => none

/-- What is between the bars. -/
def barText (l : List Byte) : List Byte := ((l.dropWhile (· ≠ 124)).drop 1).dropLast.dropLast

/-- Split after each newline. -/
def lines : List Byte → List Byte → List (List Byte)
  | [], [] => []
  | [], acc => [acc]
  | b :: r, acc => if b = 10 then (acc ++ [b]) :: lines r [] else lines r (acc ++ [b])

end NanoLog
