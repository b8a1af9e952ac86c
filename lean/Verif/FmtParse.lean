import Verif.Args

/-!
# Model of the two format string parsers

Compile time: `getParamInfo` and friends in `runtime/NanoLogCpp17.h`.
Decode time: `createMicroCode` in `runtime/Log.cc`.
A format string is its list of bytes without the terminating NUL.
-/

namespace NanoLog

/-- Byte of an ASCII character. -/
def ch (c : Char) : Byte := UInt8.ofNat c.toNat

/-- `isTerminal`, runtime/NanoLogCpp17.h:55-69. -/
def isTerminal (b : Byte) : Bool :=
  b ∈ [ch 'd', ch 'i', ch 'u', ch 'o', ch 'x', ch 'X', ch 'f', ch 'F', ch 'e', ch 'E',
       ch 'g', ch 'G', ch 'a', ch 'A', ch 'c', ch 'p', ch '%', ch 's', ch 'n']

/-- `isFlag`, runtime/NanoLogCpp17.h:81-85. -/
def isFlag (b : Byte) : Bool := b ∈ [ch '-', ch '+', ch ' ', ch '#', ch '0']

/-- `isLength`, runtime/NanoLogCpp17.h:97-102. -/
def isLength (b : Byte) : Bool := b ∈ [ch 'h', ch 'l', ch 'j', ch 'z', ch 't', ch 'L']

/-- `isDigit`, runtime/NanoLogCpp17.h:112-115. -/
def isDigit (b : Byte) : Bool := 48 ≤ b.toNat ∧ b.toNat ≤ 57

/-- Decimal value accumulated by `precision = 10*precision + (fmt[pos] - '0')`,
runtime/NanoLogCpp17.h:185-189. -/
def digitsVal (l : List Byte) : Nat := l.foldl (fun a b => 10 * a + (b.toNat - 48)) 0

/-- Result of `getParamInfo`: a parameter type, `INVALID` (no such parameter), or an
exception, which is a compilation error because the call is `constexpr`.  See runtime/NanoLogCpp17.h:131-236. -/
inductive PInfo where
  | param (p : ParamType)
  | invalid
  | throw
  deriving DecidableEq, Repr

/-- Width part of a specifier, runtime/NanoLogCpp17.h:163-173: `some rest` after skipping
the width; the flag says whether a `*` was consumed. -/
def skipWidth (s : List Byte) : Bool × List Byte :=
  match s with
  | b :: bs => if b = ch '*' then (true, bs) else (false, s.dropWhile isDigit)
  | [] => (false, [])

/-- Precision part, runtime/NanoLogCpp17.h:175-193.  `none` no precision; `some none`
dynamic; `some (some ds)` static digits `ds` (possibly empty, value 0). -/
def skipPrec (s : List Byte) : Option (Option (List Byte)) × List Byte :=
  match s with
  | b :: bs =>
    if b = ch '.' then
      match bs with
      | c :: cs => if c = ch '*' then (some none, cs)
                   else (some (some (bs.takeWhile isDigit)), bs.dropWhile isDigit)
      | [] => (some (some []), [])
    else (none, s)
  | [] => (none, [])

/-- `getParamInfo`, runtime/NanoLogCpp17.h:131-236.  `fuel` bounds the number of loop
iterations; every iteration consumes a character, so `fuel = length` suffices.  Integer
overflow of `precision` in a constant expression is a compilation error (`throw`). -/
def getParamInfoF : Nat → List Byte → Nat → PInfo
  | 0, _, _ => .invalid
  | _ + 1, [], _ => .invalid
  | fuel + 1, b :: s, n =>
    if b ≠ ch '%' then getParamInfoF fuel s n
    else if s.head? = some (ch '%') then getParamInfoF fuel s.tail n
    else
      let s1 := s.dropWhile isFlag
      let (dynW, s2) := skipWidth s1
      if dynW ∧ n = 0 then .param .dynWidth
      else
        let n1 := if dynW then n - 1 else n
        let (prec, s3) := skipPrec s2
        if prec = some none ∧ n1 = 0 then .param .dynPrec
        else
          let n2 := if prec = some none then n1 - 1 else n1
          let tooBig : Bool := match prec with
            | some (some ds) => decide (digitsVal ds ≥ 2 ^ 31)
            | _ => false
          if tooBig then .throw
          else
            let s4 := s3.dropWhile isLength
            match s4 with
            | [] => .throw
            | t :: s5 =>
              if ¬ isTerminal t then .throw
              else if t = ch 'n' then .throw
              else if n2 ≠ 0 then getParamInfoF fuel s5 (n2 - 1)
              else if t ≠ ch 's' then .param .nonString
              else match prec with
                | some none => .param .strDyn
                | none => .param .strNo
                | some (some ds) => .param (.strPrec (digitsVal ds))

/-- `getParamInfo(fmt, paramNum)`.  See runtime/NanoLogCpp17.h:131-236. -/
def getParamInfo (s : List Byte) (n : Nat) : PInfo := getParamInfoF s.length s n

/-- `countFmtParams` together with `analyzeFormatString`, runtime/NanoLogCpp17.h:263-315: the
parameter types in order up to the first `INVALID`; `none` if an exception was thrown.
A string of length `L` has at most `2 L` parameters (`fuel`). -/
def analyzeF (s : List Byte) : Nat → Nat → Option (List ParamType)
  | 0, _ => some []
  | fuel + 1, k =>
    match getParamInfo s k with
    | .invalid => some []
    | .throw => none
    | .param p => (analyzeF s fuel (k + 1)).map (p :: ·)

/-- The parameter array of a format string.  See runtime/NanoLogCpp17.h:240-289. -/
def analyze (s : List Byte) : Option (List ParamType) := analyzeF s (2 * s.length + 1) 0

/-! ## The decoder's parser -/

/-- A prioritized nondeterministic matcher (ECMAScript backtracking semantics): all ways to
match a prefix, most preferred first.  See runtime/Log.cc:847-853. -/
abbrev Matcher := List Byte → List (List Byte × List Byte)

/-- Greedy `[class]+`: all non-empty prefixes in the class, longest first.  See runtime/Log.cc:848-850. -/
def many1 (p : Byte → Bool) : Matcher
  | [] => []
  | b :: bs =>
    if p b then (many1 p bs).map (fun m => (b :: m.1, m.2)) ++ [([b], bs)] else []

/-- A single character of a class.  See runtime/Log.cc:849-852. -/
def one (p : Byte → Bool) : Matcher
  | [] => []
  | b :: bs => if p b then [([b], bs)] else []

/-- Optional group `(...)?`, greedy.  See runtime/Log.cc:848-851. -/
def optM (m : Matcher) : Matcher := fun s => m s ++ [([], s)]

/-- Alternation.  See runtime/Log.cc:849-851. -/
def altM (a b : Matcher) : Matcher := fun s => a s ++ b s

/-- A literal string.  See runtime/Log.cc:847-851. -/
def lit (l : List Byte) : Matcher := fun s =>
  if s.take l.length = l ∧ l.length ≤ s.length then [(l, s.drop l.length)] else []

/-- The groups of a match of the decoder's regular expression.  See runtime/Log.cc:847-853, 898-901. -/
structure RMatch where
  width : List Byte
  prec : List Byte
  len : List Byte
  spec : Byte
  rest : List Byte
  deriving DecidableEq, Repr

/-- Specifier class of the regular expression, runtime/Log.cc:852. -/
def isSpec (b : Byte) : Bool :=
  b ∈ [ch 'd', ch 'i', ch 'u', ch 'o', ch 'x', ch 'X', ch 'f', ch 'F', ch 'e', ch 'E',
       ch 'g', ch 'G', ch 'a', ch 'A', ch 'c', ch 's', ch 'p', ch 'n']

/-- Length alternatives in the order of the regular expression, runtime/Log.cc:851. -/
def lenAlts : Matcher :=
  altM (lit [ch 'h', ch 'h']) <| altM (lit [ch 'h']) <| altM (lit [ch 'l']) <|
  altM (lit [ch 'l', ch 'l']) <| altM (lit [ch 'j']) <| altM (lit [ch 'z']) <|
  altM (lit [ch 'Z']) <| altM (lit [ch 't']) <| lit [ch 'L']

/-- Precision group, runtime/Log.cc:850: `(\.(\d+|\*))`; returns group 4 (without the dot). -/
def precM : Matcher := fun s =>
  match s with
  | b :: bs => if b = ch '.' then altM (many1 isDigit) (one (· = ch '*')) bs else []
  | [] => []

/-- All matches of the regular expression at the start of the string, most preferred first,
runtime/Log.cc:847-853. -/
def regexAll (s : List Byte) : List RMatch :=
  match s with
  | [] => []
  | b :: s0 =>
    if b = ch '%' then
      (optM (many1 isFlag) s0).flatMap fun m1 =>
      (optM (altM (many1 isDigit) (one (· = ch '*'))) m1.2).flatMap fun m2 =>
      (optM precM m2.2).flatMap fun m4 =>
      (optM lenAlts m4.2).flatMap fun m5 =>
      (one isSpec m5.2).flatMap fun m6 =>
        match m6.1 with
        | [c] => [{ width := m2.1, prec := m4.1, len := m5.1, spec := c, rest := m6.2 }]
        | _ => []
    else []

/-- `std::regex_search(formatString + i, match, regex)` with the anchored expression.  See runtime/Log.cc:883. -/
def regexMatch (s : List Byte) : Option RMatch := (regexAll s).head?

/-- `getFormatType`, runtime/Log.cc:722-801; `none` is `MAX_FORMAT_TYPE`. -/
def getFormatType (len : List Byte) (spec : Byte) : Option FormatType :=
  if (spec = ch 'd' ∨ spec = ch 'i') then
    if len = [] then some .int
    else if len.length = 2 ∧ len.head? = some (ch 'h') then some .schar
    else if len.length = 2 ∧ len.head? = some (ch 'l') then some .longlong
    else if len.head? = some (ch 'h') then some .short
    else if len.head? = some (ch 'l') then some .long
    else if len.head? = some (ch 'j') then some .intmax
    else if len.head? = some (ch 'z') then some .sizeT
    else if len.head? = some (ch 't') then some .ptrdiff
    else none
  else if (spec = ch 'u' ∨ spec = ch 'o' ∨ spec = ch 'x' ∨ spec = ch 'X') then
    if len = [] then some .uint
    else if len.length = 2 ∧ len.head? = some (ch 'h') then some .uchar
    else if len.length = 2 ∧ len.head? = some (ch 'l') then some .ulonglong
    else if len.head? = some (ch 'h') then some .ushort
    else if len.head? = some (ch 'l') then some .ulong
    else if len.head? = some (ch 'j') then some .uintmax
    else if len.head? = some (ch 'z') then some .sizeT
    else if len.head? = some (ch 't') then some .ptrdiff
    else none
  else if spec = ch 's' then
    if len = [] then some .charPtr
    else if len.head? = some (ch 'l') then some .wcharPtr
    else none
  else if spec = ch 'p' then
    if len = [] then some .voidPtr else none
  else if spec = ch 'f' ∨ spec = ch 'F' ∨ spec = ch 'e' ∨ spec = ch 'E' ∨
          spec = ch 'g' ∨ spec = ch 'G' ∨ spec = ch 'a' ∨ spec = ch 'A' then
    if len = [ch 'L'] then some .longDouble else some .double
  else if spec = ch 'c' then
    if len = [] then some .int
    else if len.head? = some (ch 'l') then some .wint
    else none
  else none

/-- Working state of `createMicroCode`: text since `startOfNextFragment`, finished
fragments, number of nibbles.  See runtime/Log.cc:825-845, 855-859. -/
structure MState where
  text : List Byte
  frags : List Frag
  nibbles : Nat
  deriving DecidableEq, Repr

/-- Append text to the last fragment (runtime/Log.cc:958-967). -/
def extendLast : List Frag → List Byte → List Frag
  | [], _ => []
  | [f], t => [{ f with text := f.text ++ t }]
  | f :: fs, t => f :: extendLast fs t

/-- Main loop of `createMicroCode`, runtime/Log.cc:866-945, on the characters from position
`i`; the loop also looks at the terminating NUL, which changes nothing.  `none`: the error
return for an unknown length/specifier combination. `fuel`: each iteration consumes a
character. -/
def microLoop : Nat → List Byte → Nat → MState → Option MState
  | 0, s, _, st => some { st with text := st.text ++ s }
  | _ + 1, [], _, st => some st
  | fuel + 1, c :: s, pct, st =>
    if c = ch '\\' then
      match s with
      | [] => some { st with text := st.text ++ [c] }
      | d :: s' => microLoop fuel s' pct { st with text := st.text ++ [c, d] }
    else if c ≠ ch '%' then microLoop fuel s 0 { st with text := st.text ++ [c] }
    else
      match (if (pct + 1) % 2 = 0 then none else regexMatch (c :: s)) with
      | none => microLoop fuel s (pct + 1) { st with text := st.text ++ [c] }
      | some m =>
        match getFormatType m.len m.spec with
        | none => none
        | some ty =>
          let dynW := m.width.head? = some (ch '*')
          let dynP := m.prec.head? = some (ch '*')
          let matched := (c :: s).take ((c :: s).length - m.rest.length)
          microLoop fuel m.rest 0
            { text := []
              frags := st.frags ++ [{ ty := some ty, dynW := dynW, dynP := dynP
                                      text := st.text ++ matched }]
              nibbles := st.nibbles + (if m.spec ≠ ch 's' then 1 else 0) +
                (if dynW then 1 else 0) + (if dynP then 1 else 0) }

/-- The micro code of a log statement: `FormatMetadata` with its `PrintFragment`s,
runtime/Log.h:386-429. -/
structure Meta where
  file : List Byte
  line : Nat
  level : Nat
  numNibbles : Nat
  frags : List Frag
  deriving DecidableEq, Repr

/-- `createMicroCode`, runtime/Log.cc:825-979.  `numNibbles` and `numPrintFragments` are
`uint8_t`; the interpreter looks at the first `numPrintFragments` fragments only. -/
def createMicroCode (fmt file : List Byte) (line level : Nat) : Option Meta := do
  let st ← microLoop fmt.length fmt 0 ⟨[], [], 0⟩
  let frags :=
    if st.frags = [] then [{ ty := none, dynW := false, dynP := false, text := fmt }]
    else extendLast st.frags st.text
  let count := if st.frags = [] then 1 else st.frags.length % 256
  some { file := file, line := line, level := level
         numNibbles := st.nibbles % 256, frags := frags.take count }

end NanoLog
