import Verif.PreParse

/-!
# Model of the format string parser of the preprocessor
(`splitAndParseTypesInFmtString`, `preprocessor/FunctionGenerator.py`) and of the static
information the generated code writes (`writeDictionary`).

The format string is the source text of the literal: escape sequences are not converted.
-/

namespace NanoLog

/-- A Python string constant. -/
def pyStr (s : String) : List Byte := s.toList.map ch

/-- The scanning loop, preprocessor/FunctionGenerator.py:748-786, on index `i`; `pct` is
`consecutivePercents`, `start` is `startOfNextSpecifierSubstring`.  `none`: the `ValueError`.  After a
match the index advances by one character only.  The regular expression is that of the decoder
(same text; `re.match` and `std::regex_search` with `^` both prefer the first alternative), so the
model of it is shared.  `fuel`: every iteration advances. -/
def pyScan (fmt : List Byte) : Nat → Nat → Nat → Nat → List (RMatch × List Byte) →
    Option (List (RMatch × List Byte) × Nat)
  | 0, _, _, start, ms => some (ms, start)
  | fuel + 1, i, pct, start, ms =>
    match fmt.drop i with
    | [] => some (ms, start)
    | c :: s =>
      if c = ch '\\' then pyScan fmt fuel (i + 2) pct start ms
      else if c = ch '%' then
        if (pct + 1) % 2 = 1 then
          match regexMatch (c :: s) with
          | some m =>
            let e := i + ((c :: s).length - m.rest.length)
            pyScan fmt fuel (i + 1) (pct + 1) e (ms ++ [(m, (fmt.drop start).take (e - start))])
          | none =>
            if s.head? = some (ch '%') then pyScan fmt fuel (i + 1) (pct + 1) start ms else none
        else pyScan fmt fuel (i + 1) (pct + 1) start ms
      else pyScan fmt fuel (i + 1) 0 start ms

/-- `str.strip()`.  See preprocessor/FunctionGenerator.py:836. -/
def pyStrip (l : List Byte) : List Byte :=
  ((l.dropWhile pySpace).reverse.dropWhile pySpace).reverse

/-- The C type of a conversion, preprocessor/FunctionGenerator.py:797-870; `none`: `ValueError`. -/
def pyType (len : List Byte) (spec : Byte) : Option (List Byte) :=
  if spec ∈ pyStr "diuoxX" then
    let t := if spec ∈ pyStr "uoxX" then pyStr "unsigned " else []
    let r :=
      if len = [] then some (t ++ pyStr "int ")
      else if len = pyStr "hh" then some (if t = [] then pyStr "signed char" else pyStr "unsigned char")
      else if len = pyStr "h" then some (t ++ pyStr "short int ")
      else if len = pyStr "l" then some (t ++ pyStr "long int")
      else if len = pyStr "ll" then some (t ++ pyStr "long long int")
      else if len = pyStr "j" then some (if spec ∈ pyStr "di" then pyStr "intmax_t" else pyStr "uintmax_t")
      else if len = pyStr "z" ∨ len = pyStr "Z" then some (pyStr "size_t")
      else if len = pyStr "t" then some (pyStr "ptrdiff_t")
      else none
    r.map pyStrip
  else if spec ∈ pyStr "fFeEgGaA" then
    if len = pyStr "L" then some (pyStr "long double") else some (pyStr "double")
  else if spec = ch 'p' then
    if len = [] then some (pyStr "const void*") else none
  else if spec = ch 's' then
    if len = [] then some (pyStr "const char*")
    else if len = pyStr "l" then some (pyStr "const wchar_t*")
    else none
  else if spec = ch 'c' then
    if len = [] then some (pyStr "int")
    else if len = pyStr "l" then some (pyStr "wint_t")
    else none
  else none

/-- A width or precision of `FmtType`: `None`, `'*'`, or an integer.
See preprocessor/FunctionGenerator.py:797-803. -/
inductive PyNum where
  | none
  | star
  | num (n : Nat)
  deriving DecidableEq, Repr

/-- preprocessor/FunctionGenerator.py:797-803.  Simplified: `int(float(s))` is the exact value
(it is rounded from 2^53 on). -/
def pyNum (g : List Byte) : PyNum :=
  if g = [] then .none else if g = [ch '*'] then .star else .num (digitsVal g)

/-- `FmtType`, preprocessor/FunctionGenerator.py:718. -/
structure PyFmt where
  type : Option (List Byte)
  width : PyNum
  prec : PyNum
  sub : List Byte
  deriving DecidableEq, Repr

/-- Folding the rest of the string into the last match, preprocessor/FunctionGenerator.py:790-793. -/
def foldLast : List (RMatch × List Byte) → List Byte → List (RMatch × List Byte)
  | [], _ => []
  | [(m, s)], t => [(m, s ++ t)]
  | p :: ps, t => p :: foldLast ps t

/-- One round of the loop over the matches, preprocessor/FunctionGenerator.py:797-870. -/
def pyFmtOf (p : RMatch × List Byte) : Option PyFmt :=
  (pyType p.1.len p.1.spec).map fun t => ⟨some t, pyNum p.1.width, pyNum p.1.prec, p.2⟩

/-- The loop over the matches.  See preprocessor/FunctionGenerator.py:790-870. -/
def pyFmts : List (RMatch × List Byte) → Option (List PyFmt)
  | [] => some []
  | p :: ps =>
    match pyFmtOf p with
    | none => none
    | some f => (pyFmts ps).map (f :: ·)

/-- `splitAndParseTypesInFmtString`, preprocessor/FunctionGenerator.py:738-872. -/
def pySplit (fmt : List Byte) : Option (List PyFmt) :=
  match pyScan fmt fmt.length 0 0 0 [] with
  | none => none
  | some (ms, start) =>
    if ms = [] then some [⟨none, .none, .none, fmt⟩]
    else pyFmts (foldLast ms (fmt.drop start))

/-! ## Static information -/

/-- `str.find(t) != -1`. -/
def pyHas (t : List Byte) : List Byte → Bool
  | [] => t = []
  | c :: s => (c :: s).take t.length = t || pyHas t s

/-- `isStringType`, preprocessor/FunctionGenerator.py:878-881. -/
def isStringType (t : List Byte) : Bool := pyHas (pyStr "char*") t || pyHas (pyStr "wchar_t*") t

/-- `isWideString`, preprocessor/FunctionGenerator.py:887-888. -/
def isWideString (t : List Byte) : Bool := pyHas (pyStr "wchar_t*") t

/-- The parameters of one specifier, preprocessor/FunctionGenerator.py:361-373. -/
def PyFmt.args (f : PyFmt) : List (List Byte) :=
  match f.type with
  | none => []
  | some t =>
    (if f.width = .star then [pyStr "int"] else []) ++ (if f.prec = .star then [pyStr "int"] else [])
      ++ [t]

/-- `argList`, preprocessor/FunctionGenerator.py:359-373. -/
def pyArgs (fs : List PyFmt) : List (List Byte) := fs.flatMap PyFmt.args

/-- Name of the enumerator, preprocessor/FunctionGenerator.py:664-665. -/
def enumName (t : List Byte) : List Byte :=
  ((t.map fun c => if c = ch ' ' then ch '_' else c) ++ pyStr "_t").flatMap
    fun c => if c = ch '*' then pyStr "_ptr" else [c]

/-- `enum FormatType`, runtime/Log.h:439-466. -/
def formatTypeNames : List (List Byte × FormatType) :=
  [(pyStr "unsigned_char_t", .uchar), (pyStr "unsigned_short_int_t", .ushort),
   (pyStr "unsigned_int_t", .uint), (pyStr "unsigned_long_int_t", .ulong),
   (pyStr "unsigned_long_long_int_t", .ulonglong), (pyStr "uintmax_t_t", .uintmax),
   (pyStr "size_t_t", .sizeT), (pyStr "wint_t_t", .wint), (pyStr "signed_char_t", .schar),
   (pyStr "short_int_t", .short), (pyStr "int_t", .int), (pyStr "long_int_t", .long),
   (pyStr "long_long_int_t", .longlong), (pyStr "intmax_t_t", .intmax), (pyStr "ptrdiff_t_t", .ptrdiff),
   (pyStr "double_t", .double), (pyStr "long_double_t", .longDouble), (pyStr "const_void_ptr_t", .voidPtr),
   (pyStr "const_char_ptr_t", .charPtr), (pyStr "const_wchar_t_ptr_t", .wcharPtr)]

/-- The enumerator with a name; `none`: the generated code does not compile. -/
def enumOf (n : List Byte) : Option FormatType := (formatTypeNames.find? (·.1 = n)).map (·.2)

/-- The `PrintFragment` of a specifier, preprocessor/FunctionGenerator.py:662-688.  The text is
that of the literal in the generated code, escapes not converted. -/
def PyFmt.frag (f : PyFmt) : Option Frag :=
  match f.type with
  | none => some ⟨none, f.width = .star, f.prec = .star, f.sub⟩
  | some t =>
    match enumOf (enumName t) with
    | none => none
    | some ty => some ⟨some ty, f.width = .star, f.prec = .star, f.sub⟩

/-- The loop over the specifiers, preprocessor/FunctionGenerator.py:661-690. -/
def pyFrags : List PyFmt → Option (List Frag)
  | [] => some []
  | f :: fs =>
    match f.frag with
    | none => none
    | some g => (pyFrags fs).map (g :: ·)

/-- `numNibbles`, preprocessor/FunctionGenerator.py:388-390, 448. -/
def pyNibbles (fs : List PyFmt) : Nat := ((pyArgs fs).filter fun t => !isStringType t).length

/-- The static information of a log statement, preprocessor/FunctionGenerator.py:632-690:
`numNibbles` and `numPrintFragments` are assigned to `uint8_t` fields (runtime/Log.h:388-391).  `none`:
the preprocessor raises an exception or the generated code does not compile. -/
def pyMeta (fmt file : List Byte) (line level : Nat) : Option Meta :=
  match pySplit fmt with
  | none => none
  | some fs =>
    match pyFrags fs with
    | none => none
    | some gs => some { file := file, line := line, level := level
                        numNibbles := pyNibbles fs % 256, frags := gs.take (gs.length % 256) }

end NanoLog
