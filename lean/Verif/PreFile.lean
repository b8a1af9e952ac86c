import Verif.PreId
import Verif.PreFmt
import Verif.PreParse

/-!
# Model of `processFile` (`preprocessor/parser.py`): the scan for log statements and their rewriting

The list `lines` and the index `lineIndex` of the code are represented by the entries already
passed (`PPState.done`), the current entry, and the entries after it; positions are relative to the
current entry.  Text is a list of bytes (Python 2 `str`; with Python 3 this is exact for ASCII sources
without carriage returns).  The set of ignored files is empty (preprocessor/parser.py:87-88), so the
test at 379-380 is left out.
-/

namespace NanoLog

/-- A Python string constant. -/
def pyLit (s : String) : List Byte := s.toList.map ch

/-- `LOG_FUNCTION`, preprocessor/parser.py:75. -/
def nanoLog : List Byte := pyLit "NANO_LOG"

/-- `INJECTION_MARKER`, preprocessor/parser.py:81-82. -/
def injMarker : List Byte :=
  pyLit "static const int __internal_dummy_variable_marker_for_code_injection = 0;"

/-- `f.readlines()`, preprocessor/parser.py:329: the text cut after each newline. -/
def readLines : List Byte → List (List Byte)
  | [] => []
  | b :: s =>
    if b = 10 then [10] :: readLines s
    else
      match readLines s with
      | [] => [[b]]
      | l :: ls => (b :: l) :: ls

/-- `pat in line` (preprocessor/parser.py:375, 392). -/
def hasSub (pat : List Byte) : List Byte → Bool
  | [] => pat.isEmpty
  | b :: s => pat.isPrefixOf (b :: s) || hasSub pat s

/-- The text before the last quote in `s`, if there is one: the group `"(.*)\"(.*)"` of
preprocessor/parser.py:325, where the first `.*` takes as much as possible. -/
def beforeLastQuote : List Byte → Option (List Byte)
  | [] => none
  | b :: s =>
    match beforeLastQuote s with
    | some t => some (b :: t)
    | none => if b = ch '"' then some [] else none

/-- Decimal digits, `\d` of preprocessor/parser.py:325. -/
def pyDigit (b : Byte) : Bool := 48 ≤ b.toNat && b.toNat ≤ 57

/-- `directiveRegex.match(line)`, preprocessor/parser.py:325, 361-372: the line number and the file name
of a line marker.  `.` does not match a newline.  Simplified: the number is not rounded to a `float`
(line 366). -/
def dirOf (line : List Byte) : Option (Nat × List Byte) :=
  match line with
  | a :: b :: s =>
    if a = ch '#' ∧ b = ch ' ' then
      let ds := s.takeWhile pyDigit
      match s.dropWhile pyDigit with
      | c :: d :: t =>
        if ds ≠ [] ∧ c = ch ' ' ∧ d = ch '"' then
          (beforeLastQuote (t.takeWhile fun x => x ≠ 10)).map fun f => (digitsVal ds, f)
        else none
      | _ => none
    else none
  | _ => none

/-- Comparison with the name of the log function, preprocessor/parser.py:415-419.  `none`: the line
ends (`IndexError`). -/
def matchName : List Byte → List Byte → Option Bool
  | _, [] => some true
  | [], _ :: _ => none
  | b :: s, c :: p => if b ≠ c then some false else matchName s p

/-- How the loop over the characters of a line goes on: it reaches the end of the line (with the last
value of `lastChar`), it finds a log statement at an offset, or an exception. -/
inductive ScanR where
  | done (last : Byte)
  | found (off : Nat)
  | error
  deriving DecidableEq, Repr

/-- The loop over the characters, preprocessor/parser.py:395-432, 553, from offset `i`, where the rest of
the line is the list argument: `esc` is `prevWasEscape`, `inQ` is `inQuotes`, `last` is `lastChar`.
`lines` are the entries from the current one on (the entry may have been changed since `line` was
taken from it).  Where the name does not match or is part of a longer identifier, the loop continues
without setting `lastChar` (lines 421-426, 431-432). -/
def scanLine (lines : List (List Byte)) : List Byte → Nat → Bool → Bool → Byte → ScanR
  | [], _, _, _, last => .done last
  | c :: s, i, esc, inQ, last =>
    if c = ch '\\' ∨ esc = true then scanLine lines s (i + 1) (!esc) inQ c
    else
      let inQ' := if c = ch '"' then !inQ else inQ
      if c = ch 'N' ∧ inQ' = false then
        match matchName (c :: s) nanoLog with
        | none => .error
        | some false => scanLine lines s (i + 1) esc inQ' last
        | some true =>
          if pyAlnum last = true ∨ last = ch '_' then scanLine lines s (i + 1) esc inQ' last
          else
            match peekChar lines ⟨0, i + nanoLog.length⟩ with
            | none => .error
            | some (m, _) => if m ≠ ch '(' then scanLine lines s (i + 1) esc inQ' last else .found i
      else scanLine lines s (i + 1) esc inQ' c

/-- Local variables of `processFile`, preprocessor/parser.py:329-345, and the state of the function
generator. -/
structure PPState where
  /-- `lines[0..lineIndex]` -/
  done : List (List Byte)
  /-- `lastChar` -/
  last : Byte
  /-- `ppFileName` -/
  file : List Byte
  /-- `ppLineNum + 1` before the increment at line 357 -/
  next : Nat
  /-- `firstFilename`; the empty string stands for `None` (both are replaced at line 369) -/
  first : List Byte
  /-- `inlineCodeInjectionLineIndex` -/
  inj : Option Nat
  /-- the arguments of the calls of `generateLogFunctions` (lines 465-467), each with the source text of
  the arguments of the statement -/
  stmts : List (Stmt × List (List Byte))
  deriving DecidableEq, Repr

/-- Values before the loop, preprocessor/parser.py:329-345; `name` is `inputFile`. -/
def PPState.init (name : List Byte) : PPState := ⟨[], 0, name, 1, [], none, []⟩

/-- `"\r\n"`. -/
def crlf : List Byte := [13, 10]

/-- `"# %d \"%s\"\r\n" % (n, f)`, preprocessor/parser.py:513, 548, 550. -/
def markerLine (n : Nat) (f : List Byte) : List Byte :=
  pyLit "# " ++ pyDec n ++ pyLit " \"" ++ f ++ pyLit "\"" ++ crlf

/-- `generateLogFunctions`, preprocessor/FunctionGenerator.py:343-374: the name of the record function.
`none`: the `ValueError` of `splitAndParseTypesInFmtString`, which is only called if nothing was
generated for this identifier before. -/
def recordFn (prev : List Stmt) (s : Stmt) : Option (List Byte) :=
  if ((mapFile prev).lookup s.id).isSome = true ∨ (pySplit s.fmt).isSome = true then
    some (pyLit "__syang0__fl" ++ s.id)
  else none

/-- `n` spaces (preprocessor/parser.py:514). -/
def spaces (n : Nat) : List Byte := List.replicate n (ch ' ')

/-- `str.rjust`, preprocessor/parser.py:544. -/
def rjust (l : List Byte) (n : Nat) : List Byte := spaces (n - l.length) ++ l

/-- The entries after the code behind the semicolon was put on its own line and the scope was closed,
preprocessor/parser.py:505-518, 540: `q` is the position of the semicolon, `n` and `f` are the line and
the file of the statement. -/
def splitSemi (all : List (List Byte)) (q : FPos) (n : Nat) (f : List Byte) : Option (List (List Byte)) :=
  match all[q.line]? with
  | none => none
  | some scLine =>
    some (all.take q.line ++
      (scLine.take (q.off + 1) ++ crlf) :: (pyLit "}" ++ crlf) :: markerLine (n + q.line) f ::
        (spaces (q.off + 1) ++ scLine.drop (q.off + 1)) :: all.drop (q.line + 1))

/-- The entry in which the name of the log function at offset `i` of `line` is replaced,
preprocessor/parser.py:542-551. -/
def injectLine (line : List Byte) (i n : Nat) (f fn : List Byte) : List Byte :=
  line.take i ++ (crlf ++ (markerLine n (pyLit "injectedCode.fake") ++ (pyLit "{ " ++ fn ++ (crlf ++
    (markerLine n f ++ rjust (line.drop (i + nanoLog.length)) line.length)))))

/-- A statement was found at offset `i` of the current entry: preprocessor/parser.py:434-551, and the
rest of the loop over the characters of the line (395-432, 553), where `lastChar` is `N`.  `none`: an
exception, a failed assertion, or `sys.exit`.  Simplified: when a second statement is found in the rest
of the line, the assertion at preprocessor/parser.py:228 is taken to fail, because the entry no longer
has the name of the log function at this offset (it was shifted by the injected lines). -/
def ppStmt (st : PPState) (line : List Byte) (ls : List (List Byte)) (i : Nat) :
    Option (PPState × List (List Byte)) :=
  match parseStmt (line :: ls) ⟨0, i + nanoLog.length⟩ with
  | none => none
  | some s =>
    match s.args with
    | level :: fmtArg :: _ =>
      if st.inj = none ∨ st.inj = some 0 then none
      else
        match fmtOfArg fmtArg with
        | none => none
        | some fmt =>
          match recordFn (st.stmts.map Prod.fst) ⟨level, fmt, st.first, st.file, st.next⟩ with
          | none => none
          | some fn =>
            match splitSemi (line :: ls) s.semicolon st.next st.file with
            | some (line' :: ls') =>
              match scanLine (injectLine line' i st.next st.file fn :: ls') (line'.drop (i + 1)) (i + 1)
                  false false (ch 'N') with
              | .done last =>
                some ({ st with
                  done := st.done ++ [injectLine line' i st.next st.file fn]
                  last := last
                  next := st.next + 1
                  stmts := st.stmts ++ [(⟨level, fmt, st.first, st.file, st.next⟩, s.args)] }, ls')
              | _ => none
            | _ => none
    | _ => none

/-- The entry is left as it is. -/
def PPState.keep (st : PPState) (line : List Byte) (last : Byte) : PPState :=
  { st with done := st.done ++ [line], last := last, next := st.next + 1 }

/-- Body of the loop over the lines, preprocessor/parser.py:350-553: the new state and the entries not
yet visited. -/
def ppStep (st : PPState) (line : List Byte) (ls : List (List Byte)) : Option (PPState × List (List Byte)) :=
  match dirOf line with
  | some (n, f) =>
    some ({ st with
      done := st.done ++ [line], file := f, next := n, first := if st.first = [] then f else st.first }, ls)
  | none =>
    if hasSub injMarker line then
      some ({ st.keep line st.last with inj := some st.done.length }, ls)
    else if hasSub nanoLog line = false then some (st.keep line st.last, ls)
    else
      match scanLine (line :: ls) line 0 false false st.last with
      | .error => none
      | .done last => some (st.keep line last, ls)
      | .found i => ppStmt st line ls i

/-- The loop over the lines, preprocessor/parser.py:349-553, with a bound on the number of rounds.
`none`: an exception, or the bound is exceeded. -/
def ppLoop : Nat → PPState → List (List Byte) → Option PPState
  | 0, _, _ => none
  | _ + 1, st, [] => some st
  | n + 1, st, l :: ls =>
    match ppStep st l ls with
    | none => none
    | some (st', ls') => ppLoop n st' ls'

/-- `codeToInject`, preprocessor/parser.py:560-562, for record functions with the given texts. -/
def injCode (fns : List (List Byte)) : List Byte :=
  crlf ++ (crlf ++ (pyLit "# 1 \"generatedCode.h\" 3" ++ (crlf ++ (fns.intersperse crlf).flatten)))

/-- `getRecordFunctionDefinitionsFor`, preprocessor/FunctionGenerator.py:305-312; `text` gives the text of
the record function of a statement (`recordFnDef`). -/
def recFns (text : Stmt → List Byte) (stmts : List Stmt) (unit : List Byte) : List (List Byte) :=
  ((sortedItems (mapFile stmts)).filter fun p => p.2.unit = unit).map fun p => text p.2

/-- The end of `processFile`, preprocessor/parser.py:559-572: the entries written to the output. -/
def ppFinish (text : Stmt → List Byte) (st : PPState) : Option (List (List Byte)) :=
  let fns := recFns text (st.stmts.map Prod.fst) st.first
  if fns = [] then some st.done
  else
    match st.inj with
    | none => none
    | some 0 => none
    | some m => some (st.done.take (m + 1) ++ injCode fns :: st.done.drop (m + 1))

/-- `processFile`, preprocessor/parser.py:323-575: the text written to the output and the statements
handed to the function generator.  The loop of the code has no bound. -/
def processFile (text : Stmt → List Byte) (bound : Nat) (name input : List Byte) :
    Option (List Byte × List (Stmt × List (List Byte))) :=
  match ppLoop bound (.init name) (readLines input) with
  | none => none
  | some st => (ppFinish text st).map fun out => (out.flatten, st.stmts)

end NanoLog
