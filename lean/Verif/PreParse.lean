import Verif.FmtParse

/-!
# Model of the scanners of the preprocessor (`preprocessor/parser.py`)

Text is a list of bytes (Python 2 `str`; with Python 3 this is exact for ASCII sources).
-/

namespace NanoLog

/-- `str.isspace` of a one-character string (preprocessor/parser.py:126, 302). -/
def pySpace (c : Byte) : Bool := c.toNat = 32 || (9 ≤ c.toNat && c.toNat ≤ 13)

/-- The loop of `extractCString`, preprocessor/parser.py:118-132 (`splitlines(True)` followed by the
loop over the characters of each line visits all characters): `inQ` is `isInQuotes`, `esc` is
`prevWasEscape`, `ret` is `returnString`. -/
def extractLoop : List Byte → Bool → Bool → List Byte → Option (List Byte)
  | [], inQ, _, ret => if inQ then none else some ret
  | c :: s, inQ, esc, ret =>
    if c = ch '"' ∧ esc = false then extractLoop s (!inQ) esc ret
    else if inQ then extractLoop s inQ (c = ch '\\') (ret ++ [c])
    else if pySpace c then extractLoop s inQ esc ret
    else none

/-- `extractCString`, preprocessor/parser.py:113-132. -/
def extractCString (source : List Byte) : Option (List Byte) := extractLoop source false false []

/-- The format string of a log statement, preprocessor/parser.py:447-460: `none` is the error
"expects a literal format string", also raised for the empty string. -/
def fmtOfArg (source : List Byte) : Option (List Byte) :=
  match extractCString source with
  | none => none
  | some [] => none
  | some t => some t

/-! ## Arguments -/

/-- `FilePosition`, preprocessor/parser.py:96. -/
structure FPos where
  line : Nat
  off : Nat
  deriving DecidableEq, Repr

/-- Local variables of `parseArgumentStartingAt`, preprocessor/parser.py:154-158.  Only the
parenthesis depth is kept from becoming negative (line 188). -/
structure AScan where
  paren : Nat
  curly : Int
  bracket : Int
  inQ : Bool
  src : List Byte
  deriving DecidableEq, Repr

/-- Values before the loop, preprocessor/parser.py:154-158. -/
def AScan.init : AScan := ⟨0, 0, 0, false, []⟩

/-- Body of the inner loop, preprocessor/parser.py:166-198; the flag is `prevWasEscape`.  `none`: the
end of the argument is found at this character. -/
def argChar (st : AScan) (esc : Bool) (c : Byte) : Option (AScan × Bool) :=
  let st1 := { st with src := st.src ++ [c] }
  if c = ch '\\' ∨ esc = true then some (st1, !esc)
  else
    let st2 := if c = ch '"' then { st1 with inQ := !st1.inQ } else st1
    if st2.inQ then some (st2, esc)
    else if c = ch '{' then some ({ st2 with curly := st2.curly + 1 }, esc)
    else if c = ch '}' then some ({ st2 with curly := st2.curly - 1 }, esc)
    else if c = ch '(' then some ({ st2 with paren := st2.paren + 1 }, esc)
    else if c = ch ')' ∧ st2.paren > 0 then some ({ st2 with paren := st2.paren - 1 }, esc)
    else if c = ch '[' then some ({ st2 with bracket := st2.bracket + 1 }, esc)
    else if c = ch ']' then some ({ st2 with bracket := st2.bracket - 1 }, esc)
    else if (c = ch ',' ∨ c = ch ')') ∧ st2.curly = 0 ∧ st2.paren = 0 ∧ st2.bracket = 0 then none
    else some (st2, esc)

/-- The loop over the characters of a line from offset `i`, preprocessor/parser.py:165-198: the offset
of the end and the text of the argument (`argSrcStr[:-1]`), or the variables after the line. -/
def argLine (st : AScan) (esc : Bool) (i : Nat) : List Byte → (Nat × List Byte) ⊕ AScan
  | [] => .inr st
  | c :: s =>
    match argChar st esc c with
    | none => .inl (i, st.src)
    | some (st', esc') => argLine st' esc' (i + 1) s

/-- The loop over the lines, preprocessor/parser.py:160-203, from line `ln`, whose first `off`
characters are skipped. -/
def argLines (st : AScan) (ln off : Nat) : List (List Byte) → Option (List Byte × FPos)
  | [] => none
  | l :: ls =>
    match argLine st false off (l.drop off) with
    | .inl (i, src) => some (src, ⟨ln, i⟩)
    | .inr st' => argLines st' (ln + 1) 0 ls

/-- `parseArgumentStartingAt`, preprocessor/parser.py:147-203: source text and end position. -/
def parseArg (lines : List (List Byte)) (p : FPos) : Option (List Byte × FPos) :=
  argLines .init p.line p.off (lines.drop p.line)

/-- The inner loop of `peekNextMeaningfulChar`, preprocessor/parser.py:300-304, on the rest of a line
from offset `i`. -/
def peekLine (i : Nat) : List Byte → Option (Byte × Nat)
  | [] => none
  | c :: s => if pySpace c then peekLine (i + 1) s else some (c, i)

/-- `peekNextMeaningfulChar`, preprocessor/parser.py:295-308, on the lines from `ln`. -/
def peekLines (ln off : Nat) : List (List Byte) → Option (Byte × FPos)
  | [] => none
  | l :: ls =>
    match peekLine off (l.drop off) with
    | some (c, i) => some (c, ⟨ln, i⟩)
    | none => peekLines (ln + 1) 0 ls

/-- `peekNextMeaningfulChar`, preprocessor/parser.py:295-308. -/
def peekChar (lines : List (List Byte)) (p : FPos) : Option (Byte × FPos) :=
  peekLines p.line p.off (lines.drop p.line)

/-- `lines[p.lineNum][p.offset]`; `none` is an index error. -/
def charAt (lines : List (List Byte)) (p : FPos) : Option Byte := (lines[p.line]?).bind (·[p.off]?)

/-- The loop of `parseLogStatement`, preprocessor/parser.py:239-249, with a bound on the number of
arguments: the texts of the arguments and the position of the closing parenthesis.  `none`: an
exception, or the bound is exceeded. -/
def argsLoop (lines : List (List Byte)) : Nat → FPos → List (List Byte) → Option (List (List Byte) × FPos)
  | 0, _, _ => none
  | fuel + 1, p, args =>
    match charAt lines p with
    | none => none
    | some c =>
      if c = ch ')' then some (args, p)
      else
        match parseArg lines ⟨p.line, p.off + 1⟩ with
        | none => none
        | some (src, q) => argsLoop lines fuel q (args ++ [src])

/-- What `parseLogStatement` returns, preprocessor/parser.py:264-270. -/
structure LogStmt where
  openParen : FPos
  closeParen : FPos
  semicolon : FPos
  args : List (List Byte)
  deriving DecidableEq, Repr

/-- `parseLogStatement`, preprocessor/parser.py:226-272, from the position after the name of the log
function (offset already advanced, line 231).  `none`: an exception or a failed assertion.  There are
less arguments than characters. -/
def parseStmt (lines : List (List Byte)) (p : FPos) : Option LogStmt :=
  match peekChar lines p with
  | none => none
  | some (c, openP) =>
    if c ≠ ch '(' then none
    else
      match argsLoop lines (lines.flatten.length + 1) openP [] with
      | none => none
      | some (args, closeP) =>
        match peekChar lines ⟨closeP.line, closeP.off + 1⟩ with
        | none => none
        | some (d, q) => if d ≠ ch ';' then none else some ⟨openP, closeP, q, args⟩

end NanoLog
