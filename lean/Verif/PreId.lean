import Verif.FmtParse

/-!
# Model of the identifiers of the preprocessor (`preprocessor/FunctionGenerator.py`)

Python strings are lists of bytes (Python 2 `str`; with Python 3 this is exact for ASCII
sources).
-/

namespace NanoLog

/-- `str.isalnum` of a one-character string: ASCII letters and digits
(preprocessor/FunctionGenerator.py:896). -/
def pyAlnum (c : Byte) : Bool :=
  (48 ≤ c.toNat && c.toNat ≤ 57) || (65 ≤ c.toNat && c.toNat ≤ 90) ||
    (97 ≤ c.toNat && c.toNat ≤ 122)

/-- `str(n)` and `"%d" % n` for `n ≥ 0` (preprocessor/FunctionGenerator.py:896, 898). -/
def pyDec (n : Nat) : List Byte := (Nat.toDigits 10 n).map ch

/-- `encode`, preprocessor/FunctionGenerator.py:895-896, on one character. -/
def encChar (c : Byte) : List Byte := if pyAlnum c then [c] else pyDec c.toNat

/-- `encode`, preprocessor/FunctionGenerator.py:895-896. -/
def encStr (s : List Byte) : List Byte := s.flatMap encChar

/-- `"__"` in the format of preprocessor/FunctionGenerator.py:898. -/
def uu : List Byte := [ch '_', ch '_']

/-- `generateLogIdStr`, preprocessor/FunctionGenerator.py:894-898. -/
def logIdStr (fmt file : List Byte) (line : Nat) : List Byte :=
  uu ++ encStr fmt ++ uu ++ encStr file ++ uu ++ pyDec line ++ uu

/-- A log statement as handed to `generateLogFunctions`, preprocessor/FunctionGenerator.py:343-344
(the level is the source text of the first argument). -/
structure Stmt where
  level : List Byte
  fmt : List Byte
  unit : List Byte
  file : List Byte
  line : Nat
  deriving DecidableEq, Repr

/-- The identifier of a statement, preprocessor/FunctionGenerator.py:346. -/
def Stmt.id (s : Stmt) : List Byte := logIdStr s.fmt s.file s.line

/-- `logId2Code`, preprocessor/FunctionGenerator.py:76-114, a dictionary from identifier to
generated code, in insertion order.  All the code is a function of the statement, so the
statement stands for it. -/
abbrev Code := List (List Byte × Stmt)

/-- `generateLogFunctions`, preprocessor/FunctionGenerator.py:343-351, 692-711: nothing is
generated if the identifier is known. -/
def genLog (d : Code) (s : Stmt) : Code :=
  if (d.lookup s.id).isSome then d else d ++ [(s.id, s)]

/-- One run of the preprocessor over a compilation unit: the statements in order of occurrence
(preprocessor/parser.py:465-467) and the map file (`outputMappingFile`,
preprocessor/FunctionGenerator.py:126-142).  The invalid entry present from the start
(preprocessor/FunctionGenerator.py:79) is left out here and in `mergeMaps`; it is skipped when the
result is written (preprocessor/FunctionGenerator.py:202, 222), and `C37_not_invalid` shows that no
statement has its identifier. -/
def mapFile (ss : List Stmt) : Code := ss.foldl genLog []

/-- `dict[k] = v` on a dictionary in insertion order.  See preprocessor/FunctionGenerator.py:343-351. -/
def dictSet (d : Code) (k : List Byte) (v : Stmt) : Code :=
  if (d.lookup k).isSome then d.map fun p => if p.1 = k then (k, v) else p else d ++ [(k, v)]

/-- `mergedCode.update(...)` over all map files, preprocessor/FunctionGenerator.py:158-162. -/
def mergeMaps (fs : List Code) : Code :=
  fs.foldl (fun d f => f.foldl (fun d p => dictSet d p.1 p.2) d) []

/-- Comparison of Python strings, used by `sorted`.  See preprocessor/FunctionGenerator.py:201, 221, 309. -/
def strLe : List Byte → List Byte → Bool
  | [], _ => true
  | _ :: _, [] => false
  | a :: l, b :: m => if a.toNat < b.toNat then true else if b.toNat < a.toNat then false else strLe l m

/-- Insertion into a sorted dictionary, see `sortedItems`.  See preprocessor/FunctionGenerator.py:201, 221, 309. -/
def insItem (p : List Byte × Stmt) : Code → Code
  | [] => [p]
  | q :: l => if strLe p.1 q.1 then p :: q :: l else q :: insItem p l

/-- `sorted(mergedCode.items())`, preprocessor/FunctionGenerator.py:201, 221.  Keys are distinct, so
values are never compared, and every sorting algorithm gives the same result. -/
def sortedItems (d : Code) : Code := d.foldr insItem []

/-- The tables written by `outputCompilationFiles`, preprocessor/FunctionGenerator.py:215-243: entry
`n` is the content of `logId2Metadata[n]`, `compressFnArray[n]`, `decompressAndPrintFnArray[n]`
and of the `n`-th fragment of `writeDictionary`. -/
def codeTables (units : List (List Stmt)) : Code := sortedItems (mergeMaps (units.map mapFile))

/-- The number a record function stores: the value of the variable `__fmtId<logId>` defined at
preprocessor/FunctionGenerator.py:233-240 and declared in the record function at 463, 473.  `none`: the
variable is not defined (link error). -/
def fmtIdVar (t : Code) (id : List Byte) : Option Nat := t.findIdx? fun p => p.1 = id

end NanoLog
