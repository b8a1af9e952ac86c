import Verif.PreFile
import Verif.Props.PreArgs

/-!
# Specification for `processFile`: text with source locations

What a compiler sees of preprocessed text: characters other than white space, each with the file, the
line and the column given by the line markers of the GNU preprocessor (`# 12 "a.cc" flags`).
-/

namespace NanoLog

/-- A character other than white space with its location. -/
structure PChar where
  file : List Byte
  line : Nat
  col : Nat
  b : Byte
  deriving DecidableEq, Repr

/-- A line marker: it says that the next line is line `n` of file `f`. -/
def IsMarker (l : List Byte) (n : Nat) (f : List Byte) : Prop :=
  ∃ ds flags, ds ≠ [] ∧ (∀ b ∈ ds, 48 ≤ b.toNat ∧ b.toNat ≤ 57) ∧ digitsVal ds = n ∧
    ch '"' ∉ flags ∧ l = asc "# " ++ ds ++ asc " \"" ++ f ++ asc "\"" ++ flags

/-- The characters of (a part of) a line that starts at column `c`. -/
def placeLine (f : List Byte) (n c : Nat) : List Byte → List PChar
  | [] => []
  | b :: s => if pySpace b then placeLine f n (c + 1) s else ⟨f, n, c, b⟩ :: placeLine f n (c + 1) s

/-- The characters of lines, the first of which is line `n` of file `f` unless markers say otherwise. -/
def placeL (f : List Byte) (n : Nat) : List (List Byte) → List PChar
  | [] => []
  | l :: ls =>
    match dirOf l with
    | some (m, g) => placeL g m ls
    | none => placeLine f n 0 l ++ placeL f (n + 1) ls

/-- File and number of the line after the given ones. -/
def locL (f : List Byte) (n : Nat) : List (List Byte) → List Byte × Nat
  | [] => (f, n)
  | l :: ls =>
    match dirOf l with
    | some (m, g) => locL g m ls
    | none => locL f (n + 1) ls

/-- The characters of a text in file `name`. -/
def placed (name text : List Byte) : List PChar := placeL name 1 (readLines text)

/-- Text without white space. -/
def noSpace (l : List Byte) : List Byte := l.filter fun b => !pySpace b

/-- Arguments separated by commas. -/
def commaSep : List (List Byte) → List Byte
  | [] => []
  | [a] => a
  | a :: b :: l => a ++ ch ',' :: commaSep (b :: l)

/-- `y` is `x` after one log statement, described by `t` and the texts of its arguments, was replaced:
its name, which stands at the line and in the file given by `t`, becomes `{` and the name of the record
function; its arguments are kept where they are, and the scope is closed after the semicolon.  Nothing else
changes, also not the locations. -/
def Edit (t : Stmt) (args : List (List Byte)) (x y : List PChar) : Prop :=
  ∃ A B C q col,
    x = A ++ (placeLine t.file t.line col (asc "NANO_LOG") ++ (B ++ (q :: C))) ∧
    y = A ++ (placeLine (asc "injectedCode.fake") t.line 0 (asc "{ __syang0__fl" ++ t.id) ++
      (B ++ (q :: ⟨q.file, q.line + 1, 0, ch '}'⟩ :: C))) ∧
    B.map PChar.b ++ [q.b] = noSpace (ch '(' :: (commaSep args ++ asc ");")) ∧
    ∃ fmtArg rest, args = t.level :: fmtArg :: rest ∧ fmtOfArg fmtArg = some t.fmt

/-- Several replacements, one after the other. -/
inductive Edits (x : List PChar) : List PChar → List (Stmt × List (List Byte)) → Prop where
  | nil : Edits x x []
  | snoc {y z ss t args} : Edits x y ss → Edit t args y z → Edits x z (ss ++ [(t, args)])

end NanoLog
