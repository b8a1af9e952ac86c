import Verif.FmtParse
import Verif.ArgsSpec

/-!
# Specification of printf format strings

An abstract syntax of format strings, its concrete syntax (`render`), and what each
conversion means, written from the C standard and not from the code.
-/

namespace NanoLog

/-- Length modifiers. -/
inductive LenMod where
  | none | hh | h | l | ll | j | z | t | L
  deriving DecidableEq, Repr

/-- Concrete syntax of a length modifier. -/
def LenMod.bytes : LenMod → List Byte
  | .none => []
  | .hh => [ch 'h', ch 'h']
  | .h => [ch 'h']
  | .l => [ch 'l']
  | .ll => [ch 'l', ch 'l']
  | .j => [ch 'j']
  | .z => [ch 'z']
  | .t => [ch 't']
  | .L => [ch 'L']

/-- Kinds of conversion specifiers. -/
inductive SpecCls where
  | signed | unsigned | float | chr | str | ptr
  deriving DecidableEq, Repr

/-- Conversion specifiers of the C standard (without `%n`). -/
def specTable : List (Byte × SpecCls) :=
  [(ch 'd', .signed), (ch 'i', .signed),
   (ch 'u', .unsigned), (ch 'o', .unsigned), (ch 'x', .unsigned), (ch 'X', .unsigned),
   (ch 'f', .float), (ch 'F', .float), (ch 'e', .float), (ch 'E', .float),
   (ch 'g', .float), (ch 'G', .float), (ch 'a', .float), (ch 'A', .float),
   (ch 'c', .chr), (ch 's', .str), (ch 'p', .ptr)]

/-- C type expected by a length modifier and a kind of specifier; `none` if the C standard
does not define the combination. -/
def cType : LenMod → SpecCls → Option FormatType
  | .none, .signed => some .int
  | .hh, .signed => some .schar
  | .h, .signed => some .short
  | .l, .signed => some .long
  | .ll, .signed => some .longlong
  | .j, .signed => some .intmax
  | .z, .signed => some .sizeT
  | .t, .signed => some .ptrdiff
  | .none, .unsigned => some .uint
  | .hh, .unsigned => some .uchar
  | .h, .unsigned => some .ushort
  | .l, .unsigned => some .ulong
  | .ll, .unsigned => some .ulonglong
  | .j, .unsigned => some .uintmax
  | .z, .unsigned => some .sizeT
  | .t, .unsigned => some .ptrdiff
  | .none, .float => some .double
  | .l, .float => some .double
  | .L, .float => some .longDouble
  | .none, .chr => some .int
  | .l, .chr => some .wint
  | .none, .str => some .charPtr
  | .l, .str => some .wcharPtr
  | .none, .ptr => some .voidPtr
  | _, _ => none

/-- A width or precision field: absent, digits, or `*`. -/
inductive NumField where
  | none
  | digits (ds : List Byte)
  | star
  deriving DecidableEq, Repr

/-- A conversion specification. -/
structure ConvS where
  flags : List Byte
  width : NumField
  prec : NumField
  len : LenMod
  spec : Byte × SpecCls
  ty : FormatType
  deriving DecidableEq, Repr

/-- Concrete syntax of a field. -/
def NumField.bytes : NumField → List Byte
  | .none => []
  | .digits ds => ds
  | .star => [ch '*']

/-- Concrete syntax of a precision. -/
def precBytes : NumField → List Byte
  | .none => []
  | p => ch '.' :: p.bytes

/-- Concrete syntax of a conversion after the `%`. -/
def ConvS.tailBytes (c : ConvS) : List Byte :=
  c.flags ++ (c.width.bytes ++ (precBytes c.prec ++ (c.len.bytes ++ [c.spec.1])))

/-- Concrete syntax of a conversion. -/
def ConvS.bytes (c : ConvS) : List Byte := ch '%' :: c.tailBytes

/-- Well-formed conversion: flags are flag characters, a static width is a number not
starting with 0 (a leading zero is a flag), a static precision has at least one digit and
its value fits in an `int`, and the C standard defines the combination. -/
def ConvS.WF (c : ConvS) : Prop :=
  (∀ b ∈ c.flags, isFlag b = true) ∧
  (∀ ds, c.width = .digits ds → ds ≠ [] ∧ (∀ b ∈ ds, isDigit b = true) ∧
    ds.head? ≠ some (ch '0')) ∧
  (∀ ds, c.prec = .digits ds → ds ≠ [] ∧ (∀ b ∈ ds, isDigit b = true) ∧
    digitsVal ds < 2 ^ 31) ∧
  c.spec ∈ specTable ∧ cType c.len c.spec.2 = some c.ty

/-- An item of a format string: a text character, `%%`, or a conversion. -/
inductive FItem where
  | text (b : Byte)
  | pct
  | conv (c : ConvS)
  deriving DecidableEq, Repr

/-- Well-formed item; a text character is not `%`, not a backslash, not NUL. -/
def FItem.WF : FItem → Prop
  | .text b => b ≠ ch '%' ∧ b ≠ ch '\\' ∧ b ≠ 0
  | .pct => True
  | .conv c => c.WF

/-- Concrete syntax of an item. -/
def FItem.bytes : FItem → List Byte
  | .text b => [b]
  | .pct => [ch '%', ch '%']
  | .conv c => c.bytes

/-- Concrete syntax of a format string. -/
def render (is : List FItem) : List Byte := is.flatMap FItem.bytes

/-- What a conversion means for parameters and decoding. -/
def ConvS.conv (c : ConvS) : Conv where
  dynW := c.width = .star
  dynP := c.prec = .star
  prec := match c.prec with
    | .digits ds => some (digitsVal ds)
    | _ => none
  ty := c.ty

/-- Conversions of a format, each with the text since the previous conversion. Second
component: text after the last conversion. `acc`: text collected so far. -/
def splitConvs (acc : List Byte) : List FItem → List (Conv × List Byte) × List Byte
  | [] => ([], acc)
  | .conv c :: is =>
    let r := splitConvs [] is
    ((c.conv, acc ++ c.bytes) :: r.1, r.2)
  | i :: is => splitConvs (acc ++ i.bytes) is

/-- Attach trailing text to the last piece. -/
def attachTail : List (Conv × List Byte) → List Byte → List Piece
  | [], t => [(none, t)]
  | [c], t => [(some c.1, c.2 ++ t)]
  | c :: d :: cs, t => (some c.1, c.2) :: attachTail (d :: cs) t

/-- The pieces of a format: at most one conversion each, in order. -/
def pieces (is : List FItem) : List Piece :=
  let r := splitConvs [] is
  attachTail r.1 r.2

/-- Parameters of a format. -/
def itemParams (is : List FItem) : List ParamType :=
  is.flatMap fun i => match i with
    | .conv c => c.conv.params
    | _ => []

end NanoLog
