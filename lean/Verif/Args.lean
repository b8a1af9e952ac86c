import Verif.Packer

/-!
# Model of argument storing and compression, `runtime/NanoLogCpp17.h`
-/

namespace NanoLog

/-- `enum ParamType`, runtime/Log.h:88-111.  `INVALID` is represented by absence
(`Option ParamType`); `strPrec n` is the value `n ≥ 0` (a static precision). -/
inductive ParamType where
  | dynWidth | dynPrec | nonString | strDyn | strNo | strPrec (n : Nat)
  deriving DecidableEq, Repr

/-- The `int32_t` value of the enumerator, runtime/Log.h:92-110. -/
def ParamType.code : ParamType → Int
  | .dynWidth => -5
  | .dynPrec => -4
  | .nonString => -3
  | .strDyn => -2
  | .strNo => -1
  | .strPrec n => n

/-- C++ type of a log argument.  `ptr k` is a pointer to a type of `k` bytes that is not a
character string type; `k = 0` stands for `void*`.  See runtime/NanoLogCpp17.h:361-466. -/
inductive ATy where
  | int (t : ITy) | ptr (pointee : Nat) | f32 | f64 | f80 | cstr | wstr
  deriving DecidableEq, Repr

/-- A log argument.  A string carries its address (used if the format says `%p`) and its
contents up to, not including, the terminating NUL.  See runtime/NanoLogCpp17.h:361-466. -/
inductive Arg where
  | int (t : ITy) (v : Int)
  | ptr (pointee : Nat) (v : Nat)
  | f32 (bits : List Byte)
  | f64 (bits : List Byte)
  | f80 (bits : List Byte)
  | cstr (addr : Nat) (s : List Byte)
  | wstr (addr : Nat) (s : List Nat)
  deriving DecidableEq, Repr

/-- C++ type deduced for the argument (`typename... Ts`, runtime/NanoLogCpp17.h:994-1003). -/
def Arg.ty : Arg → ATy
  | .int t _ => .int t
  | .ptr k _ => .ptr k
  | .f32 _ => .f32
  | .f64 _ => .f64
  | .f80 _ => .f80
  | .cstr .. => .cstr
  | .wstr .. => .wstr

/-- `sizeof(T)`.  See runtime/NanoLogCpp17.h:551-572. -/
def ATy.size : ATy → Nat
  | .int t => t.bytes
  | .ptr _ => 8
  | .f32 => 4
  | .f64 => 8
  | .f80 => 16
  | .cstr => 8
  | .wstr => 8

/-- The scalar stored for the argument when its format parameter is not a string; strings
are stored as their address (runtime/NanoLogCpp17.h:402-408). -/
def Arg.toScalar : Arg → Scalar
  | .int t v => .int t v
  | .ptr _ v => .ptr v
  | .f32 b => .f32 b
  | .f64 b => .f64 b
  | .f80 b => .f80 b
  | .cstr a _ => .ptr a
  | .wstr a _ => .ptr a

/-- Object representation of a scalar (`memcpy(*storage, &arg, sizeof(T))`,
runtime/NanoLogCpp17.h:380-381). -/
def Scalar.repr : Scalar → List Byte
  | .int t v => le t.bytes (v % 2 ^ (8 * t.bytes)).toNat
  | .ptr v => le 8 v
  | .f32 b => b
  | .f64 b => b
  | .f80 b => b

/-- Memory of a wide string: four bytes per `wchar_t`. -/
def wbytes (s : List Nat) : List Byte := s.flatMap (le 4)

/-- `as_uint64_t`, runtime/NanoLogCpp17.h:510-526: integers convert, everything else is 0. -/
def Arg.asUint64 : Arg → Nat
  | .int _ v => (ITy.u64.cast v).toNat
  | _ => 0

/-- Length of a string argument after truncation by a static or dynamic precision,
runtime/NanoLogCpp17.h:612-625 and 642-655 (in characters). -/
def truncLen (p : ParamType) (prev len : Nat) : Nat :=
  if p.code ≥ 0 ∧ len > p.code.toNat then p.code.toNat
  else if p = .strDyn ∧ len > prev then prev
  else len

/-- `getArgSize`, runtime/NanoLogCpp17.h:551-659.  Result: bytes needed, the `stringSizes`
slot, and the updated `previousPrecision`. -/
def getArgSize (p : ParamType) (prev : Nat) (a : Arg) : Nat × Nat × Nat :=
  match a with
  | .cstr _ s =>
    if p.code ≤ -3 then (8, 0, prev)
    else
      let n := truncLen p prev s.length
      (n + 4, n, prev)
  | .wstr _ s =>
    if p.code ≤ -3 then (8, 0, prev)
    else
      let n := truncLen p prev s.length * 4
      (n + 4, n, prev)
  | .ptr 0 _ => (8, 0, prev)
  | a => (a.ty.size, 0, if p = .dynPrec then a.asUint64 else prev)

/-- `getArgSizes`, runtime/NanoLogCpp17.h:699-721, evaluated left to right (C++ leaves the
order of the two operands of `+` unspecified; left to right is what the code relies on).
Result: total size and the `stringSizes` array. -/
def getArgSizes : List ParamType → Nat → List Arg → Nat × List Nat
  | p :: ps, prev, a :: as =>
    let (sz, strSz, prev') := getArgSize p prev a
    let (rest, sizes) := getArgSizes ps prev' as
    (sz + rest, strSz :: sizes)
  | _, _, _ => (0, [])

/-- `store_argument`, runtime/NanoLogCpp17.h:368-436.  Strings with a string parameter are
stored as a 4-byte length and `stringSize` bytes copied from the string memory. (The
exception for lengths above `UINT32_MAX`, 413-416, is not modelled: `le 4` truncates.) -/
def storeArgument (p : ParamType) (strSize : Nat) (a : Arg) : List Byte :=
  match a with
  | .cstr _ s => if p.code ≤ -3 then a.toScalar.repr else le 4 strSize ++ s.take strSize
  | .wstr _ s => if p.code ≤ -3 then a.toScalar.repr else le 4 strSize ++ (wbytes s).take strSize
  | a => a.toScalar.repr

/-- `store_arguments`, runtime/NanoLogCpp17.h:468-492. -/
def storeArguments : List ParamType → List Nat → List Arg → List Byte
  | p :: ps, n :: ns, a :: as => storeArgument p n a ++ storeArguments ps ns as
  | _, _, _ => []

/-- `previousPrecision` starts as `(uint64_t)-1`, runtime/NanoLogCpp17.h:1022. -/
def initPrecision : Nat := 2 ^ 64 - 1

/-- Argument bytes placed after the header by `log`, runtime/NanoLogCpp17.h:1022-1034. -/
def storedArgs (ps : List ParamType) (as : List Arg) : List Byte :=
  storeArguments ps (getArgSizes ps initPrecision as).2 as

/-- `allocSize` of `log` without the 16-byte header, runtime/NanoLogCpp17.h:1025-1026. -/
def argAllocSize (ps : List ParamType) (as : List Arg) : Nat :=
  (getArgSizes ps initPrecision as).1

/-! ## Compression -/

/-- Reinterpret `sizeof(T)` bytes as a value of type `T`
(`memcpy(&argument, *in, sizeof(T))`, runtime/NanoLogCpp17.h:801-802). -/
def readScalar (t : ATy) (bs : List Byte) : Scalar :=
  match t with
  | .int t => .int t (t.cast (unle bs))
  | .ptr _ | .cstr | .wstr => .ptr (unle bs)
  | .f32 => .f32 bs
  | .f64 => .f64 bs
  | .f80 => .f80 bs

/-- `characterWidth`, runtime/NanoLogCpp17.h:778-787. -/
def ATy.charWidth : ATy → Nat
  | .cstr => 1
  | .wstr => 4
  | .ptr 0 => 8
  | .ptr k => k
  | t => t.size

/-- `compressSingle<T>`, runtime/NanoLogCpp17.h:744-815.  Result: the value returned by
`pack` if a nibble is written, the bytes appended to the output, the remaining input.
`none`: read beyond the input. -/
def compressSingle (t : ATy) (p : ParamType) (stringsOnly : Bool) (inp : List Byte) :
    Option (Option Nat × List Byte × List Byte) :=
  if p.code > -3 then do
    let (lenB, in1) ← takeN 4 inp
    let (str, in2) ← takeN (unle lenB) in1
    if stringsOnly then some (none, str ++ List.replicate t.charWidth 0, in2)
    else some (none, [], in2)
  else do
    let (raw, in1) ← takeN t.size inp
    if stringsOnly then some (none, [], in1)
    else
      let pk := (readScalar t raw).pack
      some (some pk.1, pk.2, in1)

/-- `compressHelper` / `compress_internal`, runtime/NanoLogCpp17.h:858-895: one pass over
the arguments. Result: nibbles in order, output bytes, remaining input. -/
def compressPass (stringsOnly : Bool) :
    List ATy → List ParamType → List Byte → Option (List Nat × List Byte × List Byte)
  | t :: ts, p :: ps, inp => do
    let (nib, out, in1) ← compressSingle t p stringsOnly inp
    let (nibs, outs, in2) ← compressPass stringsOnly ts ps in1
    some (nib.toList ++ nibs, out ++ outs, in2)
  | [], [], inp => some ([], [], inp)
  | _, _, _ => none

/-- `compress`, runtime/NanoLogCpp17.h:918-956: nibble area of `(numNibbles+1)/2` bytes,
scalars, then NUL-terminated strings.  Result: output bytes and remaining input.  If the
number of nibbles written differs from `numNibbles` the areas would overlap; the model
returns `none` in that case.  `junk` is the previous content of an unused nibble. -/
def compress (junk numNibbles : Nat) (ts : List ATy) (ps : List ParamType) (inp : List Byte) :
    Option (List Byte × List Byte) := do
  let (nibs, scal, _) ← compressPass false ts ps inp
  let (_, strs, in2) ← compressPass true ts ps inp
  if nibs.length = numNibbles then
    some (writeNibbles junk nibs ++ scal ++ strs, in2)
  else none

/-- `getNumNibblesNeeded`, runtime/NanoLogCpp17.h:330-342, on the parameter list. -/
def numNibblesNeeded (ps : List ParamType) : Nat :=
  (ps.filter fun p => p = .nonString || p = .dynPrec || p = .dynWidth).length

/-! ## Decoding side -/

/-- `enum FormatType`, runtime/Log.h:439-466 (without `NONE` and `MAX_FORMAT_TYPE`). -/
inductive FormatType where
  | uchar | ushort | uint | ulong | ulonglong | uintmax | sizeT | wint
  | schar | short | int | long | longlong | intmax | ptrdiff
  | double | longDouble | voidPtr | charPtr | wcharPtr
  deriving DecidableEq, Repr

/-- Type at which `decompressNextLogStatement` reads the argument, runtime/Log.cc:1447-1600;
`none` for the two string types (1602-1650). -/
def FormatType.rty : FormatType → Option RTy
  | .uchar => some (.int .u8)
  | .ushort => some (.int .u16)
  | .uint | .wint => some (.int .u32)
  | .ulong | .ulonglong | .uintmax | .sizeT => some (.int .u64)
  | .schar => some (.int .i8)
  | .short => some (.int .i16)
  | .int => some (.int .i32)
  | .long | .longlong | .intmax | .ptrdiff => some (.int .i64)
  | .double => some .dbl
  | .longDouble => some .ldbl
  | .voidPtr => some .ptr
  | .charPtr | .wcharPtr => none

/-- `struct PrintFragment`, runtime/Log.h:411-430.  `ty = none` is `NONE` (plain text). -/
structure Frag where
  ty : Option FormatType
  dynW : Bool
  dynP : Bool
  text : List Byte
  deriving DecidableEq, Repr

/-- An argument as handed to `fprintf` by the decoder.  See runtime/Log.cc:1315-1680. -/
inductive PArg where
  | scalar (v : RVal)
  | str (s : List Byte)
  | wstr (s : List Nat)
  deriving DecidableEq, Repr

/-- What the decoder extracted for one fragment: dynamic width and precision if present in
the fragment, and the argument.  See runtime/Log.cc:1410-1670. -/
structure Decoded where
  text : List Byte
  width : Option Int
  prec : Option Int
  arg : Option PArg
  deriving DecidableEq, Repr

/-- NUL-terminated string at the front of memory and the memory after it
(`nextStringArg += strlen(nextStringArg) + 1`, runtime/Log.cc:1603-1611). -/
def takeCStr : List Byte → Option (List Byte × List Byte)
  | [] => none
  | b :: bs => if b = 0 then some ([], bs) else (takeCStr bs).map fun p => (b :: p.1, p.2)

/-- Wide NUL-terminated string (`(wcslen(wstrArg) + 1) * sizeof(wchar_t)`,
runtime/Log.cc:1642-1650). -/
def takeWStr : List Byte → Option (List Nat × List Byte)
  | a :: b :: c :: d :: bs =>
    let w := unle [a, b, c, d]
    if w = 0 then some ([], bs) else (takeWStr bs).map fun p => (w :: p.1, p.2)
  | _ => none

/-- Read a dynamic width or precision if the fragment has one (runtime/Log.cc:1439-1445). -/
def takeStar (has : Bool) (nb : Nibbler) : Option (Option Int × Nibbler) :=
  if has then
    match nb.getNext (.int .i32) with
    | some (.int v, nb') => some (some v, nb')
    | _ => none
  else some (none, nb)

/-- One iteration of the fragment loop, runtime/Log.cc:1436-1663. -/
def decodeFrag (nb : Nibbler) (strs : List Byte) (f : Frag) :
    Option (Decoded × Nibbler × List Byte) := do
  let (w, nb1) ← takeStar f.dynW nb
  let (p, nb2) ← takeStar f.dynP nb1
  match f.ty with
  | none => some (⟨f.text, w, p, none⟩, nb2, strs)
  | some .charPtr => do
    let (s, rest) ← takeCStr strs
    some (⟨f.text, w, p, some (.str s)⟩, nb2, rest)
  | some .wcharPtr => do
    let (s, rest) ← takeWStr strs
    some (⟨f.text, w, p, some (.wstr s)⟩, nb2, rest)
  | some ty => do
    let r ← ty.rty
    let (v, nb3) ← nb2.getNext r
    some (⟨f.text, w, p, some (.scalar v)⟩, nb3, strs)

/-- The fragment loop, runtime/Log.cc:1436-1663. -/
def decodeFrags (nb : Nibbler) (strs : List Byte) :
    List Frag → Option (List Decoded × List Byte)
  | [] => some ([], strs)
  | f :: fs => do
    let (d, nb1, strs1) ← decodeFrag nb strs f
    let (ds, strs2) ← decodeFrags nb1 strs1 fs
    some (d :: ds, strs2)

/-- Decoding of the arguments of one message from memory `mem`, runtime/Log.cc:1431-1668.
Result: what is printed and the memory after the message. -/
def decodeArgs (numNibbles : Nat) (frags : List Frag) (mem : List Byte) :
    Option (List Decoded × List Byte) := do
  let (nb, strs) ← Nibbler.new mem numNibbles
  decodeFrags nb strs frags

/-- The star arguments `printSingleArg` passes to `fprintf` before the argument itself,
runtime/Log.cc:1274-1281; absent width/precision is `-1` (1439, 1443). -/
def printStars (width prec : Option Int) : List Int :=
  let w := width.getD (-1)
  let p := prec.getD (-1)
  if w < 0 ∧ p < 0 then []
  else if w ≥ 0 ∧ p < 0 then [w]
  else if w ≥ 0 ∧ p ≥ 0 then [w, p]
  else [p]

end NanoLog
