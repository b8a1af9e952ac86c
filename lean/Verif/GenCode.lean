import Verif.PreFmt
import Verif.Args

/-!
# Model of the code generated by the preprocessor
(`generateLogFunctions`, `preprocessor/FunctionGenerator.py`)

The generator turns the parsed format (`PyFmt`) into three C++ functions.  The parts of these
functions that depend on the format are modelled as small instruction lists (`LenDecl`, argument
indices), and the functions below execute them.  `none` is undefined behaviour (reading beyond an
array), or generated code that does not compile (an undeclared variable, a type mismatch).
-/

namespace NanoLog

/-- The C type named by a parameter type of the generated functions (x86-64 Linux);
preprocessor/FunctionGenerator.py:797-870 for the names. -/
def cTypes : List (List Byte × ATy) :=
  [(pyStr "int", .int .i32), (pyStr "unsigned int", .int .u32), (pyStr "signed char", .int .i8),
   (pyStr "unsigned char", .int .u8), (pyStr "short int", .int .i16),
   (pyStr "unsigned short int", .int .u16), (pyStr "long int", .int .i64),
   (pyStr "unsigned long int", .int .u64), (pyStr "long long int", .int .i64),
   (pyStr "unsigned long long int", .int .u64), (pyStr "intmax_t", .int .i64),
   (pyStr "uintmax_t", .int .u64), (pyStr "size_t", .int .u64), (pyStr "ptrdiff_t", .int .i64),
   (pyStr "wint_t", .int .u32), (pyStr "double", .f64), (pyStr "long double", .f80),
   (pyStr "const void*", .ptr 0), (pyStr "const char*", .cstr), (pyStr "const wchar_t*", .wstr)]

/-- Meaning of a type name; `none`: not a type.  See preprocessor/FunctionGenerator.py:797-870. -/
def cTy (t : List Byte) : Option ATy := (cTypes.find? (·.1 = t)).map (·.2)

/-- An argument of a generated function, after conversion to the parameter type.  A string is a
pointer; the list is the array from there to its end, in characters.
See preprocessor/FunctionGenerator.py:387-458. -/
inductive GArg where
  | scalar (s : Scalar)
  | str (mem : List Byte)
  | wstr (mem : List Nat)
  deriving DecidableEq, Repr

/-- Precision part of a `strNLen` declaration: none, an argument, or a constant.
See preprocessor/FunctionGenerator.py:411-436. -/
inductive LenPrec where
  | none
  | arg (i : Nat)
  | const (n : Nat)
  deriving DecidableEq, Repr

/-- `size_t str{idx}Len = …;`, preprocessor/FunctionGenerator.py:411-436. -/
structure LenDecl where
  idx : Nat
  wide : Bool
  prec : LenPrec
  deriving DecidableEq, Repr

/-- `isStringType` on the type of a specifier, which may be `None`,
preprocessor/FunctionGenerator.py:878-881. -/
def PyFmt.isStr (f : PyFmt) : Bool :=
  match f.type with
  | none => false
  | some t => isStringType t

/-- `isWideString` on the type of a specifier, preprocessor/FunctionGenerator.py:887-888. -/
def PyFmt.isWide (f : PyFmt) : Bool :=
  match f.type with
  | none => false
  | some t => isWideString t

/-- The precision case distinction, preprocessor/FunctionGenerator.py:415-434.  `not precision` holds
for an absent precision and for the precision 0. -/
def lenPrec (p : PyNum) (argNum : Nat) : LenPrec :=
  match p with
  | .none => .none
  | .num 0 => .none
  | .star => .arg (argNum - 1)
  | .num n => .const n

/-- The loop over the specifiers, preprocessor/FunctionGenerator.py:397-438, from `argNum`. -/
def lenDecls : List PyFmt → Nat → List LenDecl
  | [], _ => []
  | f :: fs, argNum =>
    let n1 := if f.prec = .star then argNum + 1 else argNum
    let n2 := if f.width = .star then n1 + 1 else n1
    if f.isStr then ⟨n2, f.isWide, lenPrec f.prec n2⟩ :: lenDecls fs (n2 + 1)
    else lenDecls fs (n2 + 1)

/-- The indices, from `k`, of the argument types that are strings (`str = true`) or not:
`stringArgsIdx` and `nonStringArgsIdx`, preprocessor/FunctionGenerator.py:388-391. -/
def argsIdx (str : Bool) : List (List Byte) → Nat → List Nat
  | [], _ => []
  | t :: ts, k => if isStringType t = str then k :: argsIdx str ts (k + 1) else argsIdx str ts (k + 1)

/-! ## C library functions on arrays -/

/-- `strlen`, `wcslen`; `z` is the null character. `none`: no terminator in the array.
See preprocessor/FunctionGenerator.py:411-434. -/
def cLen {α : Type} [DecidableEq α] (z : α) : List α → Option Nat
  | [] => none
  | c :: s => if c = z then some 0 else (cLen z s).map (· + 1)

/-- `strnlen`, `wcsnlen_s` (the latter is optional in C11; where the library lacks it, generated code
for wide strings with a precision does not compile).  `none`: the array ends before the limit and has
no terminator. -/
def cNLen {α : Type} [DecidableEq α] (z : α) : List α → Nat → Option Nat
  | _, 0 => some 0
  | [], _ + 1 => none
  | c :: s, n + 1 => if c = z then some 0 else (cNLen z s n).map (· + 1)

/-- The limit passed to `strnlen`: an `int` argument is converted to `size_t`.
See preprocessor/FunctionGenerator.py:411-434. -/
def limitOf (args : List GArg) : LenPrec → Option (Option Nat)
  | .none => some none
  | .const n => some (some n)
  | .arg i =>
    match args[i]? with
    | some (.scalar (.int _ v)) => some (some (ITy.u64.cast v).toNat)
    | _ => none

/-- Number of characters before the terminator or limit.  See preprocessor/FunctionGenerator.py:411-434. -/
def lenWith {α : Type} [DecidableEq α] (z : α) (mem : List α) : Option Nat → Option Nat
  | none => cLen z mem
  | some n => cNLen z mem n

/-- Value of `str{idx}Len`, preprocessor/FunctionGenerator.py:411-434. -/
def LenDecl.eval (args : List GArg) (d : LenDecl) : Option Nat :=
  match limitOf args d.prec with
  | none => none
  | some lim =>
    match args[d.idx]?, d.wide with
    | some (.str mem), false => (lenWith 0 mem lim).map (1 + ·)
    | some (.wstr mem), true => (lenWith 0 mem lim).map fun n => (1 + n) * 4
    | _, _ => none

/-- All declarations, as an environment.  See preprocessor/FunctionGenerator.py:397-438. -/
def evalLens (args : List GArg) : List LenDecl → Option (List (Nat × Nat))
  | [] => some []
  | d :: ds =>
    match d.eval args with
    | none => none
    | some n => (evalLens args ds).map ((d.idx, n) :: ·)

/-- Value of the variable `str{i}Len`.  See preprocessor/FunctionGenerator.py:411-434. -/
def lookupLen : List (Nat × Nat) → Nat → Option Nat
  | [], _ => none
  | (k, n) :: env, i => if k = i then some n else lookupLen env i

/-! ## The record function, preprocessor/FunctionGenerator.py:387-500 -/

/-- `sizeof(arg{i}) + …`, preprocessor/FunctionGenerator.py:445-446. -/
def sumSizeof (types : List (List Byte)) : List Nat → Option Nat
  | [] => some 0
  | i :: is =>
    match types[i]?.bind cTy, sumSizeof types is with
    | some t, some n => some (t.size + n)
    | _, _ => none

/-- `str{i}Len + …`, preprocessor/FunctionGenerator.py:442-443. -/
def sumLens (env : List (Nat × Nat)) : List Nat → Option Nat
  | [] => some 0
  | i :: is =>
    match lookupLen env i, sumLens env is with
    | some t, some n => some (t + n)
    | _, _ => none

/-- `recordPrimitive(buffer, arg{i});` for every index, preprocessor/FunctionGenerator.py:452-453;
runtime/Log.h:625-630.  `buf` is what has been written so far. -/
def recordPrims (args : List GArg) : List Nat → List Byte → Option (List Byte)
  | [], buf => some buf
  | i :: is, buf =>
    match args[i]? with
    | some (.scalar s) => recordPrims args is (buf ++ s.repr)
    | _ => none

/-- Array of a string argument in bytes and the size of its character type.
See preprocessor/FunctionGenerator.py:411-458. -/
def GArg.strMem : GArg → Option (List Byte × Nat)
  | .scalar _ => none
  | .str mem => some (mem, 1)
  | .wstr mem => some (wbytes mem, 4)

/-- `memcpy(buffer, arg, len); buffer += len; *(buffer - 1) = L'\0';` for every string,
preprocessor/FunctionGenerator.py:455-458; the last store overwrites one character. -/
def recordStrs (args : List GArg) (env : List (Nat × Nat)) : List Nat → List Byte → Option (List Byte)
  | [], buf => some buf
  | i :: is, buf =>
    match args[i]?.bind GArg.strMem, lookupLen env i with
    | some (mem, w), some n =>
      match takeN n mem with
      | none => none
      | some (bytes, _) =>
        let buf1 := buf ++ bytes
        recordStrs args env is (buf1.take (buf1.length - w) ++ List.replicate w 0)
    | _, _ => none

/-- `sizeof(UncompressedEntry)`, runtime/Log.h:181-196. -/
def genEntrySize : Nat := 16

/-- The generated record function after the log level test, preprocessor/FunctionGenerator.py:461-500.
Result: `allocSize`, `re->entrySize`, and the bytes written at `re->argData`. -/
def genRecord (fs : List PyFmt) (args : List GArg) : Option (Nat × Nat × List Byte) :=
  let types := pyArgs fs
  match evalLens args (lenDecls fs 0) with
  | none => none
  | some env =>
    match sumSizeof types (argsIdx false types 0), sumLens env (argsIdx true types 0) with
    | some a, some b =>
      let allocSize := a + b + genEntrySize
      match recordPrims args (argsIdx false types 0) [] with
      | none => none
      | some buf =>
        (recordStrs args env (argsIdx true types 0) buf).map fun bytes =>
          (allocSize, allocSize % 2 ^ 32, bytes)
    | _, _ => none

/-! ## The compression function, preprocessor/FunctionGenerator.py:502-564 -/

/-- `type arg{i}; memcpy(&arg{i}, args, sizeof(type)); args += sizeof(type);` for every index,
preprocessor/FunctionGenerator.py:511-516.  Result: the values and the memory at `args`. -/
def readBack (types : List (List Byte)) : List Nat → List Byte → Option (List Scalar × List Byte)
  | [], mem => some ([], mem)
  | i :: is, mem =>
    match types[i]?.bind cTy with
    | none => none
    | some t =>
      match takeN t.size mem with
      | none => none
      | some (raw, mem1) => (readBack types is mem1).map fun r => (readScalar t raw :: r.1, r.2)

/-- The generated compression function: nibble area, packed scalars (`nib[i/2].first/second`,
preprocessor/FunctionGenerator.py:518-524), then the string bytes in one block (544-552).  `mem` is the
memory at `re->argData`; the subtraction is in `size_t` (wraps).  `junk`: previous content of an
unused nibble. -/
def genCompress (junk : Nat) (fs : List PyFmt) (entrySize : Nat) (mem : List Byte) :
    Option (List Byte) :=
  let types := pyArgs fs
  match readBack types (argsIdx false types 0) mem, sumSizeof types (argsIdx false types 0) with
  | some (ss, args), some a =>
    let packed := writeNibbles junk (ss.map fun s => s.pack.1) ++ (ss.map fun s => s.pack.2).flatten
    if argsIdx true types 0 = [] then some packed
    else
      (takeN ((entrySize + 2 ^ 64 - a + 2 ^ 64 - genEntrySize) % 2 ^ 64) args).map fun p => packed ++ p.1
  | _, _ => none

/-! ## The decompression function, preprocessor/FunctionGenerator.py:566-631 -/

/-- Type at which `unpack<type>` reads a parameter. -/
def ATy.rty : ATy → Option RTy
  | .int t => some (.int t)
  | .ptr _ => some .ptr
  | .f64 => some .dbl
  | .f80 => some .ldbl
  | _ => none

/-- `nib[i/2].first` or `.second`, preprocessor/FunctionGenerator.py:574-577. -/
def nibAt (nib : List Byte) (i : Nat) : Option Nat :=
  (nib[i / 2]?).map fun b => if i % 2 = 0 then nibFirst b else nibSecond b

/-- The `unpack` statements from number `i` on, preprocessor/FunctionGenerator.py:572-577.  Result: the
variables and the memory at `*in`. -/
def unpackVars (types : List (List Byte)) (nib : List Byte) :
    List Nat → Nat → List Byte → Option (List (Nat × PArg) × List Byte)
  | [], _, mem => some ([], mem)
  | idx :: is, i, mem =>
    match (types[idx]?.bind cTy).bind ATy.rty, nibAt nib i with
    | some r, some n =>
      match unpackAs r n mem with
      | none => none
      | some (v, mem1) => (unpackVars types nib is (i + 1) mem1).map fun r => ((idx, .scalar v) :: r.1, r.2)
    | _, _ => none

/-- The string statements, preprocessor/FunctionGenerator.py:580-590. -/
def readStrs (types : List (List Byte)) :
    List Nat → List Byte → Option (List (Nat × PArg) × List Byte)
  | [], mem => some ([], mem)
  | idx :: is, mem =>
    match types[idx]? with
    | none => none
    | some t =>
      if isWideString t then
        match takeWStr mem with
        | none => none
        | some (s, mem1) => (readStrs types is mem1).map fun r => ((idx, .wstr s) :: r.1, r.2)
      else
        match takeCStr mem with
        | none => none
        | some (s, mem1) => (readStrs types is mem1).map fun r => ((idx, .str s) :: r.1, r.2)

/-- The variable `arg{i}`. -/
def lookupVar : List (Nat × PArg) → Nat → Option PArg
  | [], _ => none
  | (k, v) :: env, i => if k = i then some v else lookupVar env i

/-- `, arg0, arg1, …`, preprocessor/FunctionGenerator.py:630: `n` arguments from number `i`. -/
def printArgs (env : List (Nat × PArg)) : Nat → Nat → Option (List PArg)
  | 0, _ => some []
  | n + 1, i =>
    match lookupVar env i, printArgs env n (i + 1) with
    | some v, some vs => some (v :: vs)
    | _, _ => none

/-- The generated decompression function: the arguments passed to `fprintf` (and to the aggregation
function) after the format string, and the memory after the message. -/
def genDecompress (fs : List PyFmt) (mem : List Byte) : Option (List PArg × List Byte) :=
  let types := pyArgs fs
  let prims := argsIdx false types 0
  match takeN ((prims.length + 1) / 2) mem with
  | none => none
  | some (nib, mem1) =>
    match unpackVars types nib prims 0 mem1 with
    | none => none
    | some (vars, mem2) =>
      match readStrs types (argsIdx true types 0) mem2 with
      | none => none
      | some (vars', mem3) => (printArgs (vars ++ vars') types.length 0).map fun as => (as, mem3)

end NanoLog
