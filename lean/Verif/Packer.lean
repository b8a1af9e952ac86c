import Verif.Bytes

/-!
# Model of `runtime/Packer.h`

Variable-length integers, raw floats, nibble arrays and the `Nibbler` reader.
A packed value is a pair of the int returned by `pack()` and the bytes by which the output
pointer is advanced.  `packWrites` records how many bytes are physically written, because
`pack()` copies `sizeof(T)` bytes even if it advances by fewer.
-/

namespace NanoLog

/-- The if-chain of runtime/Packer.h:104-121 selecting the number of bytes. -/
def numBytes (v : Nat) : Nat :=
  if v < 2 ^ 8 then 1
  else if v < 2 ^ 16 then 2
  else if v < 2 ^ 24 then 3
  else if v < 2 ^ 32 then 4
  else if v < 2 ^ 40 then 5
  else if v < 2 ^ 48 then 6
  else if v < 2 ^ 56 then 7
  else 8

/-- `pack(char**, T)` for unsigned `T` of `sz` bytes, runtime/Packer.h:95-130: copy `sz`
bytes (126), advance by `numBytes` (127), return `numBytes` (129).  The kept bytes are the
first `numBytes` of the copied ones. -/
def packU (sz v : Nat) : Nat × List Byte :=
  (numBytes v, (le sz v).take (numBytes v))

/-- `pack(char**, int32_t)`, runtime/Packer.h:145-152. -/
def packI32 (v : Int) : Nat × List Byte :=
  if v ≥ 0 ∨ v ≤ -(2 ^ 24) then packU 4 (ITy.u32.cast v).toNat
  else
    let r := packU 4 (ITy.u32.cast (-v)).toNat
    (8 + r.1, r.2)

/-- `pack(char**, int64_t)` and `pack(char**, long long)`, runtime/Packer.h:154-172. -/
def packI64 (v : Int) : Nat × List Byte :=
  if v ≥ 0 ∨ v ≤ -(2 ^ 56) then packU 8 (ITy.u64.cast v).toNat
  else
    let r := packU 8 (ITy.u64.cast (-v)).toNat
    (8 + r.1, r.2)

/-- Overload resolution of `pack` on an integer argument: unsigned types use the template
(95-130), `int8_t`/`int16_t`/`int32_t` promote to the `int32_t` overload (145; the small
overloads are under `#if 0`, 178-195), 64-bit signed types use 154/165. -/
def packInt (t : ITy) (v : Int) : Nat × List Byte :=
  match t with
  | .u8 | .u16 | .u32 | .u64 => packU t.bytes v.toNat
  | .i8 | .i16 | .i32 => packI32 v
  | .i64 => packI64 v

/-- Number of bytes physically written by `packInt` (the `memcpy` of `sizeof(T)` bytes,
runtime/Packer.h:126, at the type of the selected overload). -/
def packIntWrites (t : ITy) : Nat :=
  match t with
  | .u8 | .u16 | .u32 | .u64 => t.bytes
  | .i8 | .i16 | .i32 => 4
  | .i64 => 8

/-- `unpack<T>` for integers, runtime/Packer.h:247-265.  `packed` is an `int64_t` filled
with `packResult` (or `packResult - 8`) bytes; the result is `static_cast<T>(±packed)`. -/
def unpackInt (t : ITy) (nib : Nat) (l : List Byte) : Option (Int × List Byte) :=
  if nib ≤ 8 then do
    let (bs, rest) ← takeN nib l
    some (t.cast (ITy.i64.cast (unle bs)), rest)
  else do
    let (bs, rest) ← takeN ((nib - 8) % 16) l
    some (t.cast (-(ITy.i64.cast (unle bs))), rest)

/-- `pack(char**, T*)`, runtime/Packer.h:208-212. -/
def packPtr (v : Nat) : Nat × List Byte := packU 8 v

/-- `unpack` for pointers, runtime/Packer.h:267-271 (via `unpack<uint64_t>`). -/
def unpackPtr (nib : Nat) (l : List Byte) : Option (Nat × List Byte) := do
  let (v, rest) ← unpackInt .u64 nib l
  some (v.toNat, rest)

/-- `pack` for floating point types, runtime/Packer.h:225-231; the value is its object
representation.  Returns `sizeof(T)`. -/
def packFloat (bits : List Byte) : Nat × List Byte := (bits.length, bits)

/-- A floating point value produced by `unpack`: either a `float` (converted by C++ to the
requested type, which is exact) or the raw object representation of the requested type.
See runtime/Packer.h:275-330. -/
inductive FVal where
  | fromFloat (bits : List Byte)
  | raw (bits : List Byte)
  deriving DecidableEq, Repr

/-- `unpack<T>` for floating point `T` with `sizeof(T) = sz`, runtime/Packer.h:273-290.
`none` also covers the undefined behaviour of copying 16 bytes into a `double` and of
returning a partly uninitialized `long double`. -/
def unpackFloat (sz nib : Nat) (l : List Byte) : Option (FVal × List Byte) :=
  if nib = 4 then do
    let (bs, rest) ← takeN 4 l
    some (.fromFloat bs, rest)
  else do
    let bytes := if nib = 0 then 16 else nib
    if bytes = sz then
      let (bs, rest) ← takeN bytes l
      some (.raw bs, rest)
    else none

/-! ## Scalars: the argument kinds that are packed -/

/-- A scalar log argument as the C++ value passed to `pack`.  See runtime/Packer.h:98-230. -/
inductive Scalar where
  | int (t : ITy) (v : Int)
  | ptr (v : Nat)
  | f32 (bits : List Byte)
  | f64 (bits : List Byte)
  | f80 (bits : List Byte)
  deriving DecidableEq, Repr

/-- The scalar is a value of its type. -/
def Scalar.Valid : Scalar → Prop
  | .int t v => t.InRange v
  | .ptr v => v < 2 ^ 64
  | .f32 b => b.length = 4
  | .f64 b => b.length = 8
  | .f80 b => b.length = 16

instance instDecidableScalarValid (s : Scalar) : Decidable s.Valid := by
  cases s <;> unfold Scalar.Valid <;> infer_instance

/-- `sizeof(T)` of the scalar.  See runtime/Packer.h:98-230. -/
def Scalar.size : Scalar → Nat
  | .int t _ => t.bytes
  | .ptr _ => 8
  | .f32 _ => 4
  | .f64 _ => 8
  | .f80 _ => 16

/-- `pack(out, argument)` by overload, runtime/Packer.h:95-231. -/
def Scalar.pack : Scalar → Nat × List Byte
  | .int t v => packInt t v
  | .ptr v => packPtr v
  | .f32 b => packFloat b
  | .f64 b => packFloat b
  | .f80 b => packFloat b

/-- Bytes physically written by `pack` (runtime/Packer.h:126, 228). -/
def Scalar.packWrites : Scalar → Nat
  | .int t _ => packIntWrites t
  | s => s.size

/-- The type at which the decoder reads a packed value back (`Nibbler::getNext<T>`).
See runtime/Packer.h:250-330, 382-396. -/
inductive RTy where
  | int (t : ITy)
  | ptr
  | dbl
  | ldbl
  deriving DecidableEq, Repr

/-- A value read back.  See runtime/Packer.h:250-330, 382-396. -/
inductive RVal where
  | int (v : Int)
  | ptr (v : Nat)
  | flt (v : FVal)
  deriving DecidableEq, Repr

/-- `unpack<T>` dispatch, runtime/Packer.h:247-290. -/
def unpackAs (r : RTy) (nib : Nat) (l : List Byte) : Option (RVal × List Byte) :=
  match r with
  | .int t => (unpackInt t nib l).map fun p => (.int p.1, p.2)
  | .ptr => (unpackPtr nib l).map fun p => (.ptr p.1, p.2)
  | .dbl => (unpackFloat 8 nib l).map fun p => (.flt p.1, p.2)
  | .ldbl => (unpackFloat 16 nib l).map fun p => (.flt p.1, p.2)

/-! ## Nibble arrays -/

/-- A byte holding two nibbles: `struct TwoNibbles`, runtime/Packer.h:75-80; `first` is in
the low four bits. -/
def twoNibbles (first second : Nat) : Byte := UInt8.ofNat (first % 16 + 16 * (second % 16))

/-- `TwoNibbles::first`, runtime/Packer.h:77. -/
def nibFirst (b : Byte) : Nat := b.toNat % 16

/-- `TwoNibbles::second`, runtime/Packer.h:78. -/
def nibSecond (b : Byte) : Nat := b.toNat / 16

/-- The nibble array written for a list of `pack` results.  Each result is masked with
`0xf` (runtime/NanoLogCpp17.h:808-811).  The unused second nibble of an odd array keeps
whatever was in the output buffer: `junk`. -/
def writeNibbles (junk : Nat) : List Nat → List Byte
  | [] => []
  | [a] => [twoNibbles a junk]
  | a :: b :: rest => twoNibbles a b :: writeNibbles junk rest

/-- Contribution of one nibble to the size, runtime/Packer.h:309-317.  The arithmetic is
`uint32_t`; no term wraps because `v > 8` whenever 8 is subtracted. -/
def nibbleSize (v : Nat) : Nat := v + (if v = 0 then 16 else 0) - (if v > 8 then 8 else 0)

/-- `getSizeOfPackedValues`, runtime/Packer.h:304-329: loop over pairs, then the last
nibble if the count is odd.  `none` if the nibble array is cut short. -/
def getSizeOfPackedValues : List Byte → Nat → Option Nat
  | _, 0 => some 0
  | b :: _, 1 => some (nibbleSize (nibFirst b))
  | b :: bs, n + 2 =>
    (getSizeOfPackedValues bs n).map fun s =>
      nibbleSize (nibFirst b) + nibbleSize (nibSecond b) + s
  | [], _ + 1 => none

/-- State of a `Nibbler`, runtime/Packer.h:335-350.  `nibs` is the memory at
`nibblePosition`, `cur` the memory at `currPackedValue`; `left` is the distance from
`currPackedValue` to `endOfValues` (negative if the reader overran). -/
structure Nibbler where
  nibs : List Byte
  onFirst : Bool
  cur : List Byte
  left : Int
  deriving DecidableEq, Repr

/-- `Nibbler` constructor, runtime/Packer.h:361-371, together with
`getEndOfPackedArguments` (404-407), returned as the memory after the packed values. -/
def Nibbler.new (mem : List Byte) (numNibbles : Nat) : Option (Nibbler × List Byte) := do
  let (_, cur) ← takeN ((numNibbles + 1) / 2) mem
  let sz ← getSizeOfPackedValues mem numNibbles
  let (_, strs) ← takeN sz cur
  some ({ nibs := mem, onFirst := true, cur := cur, left := sz }, strs)

/-- `Nibbler::getNext<T>`, runtime/Packer.h:381-396.  `none` if the assert on line 383
fails or memory is exhausted. -/
def Nibbler.getNext (nb : Nibbler) (r : RTy) : Option (RVal × Nibbler) :=
  if nb.left ≤ 0 then none
  else
    match nb.nibs with
    | [] => none
    | b :: bs => do
      let nib := if nb.onFirst then nibFirst b else nibSecond b
      let (v, cur') ← unpackAs r nib nb.cur
      some (v, { nibs := if nb.onFirst then nb.nibs else bs
                 onFirst := !nb.onFirst
                 cur := cur'
                 left := nb.left - ((nb.cur.length : Int) - cur'.length) })

/-- Read a whole list of values: the sequence of `getNext` calls made by
`decompressNextLogStatement`, runtime/Log.cc:1436-1657. -/
def Nibbler.getMany (nb : Nibbler) : List RTy → Option (List RVal × Nibbler)
  | [] => some ([], nb)
  | r :: rs => do
    let (v, nb1) ← nb.getNext r
    let (vs, nb2) ← nb1.getMany rs
    some (v :: vs, nb2)

/-- The encoding of a scalar list: nibble array followed by packed values, as laid out by
`compress`, runtime/NanoLogCpp17.h:924-946. -/
def encodeScalars (junk : Nat) (ss : List Scalar) : List Byte :=
  writeNibbles junk (ss.map fun s => s.pack.1) ++ (ss.map fun s => s.pack.2).flatten

end NanoLog
