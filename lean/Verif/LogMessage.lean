import Verif.Decode

/-!
# Model of `class LogMessage`, runtime/Log.h:719-855 and runtime/Log.cc:497-593

The container through which the decoder hands out the arguments of one message.  A slot is
eight bytes of memory; a value of a smaller type is written to the first bytes of the slot and
leaves the other bytes as they were.  `none` is undefined behaviour (access outside an array,
through a null pointer, signed overflow) or a failed `assert`.  `malloc` does not fail (a
failure ends the program, runtime/Log.cc:534-538); the contents of new memory are arbitrary.
-/

namespace NanoLog

/-- `LogMessage::INITIAL_SIZE`, runtime/Log.h:723. -/
def logMsgInit : Nat := 10

/-- `class LogMessage`, runtime/Log.h:725-748.  `meta` is the address of the static
information, `none` for `nullptr`. -/
structure LogMsg where
  meta? : Option Nat
  id : Nat
  ts : Nat
  numArgs : Nat
  cap : Nat
  raw : List (List Byte)
  ext : Option (List (List Byte))
  deriving DecidableEq, Repr

/-- Constructor, runtime/Log.cc:498-506. -/
def LogMsg.new : LogMsg where
  meta? := none
  id := 2 ^ 32 - 1
  ts := 0
  numArgs := 0
  cap := logMsgInit
  raw := List.replicate logMsgInit (List.replicate 8 0)
  ext := none

/-- `LogMessage::reset`, runtime/Log.cc:566-573; the defaults of runtime/Log.h:759-760 are
`none, 2^32-1, 0`. -/
def LogMsg.reset (s : LogMsg) (m : Option Nat) (id ts : Nat) : LogMsg :=
  { s with meta? := m, id := id, ts := ts, numArgs := 0 }

/-- `LogMessage::valid`, runtime/Log.cc:576-578. -/
def LogMsg.valid (s : LogMsg) : Bool := s.meta?.isSome

/-- `while (totalCapacity < nparams) totalCapacity *= 2;` runtime/Log.cc:528-529.  The
capacity is an `int`: its overflow is undefined.  Thirty-two doublings leave the range of
`int`, so the loop has at most that many rounds. -/
def growCap : Nat → Nat → Nat → Option Nat
  | 0, _, _ => none
  | fuel + 1, c, n =>
    if c < n then
      if 2 * c < 2 ^ 31 then growCap fuel (2 * c) n else none
    else some c

/-- Contents of memory returned by `malloc`: any bytes.  See runtime/Log.cc:523-552. -/
abbrev Junk := Nat → Fin 8 → Byte

/-- `n` slots of new memory.  See runtime/Log.cc:523-552. -/
def Junk.slots (j : Junk) (n : Nat) : List (List Byte) :=
  (List.range n).map fun i => List.ofFn (j i)

/-- `LogMessage::reserve`, runtime/Log.cc:523-552.  The `memcpy` takes `numArgs - 10` slots
of the old extension; a negative or too large count is undefined. -/
def LogMsg.reserve (s : LogMsg) (n : Nat) (j : Junk) : Option LogMsg :=
  if n ≤ s.cap then some s
  else
    match growCap 32 s.cap n with
    | none => none
    | some c =>
      let fresh := j.slots (c - logMsgInit)
      match s.ext with
      | none => some { s with cap := c, ext := some fresh }
      | some old =>
        if s.numArgs < logMsgInit ∨ old.length < s.numArgs - logMsgInit
            ∨ fresh.length < s.numArgs - logMsgInit then none
        else
          let k := s.numArgs - logMsgInit
          some { s with cap := c, ext := some (old.take k ++ fresh.drop k) }

/-- Write the bytes of a value to the front of slot `i` of an array.  See runtime/Log.h:773-789. -/
def storeSlot (a : List (List Byte)) (i : Nat) (bs : List Byte) : Option (List (List Byte)) :=
  match a[i]? with
  | none => none
  | some old => some (a.set i (overlay bs old))

/-- `push<T>(in)`, runtime/Log.h:773-789, for a value with the bytes `bs` (`sizeof(T)` many,
at most eight). -/
def LogMsg.push (s : LogMsg) (bs : List Byte) (j : Junk) : Option LogMsg :=
  match (if s.numArgs = s.cap then s.reserve (s.numArgs + 1) j else some s) with
  | none => none
  | some s =>
    if s.numArgs < logMsgInit then
      match storeSlot s.raw s.numArgs bs with
      | none => none
      | some raw => some { s with raw := raw, numArgs := s.numArgs + 1 }
    else
      match s.ext with
      | none => none
      | some e =>
        match storeSlot e (s.numArgs - logMsgInit) bs with
        | none => none
        | some e' => some { s with ext := some e', numArgs := s.numArgs + 1 }

/-- `push(long double)`, runtime/Log.h:826-829: `push<int>(-1)`. -/
def LogMsg.pushLong (s : LogMsg) (j : Junk) : Option LogMsg :=
  s.push (List.replicate 4 255) j

/-- `get<T>(argNum)` with `sizeof(T) = n`, runtime/Log.h:804-817.  The `assert` compares with
the capacity, not with the number of arguments.  (`get<long double>`, 844-852, ends the
program.) -/
def LogMsg.get (s : LogMsg) (n i : Nat) : Option (List Byte) :=
  if s.cap ≤ i then none
  else if i < logMsgInit then (s.raw[i]?).map (·.take n)
  else
    match s.ext with
    | none => none
    | some e => (e[i - 10]?).map (·.take n)

/-! ## Values the decoder pushes -/

/-- Conversion of the bits of a `float` to those of the `double` of the same value. -/
abbrev Widen := List Byte → Fin 8 → Byte

/-- Object representation of a decoded value of type `r`; `none` for `long double`, which has
its own overload of `push`. -/
def RVal.rep (wd : Widen) : RTy → RVal → Option (List Byte)
  | .int t, .int v => some (le t.bytes (v % 2 ^ (8 * t.bytes)).toNat)
  | .ptr, .ptr v => some (le 8 v)
  | .dbl, .flt (.raw bs) => some bs
  | .dbl, .flt (.fromFloat bs) => some (List.ofFn (wd bs))
  | _, _ => none

/-- `logArguments.push(arg)` in `printSingleArg`, runtime/Log.cc:1265, for a value that is
neither a string nor a `long double`. -/
def pushScalar (wd : Widen) (s : LogMsg) (j : Junk) (ty : FormatType) (a : Option PArg) :
    Option LogMsg :=
  match ty.rty, a with
  | some r, some (.scalar v) =>
    match v.rep wd r with
    | some bs => s.push bs j
    | none => none
  | _, _ => none

/-- `logArguments.push(arg)` in `printSingleArg`, runtime/Log.cc:1265, for one fragment.
Strings are pushed as pointers into the memory of the extent; `top` is the address of the end
of that memory and `strs` the memory from the string on (`nextStringArg`). -/
def pushFrag (wd : Widen) (top : Nat) (s : LogMsg) (j : Junk) (f : Frag) (strs : List Byte)
    (d : Decoded) : Option LogMsg :=
  match f.ty with
  | none => some s
  | some .charPtr => s.push (le 8 (top - strs.length)) j
  | some .wcharPtr => s.push (le 8 (top - strs.length)) j
  | some .longDouble => s.pushLong j
  | some ty => pushScalar wd s j ty d.arg

/-- The fragment loop of `decompressNextLogStatement`, runtime/Log.cc:1436-1663, with the
container (the values read are those of `decodeFrags`). -/
def pushFrags (wd : Widen) (top : Nat) (j : Nat → Junk) (s : LogMsg) (nb : Nibbler)
    (strs : List Byte) : List Frag → Option LogMsg
  | [] => some s
  | f :: fs => do
    let (d, nb1, strs1) ← decodeFrag nb strs f
    let s1 ← pushFrag wd top s (j fs.length) f strs d
    pushFrags wd top j s1 nb1 strs1 fs

/-- `decompressNextLogStatement` as far as the container is concerned: `logArgs.reset(metadata,
nextLogId, nextLogTimestamp)`, runtime/Log.cc:1412, and the fragment loop. -/
def fillMsg (wd : Widen) (top : Nat) (j : Nat → Junk) (s : LogMsg) (m id ts : Nat)
    (numNibbles : Nat) (frags : List Frag) (mem : List Byte) : Option LogMsg := do
  let (nb, strs) ← Nibbler.new mem numNibbles
  pushFrags wd top j (s.reset (some m) id ts) nb strs frags

end NanoLog
