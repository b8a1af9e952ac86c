import Verif.ArgsLemmas
import Verif.FmtLemmas

/-!
# Properties C12, C13, C36: the arguments of one log call
-/

namespace NanoLog

/-- **C12.**  The number of bytes a log call computes in advance for its arguments is the
number of bytes it stores, for all parameter lists and arguments. -/
theorem C12_reserved_equals_written (ps : List ParamType) (as : List Arg)
    (hl : ps.length = as.length) (ha : ∀ a ∈ as, a.Valid) :
    (storedArgs ps as).length = argAllocSize ps as :=
  storeArguments_length ps initPrecision as hl ha

/-- Arguments for the format `"%*.*ld %s %.2s"`. -/
def exampleArgs : List Arg :=
  [.int .i32 10, .int .i32 3, .int .i64 (-99), .cstr 4096 [104, 105], .cstr 4100 [97, 98, 99]]

/-- Its conversions. -/
def examplePieces : List Piece :=
  [(some ⟨true, true, none, .long⟩, [37, 42, 46, 42, 108, 100]),
   (some ⟨false, false, none, .charPtr⟩, [32, 37, 115]),
   (some ⟨false, false, some 2, .charPtr⟩, [32, 37, 46, 50, 115])]

example : (formatParams examplePieces).length = exampleArgs.length ∧
    (∀ a ∈ exampleArgs, a.Valid) ∧
    argAllocSize (formatParams examplePieces) exampleArgs = 28 := by decide

/-- **C13.**  Take any format (its pieces `cs`, each with at most one conversion), any
arguments matching it, and what `printf` must receive for them (`FormatPrints`: values
converted to the type of the conversion, strings cut to their static or dynamic precision).
Storing the arguments, compressing the stored bytes and decoding the result yields exactly
that; compression consumes exactly the stored bytes and decoding stops exactly at the end of
the compressed ones. -/
theorem C13_arguments_recovered {cs : List Piece} {as : List Arg} {ds : List Decoded}
    (h : FormatPrints cs as ds) (ha : ∀ a ∈ as, a.Valid)
    (hsz : argAllocSize (formatParams cs) as < 2 ^ 32) (junk : Nat) (more rest : List Byte) :
    ∃ out,
      compress junk (numNibblesNeeded (formatParams cs)) (as.map Arg.ty) (formatParams cs)
        (storedArgs (formatParams cs) as ++ more) = some (out, more) ∧
      decodeArgs (numNibblesNeeded (formatParams cs)) (formatFrags cs) (out ++ rest)
        = some (ds, rest) := by
  refine ⟨_, compress_eq h.matches ha hsz junk more, ?_⟩
  have hv := items_valid (ps := formatParams cs) initPrecision ha
  have hl := items_scalars_length h.matches initPrecision
  obtain ⟨nb, h1, h2⟩ := NibAt.new (junk := junk)
    (itemStrs (items (formatParams cs) initPrecision as) ++ rest) hv
  have := decodeFrags_ok h ha initPrecision nb _ rest h2
  rw [hl] at h1
  simp [decodeArgs, h1, this]

/-- What `printf` must receive for the example: width 10, precision 3, -99; "hi"; "ab". -/
def exampleDecoded : List Decoded :=
  [⟨[37, 42, 46, 42, 108, 100], some 10, some 3, some (.scalar (.int (-99)))⟩,
   ⟨[32, 37, 115], none, none, some (.str [104, 105])⟩,
   ⟨[32, 37, 46, 50, 115], none, none, some (.str [97, 98])⟩]

theorem example_prints : FormatPrints examplePieces exampleArgs exampleDecoded := by
  refine .conv (as := [.int .i32 10, .int .i32 3, .int .i64 (-99)]) (.mk _
    (ws := [.int .i32 10]) (ps := [.int .i32 3]) (.present _ _ (.inl (by decide)))
    (.present _ _ (.inl (by decide)))
    (.scalar _ rfl (.int .i64 .i64 (-99) (.inl (by decide))))) ?_
  refine .conv (as := [.cstr 4096 [104, 105]]) (.mk _ (ws := []) (ps := [])
    .absent .absent (.str _ _ _)) ?_
  refine .conv (as := [.cstr 4100 [97, 98, 99]]) (.mk _ (ws := []) (ps := [])
    .absent .absent (.str _ _ _)) .nil

example : FormatPrints examplePieces exampleArgs exampleDecoded ∧
    (∀ a ∈ exampleArgs, a.Valid) ∧
    argAllocSize (formatParams examplePieces) exampleArgs < 2 ^ 32 :=
  ⟨example_prints, by decide, by decide⟩

/-- The type condition of C13 (`%s` takes `char*`) is needed, although `printf` accepts any
pointer to a character type: an `unsigned char*` argument of `%s` is stored as a raw pointer
(8 bytes) but compressed as if it were a length-prefixed string, so compression fails or
reads foreign memory.  Here the low half of the pointer, 4096, is taken as the length. -/
theorem C13_unsigned_char_string_false :
    argAllocSize [.strNo] [.ptr 1 4096] = 8 ∧
    compress 0 (numNibblesNeeded [.strNo]) [ATy.ptr 1] [.strNo]
      (storedArgs [.strNo] [.ptr 1 4096]) = none := by decide

/-- Specification for C36: the `*` arguments `printf` must receive, width first. -/
def starsExpected (width prec : Option Int) : List Int := width.toList ++ prec.toList

/-- **C36** (partial).  If the dynamic width and precision are non-negative, the decoder
passes `fprintf` exactly the star arguments the format demands.  Missing: negative values,
which `printf` allows; see `C36_negative_false`. -/
theorem C36_dynamic_width_precision_partial (width prec : Option Int)
    (hw : ∀ w, width = some w → 0 ≤ w) (hp : ∀ p, prec = some p → 0 ≤ p) :
    printStars width prec = starsExpected width prec := by
  cases width with
  | none =>
    cases prec with
    | none => rfl
    | some p =>
      have := hp p rfl
      simp only [printStars, starsExpected, Option.getD, Option.toList]
      rw [if_neg (by omega), if_neg (by omega), if_neg (by omega)]
      rfl
  | some w =>
    have := hw w rfl
    cases prec with
    | none =>
      simp only [printStars, starsExpected, Option.getD, Option.toList]
      rw [if_neg (by omega), if_pos (by omega)]
      rfl
    | some p =>
      have := hp p rfl
      simp only [printStars, starsExpected, Option.getD, Option.toList]
      rw [if_neg (by omega), if_neg (by omega), if_pos (by omega)]
      rfl

example : printStars (some 10) (some 3) = [10, 3] := by decide

/-- C36 is false for negative values: `NANO_LOG("%*d", -5, x)` makes the decoder call
`fprintf("%*d", x)` with one argument too few.  More precisely the star arguments are right
if and only if every present one is non-negative. -/
theorem C36_negative_false (width prec : Option Int) :
    printStars width prec = starsExpected width prec ↔
      (∀ w, width = some w → 0 ≤ w) ∧ (∀ p, prec = some p → 0 ≤ p) := by
  constructor
  · intro h
    have hl := congrArg List.length h
    cases width <;> cases prec <;>
      simp only [printStars, starsExpected, Option.getD, Option.toList] at h hl
    · simp
    · rename_i p
      simp only [reduceCtorEq, false_implies, implies_true, Option.some.injEq, forall_eq', true_and]
      split at hl
      · simp at hl
      · omega
    · rename_i w
      simp only [reduceCtorEq, false_implies, implies_true, Option.some.injEq, forall_eq', and_true]
      split at hl
      · simp at hl
      · omega
    · rename_i w p
      simp only [Option.some.injEq, forall_eq']
      split at hl
      · simp at hl
      · split at hl
        · simp at hl
        · split at hl
          · omega
          · simp at hl
  · intro h
    exact C36_dynamic_width_precision_partial width prec h.1 h.2

example : printStars (some (-5)) none = [] ∧ starsExpected (some (-5)) none = [-5] := by decide

end NanoLog
