import Verif.Args
import Verif.PackerSpec

/-!
# Specification of logging and decoding the arguments of one message
-/

namespace NanoLog

/-- A conversion of a format string: `%` with optional dynamic width/precision, an optional
static precision, and the type it prints. -/
structure Conv where
  dynW : Bool
  dynP : Bool
  prec : Option Nat
  ty : FormatType
  deriving DecidableEq, Repr

/-- Parameters a conversion consumes, in `printf` order. -/
def Conv.params (c : Conv) : List ParamType :=
  (if c.dynW then [.dynWidth] else []) ++ (if c.dynP then [.dynPrec] else []) ++
  [if c.ty.rty.isSome then .nonString
   else if c.dynP then .strDyn
   else match c.prec with
    | some n => .strPrec n
    | none => .strNo]

/-- The argument is a legal C++ value; strings contain no NUL. -/
def Arg.Valid : Arg → Prop
  | .int t v => t.InRange v
  | .ptr _ v => v < 2 ^ 64
  | .f32 b => b.length = 4
  | .f64 b => b.length = 8
  | .f80 b => b.length = 16
  | .cstr a s => a < 2 ^ 64 ∧ s.length < 2 ^ 63 ∧ ∀ b ∈ s, b ≠ 0
  | .wstr a s => a < 2 ^ 64 ∧ s.length < 2 ^ 61 ∧ ∀ w ∈ s, 0 < w ∧ w < 2 ^ 32

instance instDecidableArgValid (a : Arg) : Decidable a.Valid := by
  cases a <;> unfold Arg.Valid <;> infer_instance

/-- `printf`'s view of a precision: a negative one counts as absent. -/
def truncate {α : Type} (prec : Option Int) (s : List α) : List α :=
  match prec with
  | none => s
  | some p => if p < 0 then s else s.take p.toNat

/-- A star argument: present iff the conversion has the star; any integer type not wider
than what an `int` read-back supports. `star` is its value, `v` what `printf` receives. -/
inductive StarArg : Bool → List Arg → Option Int → Option Int → Prop where
  | absent : StarArg false [] none none
  | present (t : ITy) (x : Int) (h : 4 ≤ t.promotedBytes ∨ -(2 ^ 24) < x) :
      StarArg true [.int t x] (some x) (some (ITy.i32.cast x))

/-- What `printf` must receive for the value argument of a conversion. `pr` is the effective
precision. -/
inductive ValArg : FormatType → Option Int → Arg → PArg → Prop where
  | scalar {ty r a v} (pr) (h : ty.rty = some r) (hr : Reads a.toScalar r v) :
      ValArg ty pr a (.scalar v)
  | str (pr a s) : ValArg .charPtr pr (.cstr a s) (.str (truncate pr s))
  | wstr (pr a s) : ValArg .wcharPtr pr (.wstr a s) (.wstr (truncate pr s))

/-- `ConvPrints c args d`: conversion `c` applied to `args` must print `d`. -/
inductive ConvPrints : Conv → List Arg → List Byte → Decoded → Prop where
  | mk {c : Conv} {ws ps : List Arg} {a : Arg} {wv pv : Option Int} {wd pd : Option Int} {x : PArg}
      (text : List Byte)
      (hw : StarArg c.dynW ws wv wd) (hp : StarArg c.dynP ps pv pd)
      (ha : ValArg c.ty (if c.dynP then pv else c.prec.map Int.ofNat) a x) :
      ConvPrints c (ws ++ ps ++ [a]) text ⟨text, wd, pd, some x⟩

/-- A piece of a format string: text with at most one conversion in it. -/
abbrev Piece := Option Conv × List Byte

/-- A whole format, given as pieces, applied to arguments. -/
inductive FormatPrints : List Piece → List Arg → List Decoded → Prop where
  | nil : FormatPrints [] [] []
  | text {text cs as ds} (ht : FormatPrints cs as ds) :
      FormatPrints ((none, text) :: cs) as (⟨text, none, none, none⟩ :: ds)
  | conv {c text as d cs as' ds} (h : ConvPrints c as text d) (ht : FormatPrints cs as' ds) :
      FormatPrints ((some c, text) :: cs) (as ++ as') (d :: ds)

/-- Parameters of one piece. -/
def Piece.params (c : Piece) : List ParamType :=
  match c.1 with
  | none => []
  | some c => c.params

/-- Parameter list of a whole format. -/
def formatParams (cs : List Piece) : List ParamType := cs.flatMap Piece.params

/-- The print fragment describing one piece. -/
def Piece.frag (c : Piece) : Frag :=
  match c.1 with
  | none => ⟨none, false, false, c.2⟩
  | some v => ⟨some v.ty, v.dynW, v.dynP, c.2⟩

/-- Fragments describing a whole format. -/
def formatFrags (cs : List Piece) : List Frag := cs.map Piece.frag

end NanoLog
