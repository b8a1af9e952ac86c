import Verif.Packer

/-!
# Specification for the packed encoding, independent of `pack`/`unpack`

What a reader must obtain for a scalar of a given C++ type read back at another C++ type.
-/

namespace NanoLog

/-- Bytes of the type after C's integral promotion of small signed types to `int`. -/
def ITy.promotedBytes : ITy → Nat
  | .i8 | .i16 => 4
  | t => t.bytes

/-- Specification: `Reads s r v` says that scalar `s` read back at type `r` must give `v`.
Integers: C conversion, if the reading type is no wider or the value is not a large negative
`int` (in particular for every unsigned value).  Pointers and floats: same bits
(a `float` may be read as `double` or `long double`, C's exact promotion). -/
inductive Reads : Scalar → RTy → RVal → Prop where
  | int (t t' : ITy) (v : Int) (h : t'.bytes ≤ t.promotedBytes ∨ -(2 ^ 24) < v) :
      Reads (.int t v) (.int t') (.int (t'.cast v))
  | ptr (v : Nat) : Reads (.ptr v) .ptr (.ptr v)
  | f32d (b : List Byte) : Reads (.f32 b) .dbl (.flt (.fromFloat b))
  | f32l (b : List Byte) : Reads (.f32 b) .ldbl (.flt (.fromFloat b))
  | f64 (b : List Byte) : Reads (.f64 b) .dbl (.flt (.raw b))
  | f80 (b : List Byte) : Reads (.f80 b) .ldbl (.flt (.raw b))

/-- Pointwise version for argument lists. -/
inductive ReadsAll : List Scalar → List RTy → List RVal → Prop where
  | nil : ReadsAll [] [] []
  | cons {s r v ss rs vs} : Reads s r v → ReadsAll ss rs vs →
      ReadsAll (s :: ss) (r :: rs) (v :: vs)

end NanoLog
