import Verif.PackerLemmas

/-!
# Properties C01-C04: packed arguments
-/

namespace NanoLog

/-- **C01.**  Every integer value, packed at its type and read back at any integer type no
wider than the (promoted) original, gives the C conversion of that value, and the reader
stops exactly at the next value.  At wider types this holds too unless the value is an `int`
at or below `-2^24`; in particular it holds for all unsigned values. -/
theorem C01_int_round_trip {t t' : ITy} {v : Int} (hv : t.InRange v)
    (hw : t'.bytes ≤ t.promotedBytes ∨ -(2 ^ 24) < v) (rest : List Byte) :
    unpackInt t' (packInt t v).1 ((packInt t v).2 ++ rest) = some (t'.cast v, rest) :=
  packInt_unpack hv hw rest

/-- **C01**, same type: the value itself comes back. -/
theorem C01_int_round_trip_same {t : ITy} {v : Int} (hv : t.InRange v) (rest : List Byte) :
    unpackInt t (packInt t v).1 ((packInt t v).2 ++ rest) = some (v, rest) := by
  have := packInt_unpack (t := t) (t' := t) hv (.inl (by cases t <;> decide)) rest
  rwa [ITy.cast_of_inRange hv] at this

example : ITy.i32.InRange (-16777216) ∧ ITy.u32.bytes ≤ ITy.i32.promotedBytes := by decide
example : ITy.u8.InRange 200 ∧ ¬ (ITy.i32.bytes ≤ ITy.u8.promotedBytes) ∧ -(2 ^ 24) < (200 : Int) := by
  decide
example : unpackInt .u32 (packInt .i32 (-5)).1 ((packInt .i32 (-5)).2 ++ [7])
    = some (4294967291, [7]) := by decide

/-- The width condition of C01 is needed: an `int` argument below `-2^24` that the format
string reads as `long` (`%ld`) is not sign extended. -/
theorem C01_wider_read_false :
    ∃ v : Int, ITy.i32.InRange v ∧ ∀ rest,
      unpackInt .i64 (packInt .i32 v).1 ((packInt .i32 v).2 ++ rest) ≠ some (v, rest) := by
  refine ⟨-16777216, by decide, fun rest h => ?_⟩
  have e : (packInt .i32 (-16777216)) = (4, [0, 0, 0, 255]) := by decide
  rw [e] at h
  rw [unpackInt_small (by omega) (by rfl)] at h
  simp [unle, ITy.cast, ITy.signed, ITy.bytes] at h

/-- **C02.**  Pointers, floats, doubles and long doubles are read back bit for bit (`Reads`),
and the reader stops exactly at the next value.  The tag is the 4-bit value stored in the
log. -/
theorem C02_bits_round_trip {s : Scalar} {r : RTy} {v : RVal} (hs : s.Valid)
    (hr : Reads s r v) (rest : List Byte) :
    unpackAs r (s.pack.1 % 16) (s.pack.2 ++ rest) = some (v, rest) :=
  Scalar.unpack_pack hs hr rest

example : (Scalar.f80 (List.replicate 16 255)).Valid ∧
    Reads (.f80 (List.replicate 16 255)) .ldbl (.flt (.raw (List.replicate 16 255))) :=
  ⟨by decide, .f80 _⟩
example : (Scalar.ptr 0xdeadbeefcafebabe).Valid := by decide

/-- **C03.**  A packed integer occupies between one byte and `sizeof` its type, and its tag
fits in four bits without masking. -/
theorem C03_packed_size {t : ITy} {v : Int} (hv : t.InRange v) :
    (packInt t v).1 < 16 ∧ 1 ≤ (packInt t v).2.length ∧ (packInt t v).2.length ≤ t.bytes :=
  ⟨(packInt_facts hv).1, (packInt_facts hv).2.1, (packInt_facts hv).2.2.1⟩

/-- **C03**, minimality: an unsigned value of any type is stored in the fewest bytes that can
represent it. -/
theorem C03_minimal {sz v k : Nat} (h1 : 1 ≤ sz) (h8 : sz ≤ 8) (hv : v < 256 ^ sz) :
    v < 256 ^ (packU sz v).2.length ∧
    (1 ≤ k → k < (packU sz v).2.length → 256 ^ k ≤ v) := by
  rw [packU_length hv h1 h8]
  constructor
  · apply lt_numBytes
    have := Nat.pow_le_pow_right (n := 256) (by omega) h8
    exact Nat.lt_of_lt_of_le hv (by simpa using this)
  · intro hk hlt
    apply Nat.le_of_not_lt
    intro hc
    have := numBytes_le_of_lt hk (by have := numBytes_le8 v; omega) hc
    omega

/-- **C03**, small negative numbers: a negative `int` or `long` close to zero takes as few
bytes as its absolute value. -/
theorem C03_small_negative {v : Int} (h : v < 0) (hlo : -(2 ^ 24) < v) :
    (packInt .i32 v).2.length = numBytes v.natAbs ∧
    (packInt .i64 v).2.length = numBytes v.natAbs := by
  have e1 : (ITy.u32.cast (-v)).toNat = v.natAbs := by
    simp [ITy.cast, ITy.signed, ITy.bytes]; omega
  have e2 : (ITy.u64.cast (-v)).toNat = v.natAbs := by
    simp [ITy.cast, ITy.signed, ITy.bytes]; omega
  constructor
  · simp only [packInt, packI32]
    rw [if_neg (by omega)]
    simp only [e1]
    exact packU_length (by simp; omega) (by omega) (by omega)
  · simp only [packInt, packI64]
    rw [if_neg (by omega)]
    simp only [e2]
    exact packU_length (by simp; omega) (by omega) (by omega)

example : (packInt .i64 (-3)).2 = [3] := by decide
example : (packU 8 65536).2.length = 3 := by decide

/-- **C04.**  Any list of scalars written as nibbles plus packed values is read back value by
value; the position computed from the tags alone (`getEndOfPackedArguments`) is exactly the
first byte after the packed values, and after the last read nothing is left over. -/
theorem C04_argument_list {ss : List Scalar} {rs : List RTy} {vs : List RVal} (junk : Nat)
    (hs : ∀ s ∈ ss, s.Valid) (hr : ReadsAll ss rs vs) (rest : List Byte) :
    ∃ nb nb', Nibbler.new (encodeScalars junk ss ++ rest) ss.length = some (nb, rest) ∧
      nb.getMany rs = some (vs, nb') ∧ nb'.cur = rest ∧ nb'.left = 0 := by
  obtain ⟨nb', h1, h2, h3⟩ := Nibbler.getMany_ok junk hs hr
    ((ss.map fun s => s.pack.2).flatten ++ rest) rest
  refine ⟨_, nb', Nibbler.new_encode junk rest hs, ?_, h2, h3⟩
  rw [← h1]
  simp [encodeScalars]

example : ∃ ss rs vs, (∀ s ∈ ss, s.Valid) ∧ ReadsAll ss rs vs ∧ ss.length = 3 :=
  ⟨[.int .i32 (-7), .f80 (List.replicate 16 1), .ptr 9], [.int .i32, .ldbl, .ptr],
    [.int (-7), .flt (.raw (List.replicate 16 1)), .ptr 9], by decide,
    .cons (.int .i32 .i32 (-7) (.inl (by decide))) (.cons (.f80 _) (.cons (.ptr 9) .nil)), rfl⟩

end NanoLog
