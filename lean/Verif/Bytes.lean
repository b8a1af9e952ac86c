/-!
# Bytes, little-endian words and C integer types

Common vocabulary for the model.  Memory is a `List UInt8`; a read that would leave the
available memory is `none`.
-/

namespace NanoLog

/-- A byte of memory (C++ `char` viewed as unsigned). -/
abbrev Byte := UInt8

/-- Little-endian bytes of the low `k` bytes of `n`.  Models what `memcpy(dst, &val, k)`
copies on x86-64 (runtime/Packer.h:123-127 relies on this representation). -/
def le : Nat → Nat → List Byte
  | 0, _ => []
  | k + 1, n => UInt8.ofNat n :: le k (n / 256)

/-- Value of a little-endian byte string; models `memcpy(&packed, *in, k)` into a zeroed
integer (runtime/Packer.h:252-257). -/
def unle : List Byte → Nat
  | [] => 0
  | b :: bs => b.toNat + 256 * unle bs

/-- Take exactly `n` bytes; `none` models a read outside the available memory.
Models the `memcpy(dst, *in, n); *in += n` idiom (runtime/Packer.h:255-256, 261-262). -/
def takeN (n : Nat) (l : List Byte) : Option (List Byte × List Byte) :=
  if n ≤ l.length then some (l.take n, l.drop n) else none

@[simp] theorem le_length (k n : Nat) : (le k n).length = k := by
  induction k generalizing n with
  | zero => rfl
  | succ k ih => simp [le, ih]

theorem unle_lt (l : List Byte) : unle l < 256 ^ l.length := by
  induction l with
  | nil => simp [unle]
  | cons b bs ih =>
    simp only [unle, List.length_cons, Nat.pow_succ]
    have := b.toNat_lt
    omega

theorem unle_le (k n : Nat) : unle (le k n) = n % 256 ^ k := by
  induction k generalizing n with
  | zero => simp [le, unle, Nat.mod_one]
  | succ k ih =>
    simp only [le, unle, ih, UInt8.toNat_ofNat']
    have h : n % (256 * 256 ^ k) = n % 256 + 256 * (n / 256 % 256 ^ k) := Nat.mod_mul
    have e : 256 ^ (k + 1) = 256 * 256 ^ k := by rw [Nat.pow_succ, Nat.mul_comm]
    rw [e, h]

theorem unle_le_of_lt {k n : Nat} (h : n < 256 ^ k) : unle (le k n) = n := by
  rw [unle_le, Nat.mod_eq_of_lt h]

theorem le_unle (l : List Byte) : le l.length (unle l) = l := by
  induction l with
  | nil => rfl
  | cons b bs ih =>
    simp only [List.length_cons, le, unle]
    have hb := b.toNat_lt
    have h1 : (b.toNat + 256 * unle bs) / 256 = unle bs := by omega
    have h2 : UInt8.ofNat (b.toNat + 256 * unle bs) = b := by
      apply UInt8.toNat_inj.1
      rw [UInt8.toNat_ofNat']; omega
    rw [h1, h2, ih]

theorem le_append_unle (l : List Byte) (k : Nat) (h : l.length = k) : le k (unle l) = l := by
  subst h; exact le_unle l

/-- Truncating the little-endian image keeps the low bytes (the "lop off" trick of
runtime/Packer.h:123-127). -/
theorem le_take (j k n : Nat) (h : j ≤ k) : (le k n).take j = le j n := by
  induction j generalizing k n with
  | zero => simp [le]
  | succ j ih =>
    cases k with
    | zero => omega
    | succ k => simp [le, ih k (n / 256) (by omega)]

@[simp] theorem takeN_append (a b : List Byte) : takeN a.length (a ++ b) = some (a, b) := by
  simp [takeN]

theorem takeN_append' {n : Nat} (a b : List Byte) (h : a.length = n) :
    takeN n (a ++ b) = some (a, b) := by
  subst h; simp

theorem takeN_le (k n : Nat) (rest : List Byte) :
    takeN k (le k n ++ rest) = some (le k n, rest) := takeN_append' _ _ (le_length k n)

theorem takeN_some {n : Nat} {l a b : List Byte} (h : takeN n l = some (a, b)) :
    l = a ++ b ∧ a.length = n := by
  unfold takeN at h
  split at h
  · cases h; simp; omega
  · cases h

/-- The integer types of the C++ code under LP64 (`long` = `long long` = 64 bits). -/
inductive ITy where
  | i8 | i16 | i32 | i64 | u8 | u16 | u32 | u64
  deriving DecidableEq, Repr

/-- `sizeof` of an integer type (LP64). -/
def ITy.bytes : ITy → Nat
  | .i8 | .u8 => 1
  | .i16 | .u16 => 2
  | .i32 | .u32 => 4
  | .i64 | .u64 => 8

/-- Signedness of an integer type. -/
def ITy.signed : ITy → Bool
  | .i8 | .i16 | .i32 | .i64 => true
  | _ => false

/-- Smallest value of the type. -/
def ITy.lo (t : ITy) : Int := if t.signed then -(2 ^ (8 * t.bytes - 1) : Int) else 0

/-- Largest value of the type. -/
def ITy.hi (t : ITy) : Int :=
  if t.signed then 2 ^ (8 * t.bytes - 1) - 1 else 2 ^ (8 * t.bytes) - 1

/-- `x` is a value of type `t`. -/
def ITy.InRange (t : ITy) (x : Int) : Prop := t.lo ≤ x ∧ x ≤ t.hi

instance (t : ITy) (x : Int) : Decidable (t.InRange x) := by
  unfold ITy.InRange; infer_instance

/-- C integer conversion `static_cast<T>(x)`: the value of type `t` congruent to `x` modulo
`2^bits`.  (Specified by C++20 and by all compilers the project supports.) -/
def ITy.cast (t : ITy) (x : Int) : Int :=
  if t.signed then (x + 2 ^ (8 * t.bytes - 1)) % 2 ^ (8 * t.bytes) - 2 ^ (8 * t.bytes - 1)
  else x % 2 ^ (8 * t.bytes)

theorem ITy.cast_inRange (t : ITy) (x : Int) : t.InRange (t.cast x) := by
  cases t <;> simp [InRange, lo, hi, cast, signed, bytes] <;> omega

theorem ITy.cast_of_inRange {t : ITy} {x : Int} (h : t.InRange x) : t.cast x = x := by
  cases t <;> simp [InRange, lo, hi, cast, signed, bytes] at * <;> omega

end NanoLog
