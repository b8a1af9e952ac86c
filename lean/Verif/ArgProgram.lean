import Verif.Tool
import Verif.ArgScript

/-!
# The program that aggregates printed numbers

`benchmarks/aggregation/aggregate.cpp` searches each line of a file for a text and computes minimum, maximum, mean,
sum and count of the numbers after it.
-/

namespace NanoLog

/-- `atol(pos)`, aggregate.cpp:51: white space, a sign, digits; 0 without digits; `none`: the value is not a `long` (undefined). -/
def atol (s : List Byte) : Option Int :=
  let s := s.dropWhile isSpaceC
  let (neg, s) := match s with
    | c :: cs => if c = 45 then (true, cs) else if c = 43 then (false, cs) else (false, s)
    | [] => (false, s)
  match leadDigits 0 false s with
  | none => some 0
  | some n =>
    let v : Int := if neg then -n else n
    if -2 ^ 63 ≤ v ∧ v < 2 ^ 63 then some v else none

/-- `strstr(line, searchString) + strlen(searchString)`, aggregate.cpp:43-50; `none`: not found. -/
def afterFirst (needle : List Byte) : List Byte → Option (List Byte)
  | [] => if needle = [] then some [] else none
  | c :: cs => if needle.isPrefixOf (c :: cs) then some ((c :: cs).drop needle.length) else afterFirst needle cs

/-- The variables, aggregate.cpp:27-28. -/
structure AggVars where
  min : Int
  max : Int
  total : Int
  count : Nat
  deriving DecidableEq, Repr

/-- Results: what is printed (mean last); exit status 1 after a long line (37-41); undefined behaviour. -/
inductive AggRes where
  | printed (v : AggVars) (mean : Int)
  | lineTooLong
  | ub
  deriving DecidableEq, Repr

/-- One matching line, aggregate.cpp:53-61; `none`: overflow of `total`. -/
def AggVars.add (s : AggVars) (n : Int) : Option AggVars :=
  if s.count ≠ 0 then
    if -2 ^ 63 ≤ s.total + n ∧ s.total + n < 2 ^ 63 then
      some ⟨if s.min > n then n else s.min, if s.max < n then n else s.max, s.total + n, s.count + 1⟩
    else none
  else some ⟨n, n, n, 1⟩

/-- The loop, aggregate.cpp:31-62, reading character by character; `acc` is the part of the current line read so
far.  `in.getline(line, 1024)` ends at the newline; at the end of the file it sets `eofbit`, and the loop ends
without looking at the line (34-35); with 1023 characters and no newline it sets `failbit`.  A null character ends
the line for `strstr`. -/
def aggRead (needle : List Byte) : List Byte → List Byte → AggVars → AggRes ⊕ AggVars
  | [], _, s => .inr s
  | c :: cs, acc, s =>
    if c = 10 then
      match afterFirst needle (acc.takeWhile (· ≠ 0)) with
      | none => aggRead needle cs [] s
      | some r => match atol r with
        | none => .inl .ub
        | some n => match s.add n with
          | none => .inl .ub
          | some s => aggRead needle cs [] s
    else if acc.length = 1023 then .inl .lineTooLong
    else aggRead needle cs (acc ++ [c]) s

/-- `main` with a file that can be opened, aggregate.cpp:27-71. -/
def aggProgram (needle file : List Byte) : AggRes :=
  match aggRead needle file [] ⟨0, 0, 0, 0⟩ with
  | .inl r => r
  | .inr s => if s.count = 0 then .ub else .printed s (s.total.tdiv s.count)

/-! ## Specification -/

/-- The number at the beginning of a text: white space, sign, digits (at least one). -/
def TextNum (t : List Byte) (v : Int) : Prop :=
  ∃ ws sign ds post, t = ws ++ sign ++ ds ++ post ∧ (∀ c ∈ ws, c = 32 ∨ 9 ≤ c ∧ c ≤ 13) ∧
    (sign = [] ∨ sign = [45] ∨ sign = [43]) ∧ (∀ d ∈ ds, 48 ≤ d ∧ d ≤ 57) ∧ ds ≠ [] ∧
    (∀ d, post.head? = some d → ¬ (48 ≤ d ∧ d ≤ 57)) ∧
    v = (if sign = [45] then -1 else 1) * (ds.foldl (fun a b => 10 * a + (b.toNat - 48)) 0 : Nat)

/-- What follows the first occurrence of `needle` in a line. -/
def AfterFirst (needle l r : List Byte) : Prop :=
  ∃ pre, l = pre ++ needle ++ r ∧ ∀ pre2 r2, l = pre2 ++ needle ++ r2 → pre.length ≤ pre2.length

end NanoLog
