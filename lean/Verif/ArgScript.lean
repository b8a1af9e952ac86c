import Verif.FmtParse

/-!
# The script that aggregates printed numbers

`benchmarks/aggregation/aggregateArg1.py` (Python 2) reads the output of a decompressor and computes minimum, maximum,
average, count and sum of the numbers after `# `.
-/

namespace NanoLog

/-- `\d`, aggregateArg1.py:7 (bytes; Python 2). -/
def isDig (b : Byte) : Bool := 48 ≤ b ∧ b ≤ 57

/-- `# (\d+)` at this place: the digits, as many as possible, aggregateArg1.py:7. -/
def hashHere : List Byte → Option (List Byte)
  | 35 :: 32 :: r => if r.takeWhile isDig = [] then none else some (r.takeWhile isDig)
  | _ => none

/-- `re.match('.*# (\d+)', line)`, aggregateArg1.py:7, 15: `.*` takes as many characters as possible, no
newline. -/
def hashMatch : List Byte → Option (List Byte)
  | [] => hashHere []
  | b :: r =>
    if b = 10 then hashHere (b :: r)
    else match hashMatch r with
      | some d => some d
      | none => hashHere (b :: r)

/-- `int(match.group(1))`, aggregateArg1.py:17, of digits. -/
def intOf (l : List Byte) : Nat := l.foldl (fun a b => 10 * a + (b.toNat - 48)) 0

/-- The variables, aggregateArg1.py:8-11. -/
structure ArgSt where
  min : Option Nat
  max : Option Nat
  total : Nat
  count : Nat
  deriving DecidableEq, Repr

/-- `not x` in Python for `None` or an integer, aggregateArg1.py:18, 21. -/
def pyNot : Option Nat → Bool
  | none => true
  | some n => n = 0

/-- The body of the loop for one matching line, aggregateArg1.py:17-25. -/
def ArgSt.add (s : ArgSt) (n : Nat) : ArgSt where
  min := if pyNot s.min then some n else match s.min with
    | some m => if m > n then some n else some m
    | none => some n
  max := if pyNot s.max then some n else match s.max with
    | some m => if m < n then some n else some m
    | none => some n
  total := s.total + n
  count := s.count + 1

/-- The loop, aggregateArg1.py:14-25. -/
def argLoop : List (List Byte) → ArgSt → ArgSt
  | [], s => s
  | l :: ls, s => match hashMatch l with
    | none => argLoop ls s
    | some d => argLoop ls (s.add (intOf d))

/-- What is printed, aggregateArg1.py:27-31. -/
structure ArgOut where
  min : Nat
  max : Nat
  avg : Nat
  count : Nat
  total : Nat
  deriving DecidableEq, Repr

/-- The script, aggregateArg1.py:6-31; `none`: it ends with an exception (`"%d" % None`). -/
def argScript (ls : List (List Byte)) : Option ArgOut :=
  let s := argLoop ls ⟨none, none, 0, 0⟩
  match s.min, s.max with
  | some a, some b => some ⟨a, b, s.total / s.count, s.count, s.total⟩
  | _, _ => none

/-! ## Specification -/

/-- The number of a line stands after the last `# ` that is followed by a digit. -/
def LineNum (l : List Byte) (n : Nat) : Prop :=
  ∃ pre ds post, l = pre ++ [35, 32] ++ ds ++ post ∧ 10 ∉ pre ∧ ds ≠ [] ∧ (∀ d ∈ ds, 48 ≤ d ∧ d ≤ 57) ∧
    (∀ d, post.head? = some d → ¬ (48 ≤ d ∧ d ≤ 57)) ∧ n = ds.foldl (fun a b => 10 * a + (b.toNat - 48)) 0 ∧
    ∀ pre2 c post2, l = pre2 ++ [35, 32] ++ c :: post2 → 10 ∉ pre2 → 48 ≤ c ∧ c ≤ 57 → pre2.length ≤ pre.length

/-- The numbers of the lines that have one. -/
inductive FileNums : List (List Byte) → List Nat → Prop
  | nil : FileNums [] []
  | skip {l ls ns} : (∀ n, ¬ LineNum l n) → FileNums ls ns → FileNums (l :: ls) ns
  | num {l ls n ns} : LineNum l n → FileNums ls ns → FileNums (l :: ls) (n :: ns)

/-- `m` is the least of the numbers. -/
def IsLeast' (m : Nat) (ns : List Nat) : Prop := m ∈ ns ∧ ∀ n ∈ ns, m ≤ n

/-- `m` is the greatest of the numbers. -/
def IsMost (m : Nat) (ns : List Nat) : Prop := m ∈ ns ∧ ∀ n ∈ ns, n ≤ m

end NanoLog
