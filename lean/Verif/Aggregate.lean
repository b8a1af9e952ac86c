import Verif.Props.LogMessage

/-!
# Model of the aggregation commands, `runtime/LogDecompressor.cc`

`minMaxMean` (main, lines 289-335).  It reads messages with `getNextLogStatement`; here a message
is what that call leaves in the `LogMessage` it fills.  `none` is undefined behaviour.
-/

namespace NanoLog

/-- What `getNextLogStatement` does to the container for one message (`fillMsg`): reset, then
one push per argument; `none` is a `long double`.  See runtime/Log.cc:1987-2057. -/
structure Deliv where
  m : Nat
  id : Nat
  ts : Nat
  args : List (Option (List Byte) × Junk)

/-- The push of one argument, runtime/Log.cc:1265. -/
def argOp : Option (List Byte) × Junk → MsgOp
  | (some bs, j) => .push bs j
  | (none, j) => .pushLong j

/-- The operations on the container, runtime/Log.cc:1412 and 1265. -/
def Deliv.ops (d : Deliv) : List MsgOp := .reset (some d.m) d.id d.ts :: d.args.map argOp

/-- A `long` result: overflow is undefined.  See runtime/LogDecompressor.cc:289-329. -/
def longOf (x : Int) : Option Int := if -2 ^ 63 ≤ x ∧ x < 2 ^ 63 then some x else none

/-- The accumulators, runtime/LogDecompressor.cc:290-294. -/
structure Agg where
  total : Int := 0
  count : Int := 0
  max : Int := 0
  min : Int := 0
  numLogs : Nat := 0
  deriving DecidableEq, Repr

/-- Update of minimum and maximum, runtime/LogDecompressor.cc:304-311. -/
def Agg.extremes (a : Agg) (elem : Int) : Agg :=
  let hi := if a.count = 0 then elem else a.max
  let lo := if a.count = 0 then elem else a.min
  { a with max := if hi < elem then elem else hi, min := if lo > elem then elem else lo }

/-- Body of the loop, runtime/LogDecompressor.cc:297-314, on the filled container.  The log id
is converted to `int` before the comparison. -/
def Agg.step (filterId : Int) (a : Agg) (s : LogMsg) : Option Agg := do
  let a := { a with numLogs := a.numLogs + 1 }
  if ITy.i32.cast s.id ≠ filterId then some a
  else
    let bs ← s.get 4 0
    let elem := ITy.i32.cast (unle bs)
    let a := a.extremes elem
    let total ← longOf (a.total + elem)
    let count ← longOf (a.count + 1)
    some { a with total := total, count := count }

/-- The loop, runtime/LogDecompressor.cc:297-314, over the messages delivered. -/
def Agg.loop (filterId : Int) : Agg → LogMsg → List Deliv → Option Agg
  | a, _, [] => some a
  | a, s, d :: ds => do
    let s ← s.run d.ops
    let a ← a.step filterId s
    Agg.loop filterId a s ds

/-- The figures printed, runtime/LogDecompressor.cc:324-329. -/
structure Report where
  logs : Nat
  matching : Int
  min : Int
  max : Int
  mean : Int
  total : Int
  deriving DecidableEq, Repr

/-- `minMaxMean`, runtime/LogDecompressor.cc:289-329, with the container of line 241.
`total/count` truncates towards zero; division by zero is undefined. -/
def minMaxMean (filterId : Int) (ds : List Deliv) : Option Report := do
  let a ← Agg.loop filterId {} LogMsg.new ds
  if a.count = 0 then none
  else
    let mean ← longOf (a.total.tdiv a.count)
    some ⟨a.numLogs, a.count, a.min, a.max, mean, a.total⟩

end NanoLog
