import Verif.FileSpec

/-!
# Model of the output step of the background thread, `runtime/RuntimeLogger.cc:589-624`

What is handed to `aio_write` for every setting of `FILE_PARAMS`, and what is in the file if
writes fail.  (`File.lean` and `Runtime.lean` model the default setting and writes that
succeed.)
-/

namespace NanoLog

/-- The buffer handed over by an operation, if it is `flush`.  See runtime/RuntimeLogger.cc:589-624. -/
def EncSt.handed (st : EncSt) : EncOp → List (List Byte)
  | .flush => [st.buf]
  | .start .. | .dict .. | .batch .. => []

/-- The buffers handed over by the `flush` operations of a run, in order.  See runtime/RuntimeLogger.cc:589-624. -/
def EncSt.flushes (cfg : Config) (st : EncSt) : List EncOp → List (List Byte)
  | [] => []
  | op :: ops =>
    match st.step cfg op with
    | none => []
    | some (st1, _) => st.handed op ++ EncSt.flushes cfg st1 ops

/-! ## Padding for `O_DIRECT` -/

/-- Padding, runtime/RuntimeLogger.cc:594-607: `direct` is `FILE_PARAMS & O_DIRECT`, `mem` the
whole memory `compressingBuffer` points to, `n` is `bytesToWrite` before.  Result: the memory
and `bytesToWrite` afterwards. -/
def padOutput (direct : Bool) (mem : List Byte) (n : Nat) : List Byte × Nat :=
  if direct then
    let over := n % 512
    if over ≠ 0 then
      (List.replicate (512 - over) 0 ++ mem.drop (512 - over), n + 512 - over)
    else (mem, n)
  else (mem, n)

/-- The bytes described by `aioCb`, runtime/RuntimeLogger.cc:609-611; `none`: the write would
read outside the buffer. -/
def sendOutput (direct : Bool) (mem : List Byte) (n : Nat) : Option (List Byte) :=
  let (mem1, k) := padOutput direct mem n
  if k ≤ mem1.length then some (mem1.take k) else none

/-- The file after some writes that succeed, each given by the memory of the buffer and the
number of encoded bytes.  See runtime/RuntimeLogger.cc:594-616. -/
def sentFile (direct : Bool) : List (List Byte × Nat) → Option (List Byte)
  | [] => some []
  | (mem, n) :: ws =>
    match sendOutput direct mem n, sentFile direct ws with
    | some a, some b => some (a ++ b)
    | _, _ => none

/-- The writes `ws` hand over the buffers `bs`: memory of the size of an output buffer
(runtime/RuntimeLogger.cc:85-100) that starts with the bytes encoded; behind them is whatever
was there before. -/
def Hands (cfg : Config) (ws : List (List Byte × Nat)) (bs : List (List Byte)) : Prop :=
  List.Forall₂ (fun w b => w.1.length = cfg.output ∧ w.2 = b.length ∧ b <+: w.1) ws bs

/-! ## Writes that fail -/

/-- How a write ends: all bytes are in the file, none is (`aio_write` or the operation fails,
for example because the disk is full), or only the first `k` (short write).
See runtime/RuntimeLogger.cc:563-577, 615-616. -/
inductive WOut where
  | done
  | lost
  | short (k : Nat)
  deriving DecidableEq, Repr

/-- Bytes that reach the file.  See runtime/RuntimeLogger.cc:563-577. -/
def WOut.got (bs : List Byte) : WOut → List Byte
  | .done => bs
  | .lost => []
  | .short k => bs.take k

/-- Handing over the buffer with a given end of the write.  Whatever it is, the code prints a
message at most, and goes on as if the write had succeeded: runtime/RuntimeLogger.cc:563-577
(result of the operation), 613-624 (result of `aio_write`, swap of the buffers). -/
def EncSt.hand (st : EncSt) (w : WOut) : EncSt :=
  { st with file := st.file ++ w.got st.buf, buf := [] }

/-- A run in which the operations of each group fill one buffer, which is then handed over.
See runtime/RuntimeLogger.cc:563-624. -/
def EncSt.runW (cfg : Config) (st : EncSt) : List (List EncOp × WOut) → Option EncSt
  | [] => some st
  | (ops, w) :: gs =>
    match st.run cfg ops with
    | none => none
    | some (st1, _) => (st1.hand w).runW cfg gs

/-- Without failures this is the same as `flush` after each group. -/
def groupOps (gs : List (List EncOp × WOut)) : List EncOp :=
  gs.flatMap fun g => g.1 ++ [.flush]

end NanoLog
