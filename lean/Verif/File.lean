import Verif.Encode

/-!
# Model of the life of an encoder: from operations to file bytes

The operations the background thread performs on its encoder and output file, in the order of
runtime/RuntimeLogger.cc:353-629, without the scheduling (which operation comes when is
arbitrary here).
-/

namespace NanoLog

/-- State: bytes already handed to the file, bytes in the encoder's current buffer,
`nextInvocationIndexToBePersisted`, `shadowStaticInfo`, and all log statements of this
execution in registration order.  See runtime/Log.h:652-708. -/
structure EncSt where
  file : List Byte
  buf : List Byte
  pos : Nat
  shadow : List Site
  all : List Site
  deriving DecidableEq, Repr

/-- Initial state: empty file, no execution yet.  See runtime/Log.cc:94-126. -/
def EncSt.init : EncSt := ⟨[], [], 0, [], []⟩

/-- `insertCheckpoint`, runtime/Log.cc:46-79, as called in C++17 mode: without room for 40
bytes it fails and the constructor exits the process (119-124). -/
def insertCheckpoint (space junk : Nat) (c : Checkpoint) : Option (List Byte) :=
  if 40 > space then none else some (checkpointBytes junk c)

/-- Operations.
* `start`: a new encoder on a new or existing file (thread start, runtime/RuntimeLogger.cc:365,
  Log.cc:94-126; `nextInvocationIndexToBePersisted = 0`, 668).
* `dict`: dictionary step with `known` statements registered (401-414).
* `batch`: one `encodeLogMsgs` (444-457) on memory `mem`; `junk` as in `encodeStep`.
* `flush`: hand the buffer to the file and swap (594-624, without `O_DIRECT`, which
  `FILE_PARAMS` does not contain, Config.h:28). -/
inductive EncOp where
  | start (junk : Nat) (c : Checkpoint) (all : List Site)
  | dict (known : Nat)
  | batch (junk : Nat → Nat) (cs : List LogCall) (mem : List Byte) (nbytes tid : Nat) (np : Bool)
  | flush

/-- One operation: new state and, for a batch, the number of staging buffer bytes consumed.
`start` is only possible with an empty buffer (loop condition, runtime/RuntimeLogger.cc:383).
The calls `cs` of a batch are ghost data, the code sees only `mem`. -/
def EncSt.step (cfg : Config) (st : EncSt) :
    EncOp → Option (EncSt × Option Int)
  | .start jk c all =>
    if st.buf ≠ [] then none
    else
      match insertCheckpoint cfg.output jk c with
      | none => none
      | some bs => some ({ file := st.file, buf := bs, pos := 0, shadow := [], all := all }, none)
  | .dict known =>
    let sites := st.all.take known
    if st.pos < sites.length then
      let (pos', bs) := encodeDict (cfg.output - st.buf.length) st.pos (sites.map Site.info)
      some ({ st with buf := st.buf ++ bs, pos := pos'
                      shadow := st.shadow ++ (sites.take pos').drop st.shadow.length }, none)
    else some (st, none)
  | .batch junk _ mem nbytes tid np =>
    match encodeLogMsgs cfg junk st.shadow (cfg.output - st.buf.length) mem nbytes tid np with
    | none => none
    | some (bs, n) => some ({ st with buf := st.buf ++ bs }, some n)
  | .flush => some ({ st with file := st.file ++ st.buf, buf := [] }, none)

/-- A sequence of operations; the list collects the results of the batches.  See runtime/RuntimeLogger.cc:353-625. -/
def EncSt.run (cfg : Config) (st : EncSt) :
    List EncOp → Option (EncSt × List Int)
  | [] => some (st, [])
  | op :: ops =>
    match st.step cfg op with
    | none => none
    | some (st1, n) =>
      match EncSt.run cfg st1 ops with
      | none => none
      | some (st2, ns) => some (st2, n.toList ++ ns)

end NanoLog
