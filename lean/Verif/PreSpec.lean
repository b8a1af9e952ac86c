import Verif.PreMode
import Verif.GenSpec

/-!
# Specification of logging in preprocessor mode
-/

namespace NanoLog

/-- Bytes of a call in the staging buffer (0 for calls that cannot be made). -/
def pSize (fns : GenFns) (c : PCall) : Nat :=
  match fns[c.id]? with
  | none => 0
  | some fs =>
    match genRecord fs (c.args.map Prod.fst) with
    | none => 0
    | some (n, _, _) => n

/-- A call of a statement with arguments of the right types and readable strings, of a size the entry
header can describe. -/
structure PCall.OK (fns : GenFns) (c : PCall) (fs : List PyFmt) : Prop where
  fn : fns[c.id]? = some fs
  args : CallArgs fs c.args
  readable : ∀ a ∈ c.args, Readable a
  id : c.id < 2 ^ 32
  ts : c.ts < 2 ^ 64
  size : pSize fns c < 2 ^ 31 - 16

/-- The staging buffer holds the records of the calls. -/
inductive QueuedP (fns : GenFns) : List PCall → List Byte → Prop where
  | nil : QueuedP fns [] []
  | cons {c fs cs b q} (ok : c.OK fns fs) (he : genEntry c.id c.ts fs (c.args.map Prod.fst) = some b)
      (hq : QueuedP fns cs q) : QueuedP fns (c :: cs) (b ++ q)

/-- Staging buffer bytes of a sequence of calls. -/
def pSizes (fns : GenFns) (cs : List PCall) : Nat := (cs.map (pSize fns)).sum

/-- A fragment shows the characters its source text stands for. -/
def Compiled (d d' : Decoded) : Prop :=
  cLit d.text = some d'.text ∧ d'.width = d.width ∧ d'.prec = d.prec ∧ d'.arg = d.arg

/-- Times of a checkpoint (the other fields are filled in by `insertCheckpoint`). -/
def Checkpoint.TimesOK (c : Checkpoint) : Prop :=
  c.rdtsc < 2 ^ 64 ∧ ITy.i64.InRange c.unixTime ∧ c.freq.length = 8

/-- The fields of the checkpoint in a file, given the times. -/
def SameTimes (c c' : Checkpoint) : Prop :=
  c'.rdtsc = c.rdtsc ∧ c'.unixTime = c.unixTime ∧ c'.freq = c.freq

/-- Call `c` of thread `tid`, in an execution with checkpoint times `ck`, must be printed as `m`: with
these times, the file name, line and level of its statement, and fragments that show the text and arguments. -/
inductive PPrints (ss : List PStmt) : Nat × Checkpoint × PCall → OutMsg → Prop where
  | mk {tid : Nat} {ck ck' : Checkpoint} {c : PCall} {s : PStmt} {fs : List PyFmt} {file : List Byte}
      {ds ds' : List Decoded} (hs : ss[c.id]? = some s) (hf : pySplit s.fmt = some fs)
      (hck : SameTimes ck ck') (hfile : cLit s.file = some file) (hd : DecodedAs fs c.args ds) (ht : All2 Compiled ds ds') :
      PPrints ss (tid, ck, c)
        { tid := tid, id := c.id, ts := c.ts, ck := ck', file := file, line := s.line, level := s.level
          parts := ds' }

/-- The generated functions for the statements. -/
def fnsOf : List PStmt → Option GenFns
  | [] => some []
  | s :: ss =>
    match pySplit s.fmt, fnsOf ss with
    | some fs, some r => some (fs :: r)
    | _, _ => none

/-- Requirements on the operations (compare `BatchOK`): `ck` is the checkpoint of the current execution,
the flag tells that the buffer is empty.  The dictionary fits into the output buffer (otherwise the
program exits when it starts), a batch is given memory that starts with queued whole messages, its limit
is at most half a staging buffer, and every message is smaller than that. -/
inductive OpsP (cfg : Config) (es : List PEntry) (fns : GenFns) :
    Option Checkpoint → Bool → List POp → Prop where
  | nil {ck e} : OpsP cfg es fns ck e []
  | start {ck junk j c ops} (hc : c.TimesOK) (hj : j < 2 ^ 62)
      (hfit : ∃ bs, checkpointP junk j cfg.output c es = some bs)
      (h : OpsP cfg es fns (some c) false ops) : OpsP cfg es fns ck true (.start junk j c :: ops)
  | flush {ck e ops} (h : OpsP cfg es fns ck true ops) : OpsP cfg es fns ck e (.flush :: ops)
  | batch {ck e junk cs q more nbytes tid np ops} (hq : QueuedP fns cs q)
      (hlim : nbytes ≤ pSizes fns cs) (hhalf : nbytes ≤ cfg.staging / 2)
      (hsmall : ∀ c ∈ cs, pSize fns c < cfg.staging / 2) (ht : tid < 2 ^ 32)
      (h : OpsP cfg es fns (some ck) false ops) :
      OpsP cfg es fns (some ck) e (.batch junk cs (q ++ more) nbytes tid np :: ops)

/-- If the batches report `ns` bytes consumed, the file must hold the calls `l`, each with its thread and
checkpoint times: of every batch the first calls that make up exactly the bytes consumed. -/
inductive ConsumedP (fns : GenFns) :
    Option Checkpoint → List POp → List Int → List (Nat × Checkpoint × PCall) → Prop where
  | nil {ck} : ConsumedP fns ck [] [] []
  | start {ck junk j c ops ns l} (h : ConsumedP fns (some c) ops ns l) :
      ConsumedP fns ck (.start junk j c :: ops) ns l
  | flush {ck ops ns l} (h : ConsumedP fns ck ops ns l) : ConsumedP fns ck (.flush :: ops) ns l
  | batch {ck junk cs mem nbytes tid np ops ns l k} (hk : k ≤ cs.length)
      (h : ConsumedP fns (some ck) ops ns l) :
      ConsumedP fns (some ck) (.batch junk cs mem nbytes tid np :: ops)
        ((pSizes fns (cs.take k) : Int) :: ns) ((cs.take k).map (tid, ck, ·) ++ l)

end NanoLog
