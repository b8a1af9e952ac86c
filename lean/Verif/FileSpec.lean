import Verif.File
import Verif.EncodeSpec

/-!
# Specification of log files: what an operation sequence must leave to the decoder
-/

namespace NanoLog

/-- Requirements on the environment of an operation, in the state before it.
`ck` and `all` are the checkpoint and statements of the current execution.
* a checkpoint has fields in range, and all statements have formats both sides understand;
* a batch is given memory that starts with queued whole messages of known statements with
  printable arguments, its limit is at most half a staging buffer, and every message is
  smaller than half a staging buffer. -/
structure BatchOK (cfg : Config) (all : List Site) (tid : Nat) (ck : Checkpoint)
    (cs : List LogCall) (mem : List Byte) (nbytes : Nat) (ms : List OutMsg) : Prop where
  mem : ∃ more, mem = queueBytes all cs ++ more
  prints : List.Forall₂ (Prints all tid ck) cs ms
  limit : nbytes ≤ queueSize all cs
  half : nbytes ≤ cfg.staging / 2
  small : ∀ c ∈ cs, callSize all c < cfg.staging / 2
  tid : tid < 2 ^ 32

/-- Statements with formats the decoder understands, and dictionary entries that fit. -/
def SitesOK (sites : List Site) : Prop := ∀ s ∈ sites, ∃ is, s.Supported is

/-- A checkpoint as written in C++17 mode. -/
def Checkpoint.Plain (c : Checkpoint) : Prop := c.Valid ∧ c.newBytes = 0 ∧ c.total = 0

/-- `Logged cfg ck all ops ns ms`: the operations `ops` meet the requirements, and if the
batches among them report `ns` bytes consumed, the messages `ms` must be readable from the
file: of every batch the first messages that make up exactly the bytes consumed. -/
inductive Logged (cfg : Config) :
    Checkpoint → List Site → List EncOp → List Int → List OutMsg → Prop where
  | nil {ck all} : Logged cfg ck all [] [] []
  | start {ck all jk c all' ops ns ms} (hc : c.Plain) (hs : SitesOK all') (hj : jk < 2 ^ 62)
      (h : Logged cfg c all' ops ns ms) :
      Logged cfg ck all (.start jk c all' :: ops) ns ms
  | dict {ck all k ops ns ms} (h : Logged cfg ck all ops ns ms) :
      Logged cfg ck all (.dict k :: ops) ns ms
  | flush {ck all ops ns ms} (h : Logged cfg ck all ops ns ms) :
      Logged cfg ck all (.flush :: ops) ns ms
  | batch {ck all junk cs mem nbytes tid np ops ns ms ms' k}
      (hb : BatchOK cfg all tid ck cs mem nbytes ms') (hk : k ≤ cs.length)
      (h : Logged cfg ck all ops ns ms) :
      Logged cfg ck all (.batch junk cs mem nbytes tid np :: ops)
        ((queueSize all (cs.take k) : Int) :: ns) (ms'.take k ++ ms)

/-- The operations meet the requirements (whatever the batches consume). -/
inductive OpsOK (cfg : Config) : Checkpoint → List Site → List EncOp → Prop where
  | nil {ck all} : OpsOK cfg ck all []
  | start {ck all jk c all' ops} (hc : c.Plain) (hs : SitesOK all') (hj : jk < 2 ^ 62)
      (h : OpsOK cfg c all' ops) : OpsOK cfg ck all (.start jk c all' :: ops)
  | dict {ck all k ops} (h : OpsOK cfg ck all ops) : OpsOK cfg ck all (.dict k :: ops)
  | flush {ck all ops} (h : OpsOK cfg ck all ops) : OpsOK cfg ck all (.flush :: ops)
  | batch {ck all junk cs mem nbytes tid np ops ms'}
      (hb : BatchOK cfg all tid ck cs mem nbytes ms') (h : OpsOK cfg ck all ops) :
      OpsOK cfg ck all (.batch junk cs mem nbytes tid np :: ops)

/-- Executions start only after everything was flushed, as the code ensures. -/
def FlushedStarts : Bool → List EncOp → Prop
  | _, [] => True
  | empty, .start .. :: ops => empty = true ∧ FlushedStarts false ops
  | _, .flush :: ops => FlushedStarts true ops
  | _, .dict _ :: ops => FlushedStarts false ops
  | _, .batch .. :: ops => FlushedStarts false ops

end NanoLog
