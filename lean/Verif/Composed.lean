import Verif.Runtime
import Verif.RuntimeSpec
import Verif.Staging

/-!
# Model of the whole runtime with its staging buffers byte by byte

`Runtime.lean` contains for each thread a queue of whole messages, and a call of a log statement
returns there when its message is visible to the background thread.  Here the queues are replaced by
the staging buffers of `Staging.lean`: each store of a logging thread into its buffer and each load of
the background thread is a step of its own, and the stores of both threads are delayed in store buffers
(x86).  A log call returns after `finishReservation`, whether or not its stores have reached memory.
-/

namespace NanoLog

/-- The state: `rt` is the state of `Runtime.lean` of which the queues (`q`, `dealloc`, `rem`) and the
history variables are not used; `sb t` is the staging buffer of thread `t` (runtime/RuntimeLogger.h:421-487; it is
used once the thread has allocated it); `tgt`: the buffer in which the background thread executes `peek`
(RuntimeLogger.cc:826-844). -/
structure Cr where
  rt : Rt
  sb : Nat → SB
  tgt : Option Nat

/-- Result of a step, as `Out`.  See runtime/RuntimeLogger.cc:353-625. -/
inductive COut where
  | ok (c : Cr)
  | off
  | ub

/-- Steps.  `rt`: as in `Runtime.lean`; the others replace `commit`, `exitThread`, `peek`, `check` and `encode`.
* `write t a`: thread `t` is in `reserveProducerSpace` or writes its message (NanoLogCpp17.h:1028-1043);
* `finish t`: `finishAlloc`, after which the log statement returns (1046);
* `exit t`: the thread ends (RuntimeLogger.h:511-516);
* `store t`, `storeC t`: the oldest pending store of the thread, of the background thread into the buffer of `t`,
  reaches memory;
* `peek`: the background thread comes to the next buffer (RuntimeLogger.cc:418-426), `follow`: goes on in `peek`;
* `look i`: loads byte `i` of what `peek` returned;
* `encode`: one iteration of the loop over chunks (438-469);
* `check`: the next load in `checkCanDelete` (473-492, RuntimeLogger.h:386-389). -/
inductive CLbl where
  | rt (l : Lbl)
  | write (t : Nat) (a : Act)
  | finish (t : Nat)
  | exit (t : Nat)
  | store (t : Nat)
  | storeC (t : Nat)
  | peek
  | follow
  | look (i : Nat)
  | encode (junk : Nat → Nat) (more : List Byte)
  | check

/-- `c` with the staging buffer of `t` changed.  See runtime/RuntimeLogger.h:314-487. -/
def Cr.setSb (c : Cr) (t : Nat) (s : SB) : Cr := { c with sb := upd c.sb t s }

/-- Continue with a new state of `Runtime.lean`.  See runtime/RuntimeLogger.cc:353-625. -/
def Cr.lift (c : Cr) : Out → COut
  | .ok r => .ok { c with rt := r }
  | .off => .off
  | .ub => .ub

/-- Steps replaced here.  See runtime/RuntimeLogger.h:333-389, runtime/RuntimeLogger.cc:425-500. -/
def Lbl.replaced : Lbl → Bool
  | .commit _ | .exitThread _ | .peek _ | .check | .encode .. => true
  | _ => false

/-- The thread that locks a mutex in this step, which empties its store buffer (a locked instruction of x86):
`registrationMutex` (runtime/RuntimeLogger.h:55), `bufferMutex` (175, 181), `condMutex` (RuntimeLogger.cc:725,
656). -/
def Lbl.locks : Lbl → Option Nat
  | .register t | .takeId t | .push t | .sync t | .stop t | .setFile t true => some t
  | _ => none

/-- Steps of `Runtime.lean`.  See runtime/RuntimeLogger.cc:353-625. -/
def Cr.actRt (cfg : Config) (prog : List Site) (c : Cr) (l : Lbl) : COut :=
  if l.replaced then .off
  else
    match l.locks with
    | none => c.lift (c.rt.act cfg prog l)
    | some t => if (c.sb t).buf = [] then c.lift (c.rt.act cfg prog l) else .off

/-- May the thread do this step in its staging buffer for message `m` of `n` bytes?  `reserveAlloc` with the size of
the message, the bytes stored are those of the message: runtime/NanoLogCpp17.h:1026-1043. -/
def okWrite (n : Nat) (m : List Byte) : Act → Bool
  | .reserve k => k = n
  | .pstep => true
  | .put i b => m[i]? = some b
  | _ => false

/-- A logging thread in its staging buffer: `log`, runtime/NanoLogCpp17.h:1026-1046, and
`~StagingBufferDestroyer`, RuntimeLogger.h:511-516.  The use of a deleted buffer is undefined. -/
def Cr.actThr (cfg : Config) (c : Cr) : CLbl → COut
  | .write t a =>
    match (c.rt.thr t).pc with
    | .write m =>
      if (c.rt.thr t).freed then .ub
      else if okWrite (c.rt.msgSize m) (c.rt.msgBytes [m]) a then
        match (c.sb t).act .tso cfg.staging a with
        | none => .off
        | some s => .ok (c.setSb t s)
      else .off
    | _ => .off
  | .finish t =>
    match (c.rt.thr t).pc with
    | .write m =>
      if (c.rt.thr t).freed then .ub
      else
        match (c.sb t).act .tso cfg.staging (.finish (c.rt.msgSize m)) with
        | none => .off
        | some s => .ok { c.setSb t s with rt := c.rt.setThr t { c.rt.thr t with pc := .idle } }
    | _ => .off
  | .exit t =>
    match (c.rt.thr t).pc with
    | .idle =>
      if (c.rt.thr t).bid = none then .ok { c with rt := c.rt.setThr t { c.rt.thr t with pc := .exited } }
      else if (c.rt.thr t).freed then .ub
      else
        match (c.sb t).act .tso cfg.staging .exit with
        | none => .off
        | some s => .ok { c.setSb t s with rt := c.rt.setThr t { c.rt.thr t with pc := .exited } }
    | _ => .off
  | .store t =>
    match (c.sb t).act .tso cfg.staging (.commit 0) with
    | none => .off
    | some s => if (c.rt.thr t).freed then .ub else .ok (c.setSb t s)
  | .storeC t =>
    match (c.sb t).act .tso cfg.staging .commitC with
    | none => .off
    | some s => .ok (c.setSb t s)
  | _ => .off

/-- Where the background thread goes when `peek` has returned `avail` bytes of the buffer of `t`,
runtime/RuntimeLogger.cc:426-474. -/
def Cr.peeked (c : Cr) (t avail : Nat) : Cr :=
  { c with tgt := none, rt := { c.rt with pc := if avail = 0 then .check else .encode, cur := t } }

/-- The background thread goes on to the next buffer: the end of an iteration of the scan loop,
runtime/RuntimeLogger.cc:494-503, `rt` being the state before. -/
def Cr.next (cfg : Config) (c : Cr) (rt : Rt) (j : Nat) : COut :=
  match (c.sb c.rt.cur).act .tso cfg.staging .release with
  | none => .off
  | some s => (c.setSb c.rt.cur s).lift (rt.advance j)

/-- Deletion of the buffer `cur`, runtime/RuntimeLogger.cc:479-492 (as in `Rt.actScan`). -/
def Rt.remove (s : Rt) : Out :=
  let s1 := { s.setThr s.cur { s.thr s.cur with freed := true } with bufs := s.bufs.eraseIdx s.i }
  if s1.bufs = [] then .ok { s1 with last := 0, i := 0, wrap := true, pc := .scanned }
  else Rt.advance { s1 with last := if s.last ≥ s.i ∧ s.last > 0 then s.last - 1 else s.last } s.i

/-- The background thread in the staging buffers, runtime/RuntimeLogger.cc:418-503.  The encoder reads the bytes
`peek` returned; here they have all been loaded before (`look`), at any time since. -/
def Cr.actBg (cfg : Config) (c : Cr) : CLbl → COut
  | .peek =>
    if c.rt.pc ≠ .scan ∨ c.tgt ≠ none then .off
    else if c.rt.full ∨ c.rt.bufs = [] then .ok { c with rt := { c.rt with pc := .scanned } }
    else
      match c.rt.bufs[c.rt.i]? with
      | none => .ub
      | some t =>
        if (c.rt.thr t).freed then .ub
        else
          match (c.sb t).act .tso cfg.staging .peek with
          | none => .off
          | some s => .ok { c.setSb t s with tgt := some t }
  | .follow =>
    match c.tgt with
    | none => .off
    | some t =>
      match (c.sb t).act .tso cfg.staging .cstep with
      | none => .off
      | some s =>
        match s.cc with
        | .holding avail _ => .ok ((c.setSb t s).peeked t avail)
        | _ => .ok (c.setSb t s)
  | .look i =>
    if c.rt.pc ≠ .encode then .off
    else
      match (c.sb c.rt.cur).act .tso cfg.staging (.look i) with
      | none => .off
      | some s => .ok (c.setSb c.rt.cur s)
  | .encode junk more =>
    if c.rt.pc ≠ .encode then .off
    else if (c.rt.thr c.rt.cur).freed then .ub
    else
      match (c.rt.thr c.rt.cur).bid, (c.sb c.rt.cur).cc with
      | none, _ => .ub
      | some b, .holding avail view =>
        match imageBytes view avail with
        | none => .off
        | some bs =>
          match c.rt.enc.step cfg (.batch junk [] (bs ++ more) (min cfg.release bs.length) b c.rt.wrap) with
          | some (e, some n) =>
            if n = 0 then c.next cfg { c.rt.setEnc e with last := c.rt.i, full := true } (c.rt.i + 1)
            else
              match (c.sb c.rt.cur).act .tso cfg.staging (.consume n.toNat) with
              | none => .ub
              | some s =>
                let c1 := { c.setSb c.rt.cur s with rt := { c.rt.setEnc e with wrap := false } }
                if avail - n.toNat = 0 then c1.next cfg c1.rt (c.rt.i + 1) else .ok c1
          | _ => .ub
      | _, _ => .off
  | .check =>
    if c.rt.pc ≠ .check then .off
    else
      match (c.sb c.rt.cur).act .tso cfg.staging .canDelete with
      | none => c.next cfg c.rt (c.rt.i + 1)
      | some s =>
        match s.cc with
        | .freed => (c.setSb c.rt.cur s).lift c.rt.remove
        | _ => .ok (c.setSb c.rt.cur s)
  | _ => .off

/-- One step.  See runtime/NanoLogCpp17.h:994-1097, runtime/RuntimeLogger.cc:353-625. -/
def Cr.act (cfg : Config) (prog : List Site) (c : Cr) (l : CLbl) : COut :=
  match l with
  | .rt l => c.actRt cfg prog l
  | .write .. | .finish .. | .exit .. | .store .. | .storeC .. => c.actThr cfg l
  | .peek | .follow | .look .. | .encode .. | .check => c.actBg cfg l

/-- A sequence of steps.  See runtime/NanoLogCpp17.h:994-1097, runtime/RuntimeLogger.cc:353-625. -/
def Cr.run (cfg : Config) (prog : List Site) (c : Cr) : List CLbl → COut
  | [] => .ok c
  | l :: ls =>
    match c.act cfg prog l with
    | .ok c1 => Cr.run cfg prog c1 ls
    | .off => .off
    | .ub => .ub

/-- The state after the constructor, runtime/RuntimeLogger.cc:39-106 (`Rt.init`), with unused staging buffers. -/
def Cr.init (cfg : Config) (jk : Nat) (k : Checkpoint) : Option Cr :=
  (Rt.init cfg jk k).map fun r => ⟨r, fun _ => SB.init cfg.staging, none⟩

/-- Requirements on the environment, as `Lbl.OK`. -/
def CLbl.OK (cfg : Config) (prog : List Site) : CLbl → Prop
  | .rt l => l.OK cfg prog
  | _ => True

/-- `ls` is an execution from the start of the process to state `c`. -/
def CrExec (cfg : Config) (prog : List Site) (ls : List CLbl) (c : Cr) : Prop :=
  ∃ jk k c0, k.Plain ∧ jk < 2 ^ 62 ∧ Cr.init cfg jk k = some c0 ∧ (∀ l ∈ ls, l.OK cfg prog) ∧
    c0.run cfg prog ls = .ok c

/-- The steps outside of the staging buffers: calls, time stamps, level changes, allocations, `sync`, … -/
def calls (ls : List CLbl) : List Lbl :=
  ls.filterMap fun l => match l with | .rt l => some l | _ => none

/-- Number of log calls of thread `t` that were recorded and have returned. -/
def finished (t : Nat) (ls : List CLbl) : Nat :=
  (ls.filter fun l => match l with | .finish u => u == t | _ => false).length

end NanoLog
