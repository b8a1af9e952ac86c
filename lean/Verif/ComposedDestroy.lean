import Verif.Destroy
import Verif.Composed

/-!
# Model of the end of the process, over byte-wise staging buffers

`RuntimeLogger::~RuntimeLogger`, runtime/RuntimeLogger.cc:109-136, as in `Verif/Destroy.lean`, with the staging buffers of
`Verif/Composed.lean`.  The destructor does not delete staging buffers (their pointers in `threadBuffers` are dropped), so
threads may go on writing to theirs.
-/

namespace NanoLog

/-- The runtime with byte-wise staging buffers, and the destructor of its only object (runtime/RuntimeLogger.h:152-154). -/
structure Cd where
  cr : Cr
  ph : DPhase

/-- Steps: those of `Composed.lean`; the call of the destructor up to the wait in `sync`, runtime/RuntimeLogger.cc:110 and
724-728; its end, 119-135. -/
inductive CdLbl where
  | cr (l : CLbl)
  | destroy (t : Nat)
  | finish

/-- Result of a step, as `Out`.  See runtime/RuntimeLogger.cc:109-136. -/
inductive CdOut where
  | ok (d : Cd)
  | off
  | ub

/-- What becomes of a possible step of `Composed.lean`, as `DPhase.step`.  Steps in the staging buffers do not use the object
(runtime/RuntimeLogger.h:214-500); those of the background thread do, but it has been joined when the destructor ends. -/
def Cd.next (ph : DPhase) (l : CLbl) (c : Cr) : CdOut :=
  match l with
  | .rt l =>
    match ph.step l c.rt with
    | .ok d => .ok ⟨c, d.ph⟩
    | .off => .off
    | .ub => .ub
  | _ => .ok ⟨c, ph⟩

/-- A step of `Composed.lean`: application threads, background thread and disk (runtime/RuntimeLogger.cc:353-625) go on while
and after the destructor runs. -/
def Cd.actCr (cfg : Config) (prog : List Site) (d : Cd) (l : CLbl) : CdOut :=
  match d.cr.act cfg prog l with
  | .ok c => Cd.next d.ph l c
  | .off => .off
  | .ub => .ub

/-- One step, as `Dt.act`.  `destroy`: the call of `sync`, runtime/RuntimeLogger.cc:110; it locks `condMutex` (725), so the
stores of the thread have reached memory.  `finish`: the background thread has been joined (119-120); the output buffers
are freed and the file is closed (122-135). -/
def Cd.act (cfg : Config) (prog : List Site) (d : Cd) : CdLbl → CdOut
  | .cr l => d.actCr cfg prog l
  | .destroy t =>
    match d.ph, (d.cr.rt.thr t).pc with
    | .alive, .idle =>
      if (d.cr.sb t).buf = [] then
        .ok ⟨{ d.cr with rt :=
          { d.cr.rt.setThr t { d.cr.rt.thr t with pc := .sync true } with status := .requested } }, .running t⟩
      else .off
    | _, _ => .off
  | .finish =>
    match d.ph with
    | .running t =>
      if (d.cr.rt.thr t).pc = .join ∧ d.cr.rt.pc = .dead then .ok ⟨d.cr, .done⟩ else .off
    | _ => .off

/-- A sequence of steps.  See runtime/RuntimeLogger.cc:109-136. -/
def Cd.run (cfg : Config) (prog : List Site) (d : Cd) : List CdLbl → CdOut
  | [] => .ok d
  | l :: ls =>
    match d.act cfg prog l with
    | .ok d1 => Cd.run cfg prog d1 ls
    | .off => .off
    | .ub => .ub

end NanoLog
