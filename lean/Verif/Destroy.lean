import Verif.Runtime

/-!
# Model of the end of the process: `RuntimeLogger::~RuntimeLogger`

The destructor of `nanoLogSingleton`, runtime/RuntimeLogger.cc:109-136, runs after `main` has returned.
Other threads may still be running.  The system consists of the state of `Runtime.lean` and how far the
destructor is.

The thread-local `StagingBufferDestroyer` of the main thread is destroyed before objects of static
storage (C++17 [basic.start.term]); it marks the staging buffer of the main thread and sets the pointer
to null (RuntimeLogger.h:511-516).  In the model that is the step `exitThread` of one thread name; the
code that the main thread runs afterwards belongs to another thread name, which has no staging buffer.
-/

namespace NanoLog

/-- How far the destructor is, runtime/RuntimeLogger.cc:109-136: not called; called by thread `t`;
finished. -/
inductive DPhase where
  | alive
  | running (t : Nat)
  | done
  deriving DecidableEq, Repr

/-- The runtime and the destructor of its only object (runtime/RuntimeLogger.h:152-154). -/
structure Dt where
  rt : Rt
  ph : DPhase

/-- Steps: those of `Runtime.lean`; the call of the destructor up to the wait in `sync`,
runtime/RuntimeLogger.cc:110 and 724-728; its end, 119-135. -/
inductive DLbl where
  | rt (l : Lbl)
  | destroy (t : Nat)
  | finish

/-- Result of a step, as `Out`.  See runtime/RuntimeLogger.cc:109-136. -/
inductive DOut where
  | ok (d : Dt)
  | off
  | ub

/-- Steps of application threads that use a member of `nanoLogSingleton`: the log level
(runtime/RuntimeLogger.h:132-134, NanoLogCpp17.h:1087), `invocationSites` (RuntimeLogger.h:51-70),
`bufferMutex` and `threadBuffers` (172-185), `condMutex` and the condition variables
(RuntimeLogger.cc:652-661, 703-729).  The others use static variables of the log statement and the
thread's own staging buffer. -/
def Lbl.member : Lbl → Bool
  | .call .. | .register _ | .preallocate _ | .takeId _ | .push _ | .setLevel _ | .sync _
  | .spurious _ | .ret _ | .setFile .. | .stop _ | .join .. => true
  | _ => false

/-- The thread that joins the background thread in this step (runtime/RuntimeLogger.cc:661). -/
def Lbl.joins : Lbl → Option Nat
  | .join t _ _ => some t
  | _ => none

/-- What becomes of a possible step of `Runtime.lean`.  While the destructor runs, its thread does not go on
at `setLogFile_internal`, and another thread that joins the same background thread
(runtime/RuntimeLogger.cc:661) and starts a new one is undefined behaviour, as is any use of the object
after the destructor. -/
def DPhase.step (ph : DPhase) (l : Lbl) (s : Rt) : DOut :=
  match ph with
  | .alive => .ok ⟨s, .alive⟩
  | .running t =>
    match l.joins with
    | none => .ok ⟨s, .running t⟩
    | some u => if u = t then .off else .ub
  | .done => if l.member then .ub else .ok ⟨s, .done⟩

/-- A step of `Runtime.lean`: application threads, background thread and disk
(runtime/RuntimeLogger.cc:353-625) go on while and after the destructor runs. -/
def Dt.actRt (cfg : Config) (prog : List Site) (d : Dt) (l : Lbl) : DOut :=
  match d.rt.act cfg prog l with
  | .ok s => d.ph.step l s
  | .off => .off
  | .ub => .ub

/-- One step.  `destroy`: the call of `sync`, runtime/RuntimeLogger.cc:110; returning from it and lines
113-117 are the steps `ret` and `stop` of `Runtime.lean` (the same statements as 652-659); `finish`:
the thread has been joined (119-120); the output buffers are freed and the file is closed (122-135).
The contents of the freed buffers are left in the state; `C59_final` shows that nothing uses them. -/
def Dt.act (cfg : Config) (prog : List Site) (d : Dt) : DLbl → DOut
  | .rt l => d.actRt cfg prog l
  | .destroy t =>
    match d.ph, (d.rt.thr t).pc with
    | .alive, .idle =>
      .ok ⟨{ d.rt.setThr t { d.rt.thr t with pc := .sync true } with status := .requested }, .running t⟩
    | _, _ => .off
  | .finish =>
    match d.ph with
    | .running t =>
      if (d.rt.thr t).pc = .join ∧ d.rt.pc = .dead then .ok ⟨d.rt, .done⟩ else .off
    | _ => .off

/-- A sequence of steps.  See runtime/RuntimeLogger.cc:109-136. -/
def Dt.run (cfg : Config) (prog : List Site) (d : Dt) : List DLbl → DOut
  | [] => .ok d
  | l :: ls =>
    match d.act cfg prog l with
    | .ok d1 => Dt.run cfg prog d1 ls
    | .off => .off
    | .ub => .ub

end NanoLog
