import Verif.Runtime
import Verif.FileSpec
import Verif.Decode

/-!
# Specification of the runtime: environment, and what has to be in the log files
-/

namespace NanoLog

/-- A call of a log statement that the compiler accepts, whose arguments `printf` accepts, and
that takes less than half a staging buffer (see C09, C17 for larger messages). -/
structure ArgsOK (cfg : Config) (site : Site) (args : List Arg) : Prop where
  tys : args.map Arg.ty = site.tys
  valid : ∀ a ∈ args, a.Valid
  prints : ∃ is ds, site.Supported is ∧ FormatPrints (pieces is) args ds
  small : 16 + argAllocSize site.params args < cfg.staging / 2

/-- Requirements on the environment: correct calls, 64-bit time stamps, checkpoints with
fields in range. -/
def Lbl.OK (cfg : Config) (prog : List Site) : Lbl → Prop
  | .call _ k args => ∀ site, prog[k]? = some site → ArgsOK cfg site args
  | .stamp _ ts => ts < 2 ^ 64
  | .join _ jk c => c.Plain ∧ jk < 2 ^ 62
  | _ => True

/-- The program and the configuration: log statements with formats both sides understand,
fewer than 2^31 of them (identifiers are of type `int`), and chunks of at most half a staging
buffer (Config.h:54). -/
structure ProgOK (cfg : Config) (prog : List Site) : Prop where
  staging : cfg.staging < 2 ^ 31
  output : cfg.output < 2 ^ 30
  room : 40 ≤ cfg.output
  release : cfg.release ≤ cfg.staging / 2
  sites : SitesOK prog
  count : prog.length < 2 ^ 31

/-- `ls` is an execution from the start of the process to state `s`. -/
def RtExec (cfg : Config) (prog : List Site) (ls : List Lbl) (s : Rt) : Prop :=
  ∃ jk c s0, c.Plain ∧ jk < 2 ^ 62 ∧ Rt.init cfg jk c = some s0 ∧ (∀ l ∈ ls, l.OK cfg prog) ∧
    s0.run cfg prog ls = .ok s

/-- One label's effect on the current log level and on the calls that thread `t` must record:
`setLogLevel` sets the level, clamped to 0..4; a log statement is recorded if and only if its
severity is at most the level. -/
def recordStep (prog : List Site) (t : Nat) (st : Int × List (Nat × List Arg)) :
    Lbl → Int × List (Nat × List Arg)
  | .setLevel l => (max 0 (min 4 l), st.2)
  | .call u k args =>
    match prog[k]? with
    | some site => if u = t ∧ (site.info.sev : Int) ≤ st.1 then (st.1, st.2 ++ [(k, args)]) else st
    | none => st
  | _ => st

/-- The calls (statement and arguments) that thread `t` must record, in order, when the steps
`ls` happen from the start of the process (default level 3, `NOTICE`). -/
def mustRecord (prog : List Site) (t : Nat) (ls : List Lbl) : List (Nat × List Arg) :=
  (ls.foldl (recordStep prog t) (3, [])).2

/-- The log level after the steps `ls`. -/
def levelAfter (ls : List Lbl) : Int :=
  ls.foldl (fun lv l => match l with | .setLevel l => max 0 (min 4 l) | _ => lv) 3

/-- Message `m` is what executing statement `r.1` of the program with arguments `r.2` on the
thread with id `b` must print. -/
def MsgOf (prog : List Site) (b : Nat) (r : Nat × List Arg) (m : OutMsg) : Prop :=
  ∃ site is, prog[r.1]? = some site ∧ site.Supported is ∧ FormatPrints (pieces is) r.2 m.parts ∧
    m.tid = b ∧ m.file = site.info.file ∧ m.line = site.info.line ∧ m.level = site.info.sev

/-- The time stamps thread `t` has taken, in order. -/
def stamps (t : Nat) (ls : List Lbl) : List Nat :=
  ls.filterMap fun l => match l with | .stamp u ts => if u = t then some ts else none | _ => none

/-- Number of staging buffers allocated. -/
def allocs (ls : List Lbl) : Nat :=
  (ls.filter fun l => match l with | .takeId _ => true | _ => false).length

/-- The log files: those used before (in order) and the current one. -/
def Rt.files (s : Rt) : List (List Byte) := s.closed.map (·.1) ++ [s.disk]

/-- What a new decoder prints for a file (unordered): nothing if it does not accept the
beginning of the file.  `none`: it aborts or misbehaves. -/
def decodeFile (cap : Nat) (file : List Byte) : Option (List OutMsg) :=
  match (Dec.new cap).openFile file with
  | none => none
  | some (false, _) => some []
  | some (true, s) => (s.unordered (BufFrag.init cap)).map fun r => r.2.out

end NanoLog
