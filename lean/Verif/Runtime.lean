import Verif.File

/-!
# Model of the runtime: logging threads, background thread, `sync`, `setLogFile`

`runtime/RuntimeLogger.{h,cc}` and `log` in `runtime/NanoLogCpp17.h` as a labelled transition
system.  Any number of application threads run next to the background thread; a label names
the thread that moves and the choices it makes.  Granularity:

* a critical section (of `registrationMutex`, `bufferMutex`, `condMutex`) without a blocking
  call inside is one step; the section of `bufferMutex` in which the background thread scans
  consists of several steps, during which it holds the lock (`Rt.bufLocked`);
* a staging buffer is the queue of the messages in it.  That the byte queue behaves like this
  is the subject of `Staging.lean` (C07-C11).  A message enters the queue when the producer's
  store to `producerPos` becomes visible; a call of a log statement is taken to return then.
  A producer that finds its buffer full waits; in the model its `commit` step comes later.
* the bytes written are those of the encoder model (`File.lean`).

Calls that fail for lack of memory and errors reported by `aio_write` are not modelled;
statistics are left out.
-/

namespace NanoLog

/-- `f` with the value at `a` replaced. -/
def upd {α β : Type} [DecidableEq α] (f : α → β) (a : α) (b : β) : α → β :=
  fun x => if x = a then b else f x

/-- `syncStatus`, runtime/RuntimeLogger.h:212-217. -/
inductive SyncStatus where
  | requested | second | waitAio | completed
  deriving DecidableEq, Repr

/-- Where an application thread is.  `called`: in `log`, runtime/NanoLogCpp17.h:1008, before
the test of `logId`; `reg`: before `registerInvocationSite`, 1019; `known`: identifier known,
1022; `stamped`: time stamp taken, 1026; `take`, `push`: before the first and before the
second critical section of `ensureStagingBufferAllocated`, runtime/RuntimeLogger.h:172-185
(called by `reserveAlloc` with a message pending, or by `preallocate` without); `write`: has
a buffer and writes the message, NanoLogCpp17.h:1028-1046; `sync`: blocked in
`hintSyncCompleted.wait`, RuntimeLogger.cc:728; `woken`: notified, about to return from
`sync` (the flag: `sync` was called by `setLogFile_internal`, 652); `stop`, `join`: in
`setLogFile_internal` before line 655 and at line 661; `exited`: the thread has ended. -/
inductive TPc where
  | idle
  | called (k : Nat) (args : List Arg)
  | reg (k : Nat) (args : List Arg)
  | known (id : Nat) (args : List Arg)
  | stamped (c : LogCall)
  | take (c : Option LogCall)
  | push (c : Option LogCall)
  | write (c : LogCall)
  | sync (sw : Bool)
  | woken (sw : Bool)
  | stop
  | join
  | exited
  deriving DecidableEq, Repr

/-- An application thread and its staging buffer (`stagingBuffer`, runtime/RuntimeLogger.h:146,
a thread has at most one): `bid` is the id of the buffer once there is one, `q` the messages
in it, `dealloc` its `shouldDeallocate`, `freed`: deleted by the background thread.
`log` is a history variable, not part of the code: the messages logged so far. -/
structure Thr where
  pc : TPc
  bid : Option Nat
  q : List LogCall
  dealloc : Bool
  freed : Bool
  log : List LogCall
  deriving DecidableEq, Repr

/-- A thread that has not used NanoLog yet.  See runtime/RuntimeLogger.h:146. -/
def Thr.init : Thr := ⟨.idle, none, [], false, false, []⟩

/-- Where the background thread is in `compressionThreadMain`, runtime/RuntimeLogger.cc:
`top` loop condition 383; `dict` 401 (lock taken); `scan` 418; `check` 473; `encode` 436;
`scanned` 511; `aio` 537; `aioDone` 580; `write` 594; `dead` has left the loop. -/
inductive BPc where
  | top | dict | scan | check | encode | scanned | aio | aioDone | write | dead
  deriving DecidableEq, Repr

/-- The operation described by `aioCb`: buffer, length, and how many bytes the system has
written so far.  See runtime/RuntimeLogger.h:201, 234. -/
structure Aio where
  buf : Bool
  len : Nat
  done : Nat
  deriving DecidableEq, Repr

/-- The state.
* `level`: `currentLogLevel`; `ids`: the static variables `logId` of the log statements
  (runtime/NanoLogCpp17.h:1084); `sites`: `invocationSites`; `nextId`: `nextBufferId`;
* `thr`: application threads; `bufs`: `threadBuffers` (a buffer is named by its thread);
* `status`: `syncStatus`; `exit`: `compressionThreadShouldExit`;
* `pc`, `last` (`lastStagingBufferChecked`), `i`, `full` (`outputBufferFull`), `wrap`
  (`wrapAround`), `shadow` (`shadowStaticInfo`): variables of the background thread; `cur`:
  the buffer it works on (`sb`), `rem`: messages of the bytes `remaining`;
* `pos`: `nextInvocationIndexToBePersisted`;
* `mem`: the two output buffers, each with the bytes from its start to the end of what was
  encoded into it; `encPtr`, `comp`, `dbl`: the pointers `backing_buffer` of the encoder,
  `compressingBuffer`, `outputDoubleBuffer`;
* `aio`: the outstanding operation, if `hasOutstandingOperation`;
* `disk`: bytes this process has appended to the current log file; `closed`: the same for the
  files used before (`setLogFile`).
* History variables, not part of the code: `gD`, `gO`, `gB`: which messages (thread and call)
  were encoded into the current file up to the last completed write, into the buffer being
  written, and into the encoder's buffer; with each closed file the same. -/
structure Rt where
  level : Int
  ids : Nat → Option Nat
  sites : List Site
  nextId : Nat
  thr : Nat → Thr
  bufs : List Nat
  status : SyncStatus
  exit : Bool
  pc : BPc
  last : Nat
  i : Nat
  full : Bool
  wrap : Bool
  shadow : List Site
  cur : Nat
  rem : Nat
  pos : Nat
  mem : Bool → List Byte
  encPtr : Bool
  comp : Bool
  dbl : Bool
  aio : Option Aio
  disk : List Byte
  closed : List (List Byte × List (Nat × LogCall))
  gD : List (Nat × LogCall)
  gO : List (Nat × LogCall)
  gB : List (Nat × LogCall)

/-- Result of a step: new state; the step is not possible in this state; undefined behaviour
or abort.  See runtime/RuntimeLogger.cc:353-625. -/
inductive Out where
  | ok (s : Rt)
  | off
  | ub

/-- Steps.  Application threads: `call` executes log statement `k` of the program with
arguments `args` (`NANO_LOG`, runtime/NanoLogCpp17.h:1073-1097); `readId` the unlocked test of
`logId` (`stale`: it reads an old value); `register`, `stamp` (`rdtsc` returns `ts`),
`reserve`, `takeId`, `push`, `commit`: see `TPc`; `preallocate`; `exitThread`; `setLevel`;
`sync`, `spurious` (a spurious wake-up of `wait`), `ret` (return from `sync`); `setFile` (call
of `setLogFile`; `ok`: the file can be used), `stop`, `join`.
Background thread: one label per `BPc`; `dict skip`: the unlocked read of
`invocationSites.size()` returns an old value; `peek n`: `n` whole messages are contiguous;
`encode`: old bytes in the output buffer and bytes behind the messages in the staging buffer;
`scanned w`, `aioDone w`: the thread chosen by `notify_one`, if any is waiting.
`disk n`: the system writes `n` more bytes. -/
inductive Lbl where
  | call (t k : Nat) (args : List Arg)
  | readId (t : Nat) (stale : Bool)
  | register (t : Nat)
  | stamp (t ts : Nat)
  | reserve (t : Nat)
  | preallocate (t : Nat)
  | takeId (t : Nat)
  | push (t : Nat)
  | commit (t : Nat)
  | exitThread (t : Nat)
  | setLevel (l : Int)
  | sync (t : Nat)
  | spurious (t : Nat)
  | ret (t : Nat)
  | setFile (t : Nat) (ok : Bool)
  | stop (t : Nat)
  | join (t jk : Nat) (c : Checkpoint)
  | top
  | dict (skip : Bool)
  | peek (n : Nat)
  | check
  | encode (junk : Nat → Nat) (more : List Byte)
  | scanned (w : Option Nat)
  | aio
  | aioDone (w : Option Nat)
  | write
  | disk (n : Nat)

/-- `s` with thread `t` changed.  See runtime/RuntimeLogger.h:314-516. -/
def Rt.setThr (s : Rt) (t : Nat) (th : Thr) : Rt := { s with thr := upd s.thr t th }

/-- The background thread holds `bufferMutex`, runtime/RuntimeLogger.cc:396-506. -/
def Rt.bufLocked (s : Rt) : Bool := s.pc = .dict || s.pc = .scan || s.pc = .check

/-- The encoder as in `File.lean` (`file` is not used here).  See runtime/Log.h:652-708. -/
def Rt.enc (s : Rt) : EncSt := ⟨[], s.mem s.encPtr, s.pos, s.shadow, s.sites⟩

/-- Store the encoder's state back.  See runtime/Log.h:652-708. -/
def Rt.setEnc (s : Rt) (e : EncSt) : Rt :=
  { s with mem := upd s.mem s.encPtr e.buf, pos := e.pos, shadow := e.shadow }

/-- `setLogLevel`, runtime/RuntimeLogger.cc:703-710, with `NUM_LOG_LEVELS = 5`
(NanoLog.h:35-59). -/
def clampLevel (l : Int) : Int := if l < 0 then 0 else if l ≥ 5 then 5 - 1 else l

/-- Number of messages that make up exactly the first `n` bytes of the queue; `none` if `n` is
not a boundary between messages. -/
def countBytes (size : LogCall → Nat) : List LogCall → Nat → Option Nat
  | _, 0 => some 0
  | [], _ + 1 => none
  | c :: cs, n + 1 =>
    if size c ≤ n + 1 then (countBytes size cs (n + 1 - size c)).map (· + 1) else none

/-- Bytes of a queued message (`entrySize`), as `callSize`.  See runtime/Log.h:181-196. -/
def Rt.msgSize (s : Rt) (c : LogCall) : Nat :=
  match s.sites[c.id]? with
  | some site => c.size site
  | none => 0

/-- Content of the staging buffer for a list of messages, as `queueBytes`.  See runtime/Log.h:181-196. -/
def Rt.msgBytes (s : Rt) : List LogCall → List Byte
  | [] => []
  | c :: cs =>
    (match s.sites[c.id]? with
     | some site => entryBytes site c
     | none => []) ++ s.msgBytes cs

/-- Steps of an application thread that log a message: `NANO_LOG` and `log`,
runtime/NanoLogCpp17.h:994-1097. -/
def Rt.actLog (prog : List Site) (s : Rt) : Lbl → Out
  | .call t k args =>
    match (s.thr t).pc, prog[k]? with
    | .idle, some site =>
      if (site.info.sev : Int) > s.level then .ok s
      else .ok (s.setThr t { s.thr t with pc := .called k args })
    | _, _ => .off
  | .readId t stale =>
    match (s.thr t).pc with
    | .called k args =>
      match s.ids k with
      | none => .ok (s.setThr t { s.thr t with pc := .reg k args })
      | some id =>
        .ok (s.setThr t { s.thr t with pc := if stale then .reg k args else .known id args })
    | _ => .off
  -- `registerInvocationSite_internal`, runtime/RuntimeLogger.h:51-70
  | .register t =>
    match (s.thr t).pc with
    | .reg k args =>
      match s.ids k, prog[k]? with
      | some id, _ => .ok (s.setThr t { s.thr t with pc := .known id args })
      | none, some site =>
        .ok { s.setThr t { s.thr t with pc := .known s.sites.length args } with
              ids := upd s.ids k (some s.sites.length), sites := s.sites ++ [site] }
      | none, none => .off
    | _ => .off
  | .stamp t ts =>
    match (s.thr t).pc with
    | .known id args => .ok (s.setThr t { s.thr t with pc := .stamped ⟨id, ts, args⟩ })
    | _ => .off
  -- `reserveAlloc`, runtime/RuntimeLogger.h:104-111
  | .reserve t =>
    match (s.thr t).pc with
    | .stamped c =>
      .ok (s.setThr t { s.thr t with
        pc := if (s.thr t).bid = none then .take (some c) else .write c })
    | _ => .off
  -- `finishAlloc`, runtime/RuntimeLogger.h:120-123
  | .commit t =>
    match (s.thr t).pc with
    | .write c =>
      if (s.thr t).freed then .ub
      else
        .ok (s.setThr t { s.thr t with
          pc := .idle, q := (s.thr t).q ++ [c], log := (s.thr t).log ++ [c] })
    | _ => .off
  | _ => .off

/-- Where `ensureStagingBufferAllocated` returns to: `reserveAlloc`, runtime/RuntimeLogger.h:104-111,
with a message pending, or `preallocate`, RuntimeLogger.cc:309-314. -/
def afterAlloc : Option LogCall → TPc
  | some c => .write c
  | none => .idle

/-- Allocation and release of staging buffers: `preallocate`, runtime/RuntimeLogger.cc:309-314,
`ensureStagingBufferAllocated`, RuntimeLogger.h:172-185 (`nextBufferId` is a `uint32_t`), and
`~StagingBufferDestroyer`, RuntimeLogger.h:511-516. -/
def Rt.actBuf (s : Rt) : Lbl → Out
  | .preallocate t =>
    match (s.thr t).pc with
    | .idle =>
      if (s.thr t).bid = none then .ok (s.setThr t { s.thr t with pc := .take none }) else .ok s
    | _ => .off
  | .takeId t =>
    match (s.thr t).pc with
    | .take c =>
      if s.bufLocked then .off
      else
        .ok { s.setThr t { s.thr t with pc := .push c, bid := some s.nextId } with
              nextId := (s.nextId + 1) % 2 ^ 32 }
    | _ => .off
  | .push t =>
    match (s.thr t).pc with
    | .push c =>
      if s.bufLocked then .off
      else
        .ok { s.setThr t { s.thr t with pc := afterAlloc c } with
              bufs := s.bufs ++ [t] }
    | _ => .off
  | .exitThread t =>
    match (s.thr t).pc with
    | .idle =>
      if (s.thr t).bid = none then .ok (s.setThr t { s.thr t with pc := .exited })
      else if (s.thr t).freed then .ub
      else .ok (s.setThr t { s.thr t with pc := .exited, dealloc := true })
    | _ => .off
  | _ => .off

/-- `notify_one` wakes a thread that waits in `sync`; `none` stands for no thread waiting (the
model does not check this, so it also allows notifications that are lost).
See runtime/RuntimeLogger.cc:344, 527, 586, 728. -/
def Rt.notify (s : Rt) : Option Nat → Out
  | none => .ok s
  | some w =>
    match (s.thr w).pc with
    | .sync sw => .ok (s.setThr w { s.thr w with pc := .woken sw })
    | _ => .off

/-- Control operations of application threads: `setLogLevel`, runtime/RuntimeLogger.cc:703-710;
`sync`, 719-729; `setLogFile_internal`, 632-674.  `setLogFile` is documented not to be thread
safe (677-683); what the standard says about two threads joining the same thread is not
modelled.  The file system checks (634-649) have the result `ok`; if they
fail, the function throws before it changes anything. -/
def Rt.actCtl (cfg : Config) (s : Rt) : Lbl → Out
  | .setLevel l => .ok { s with level := clampLevel l }
  | .sync t =>
    match (s.thr t).pc with
    | .idle => .ok { s.setThr t { s.thr t with pc := .sync false } with status := .requested }
    | _ => .off
  | .spurious t =>
    match (s.thr t).pc with
    | .sync sw => .ok (s.setThr t { s.thr t with pc := .woken sw })
    | _ => .off
  | .ret t =>
    match (s.thr t).pc with
    | .woken sw => .ok (s.setThr t { s.thr t with pc := if sw then .stop else .idle })
    | _ => .off
  | .setFile t ok =>
    match (s.thr t).pc with
    | .idle =>
      if ok then .ok { s.setThr t { s.thr t with pc := .sync true } with status := .requested }
      else .ok s
    | _ => .off
  | .stop t =>
    match (s.thr t).pc with
    | .stop => .ok { s.setThr t { s.thr t with pc := .join } with exit := true }
    | _ => .off
  | .join t jk c =>
    match (s.thr t).pc, s.pc with
    | .join, .dead =>
      -- the new thread: `Encoder` constructor on `compressingBuffer` (365)
      match EncSt.step cfg ⟨[], [], 0, [], s.sites⟩ (.start jk c s.sites) with
      | none => .ub
      | some (e, _) =>
        .ok { s.setThr t { s.thr t with pc := .idle } with
              exit := false, pc := .top, last := 0, full := false, wrap := false
              shadow := e.shadow, pos := e.pos, mem := upd s.mem s.comp e.buf, encPtr := s.comp
              closed := s.closed ++ [(s.disk, s.gD)], disk := [], gD := [], gO := [], gB := [] }
    | _, _ => .off
  | _ => .off

/-- The end of an iteration of the scan loop, runtime/RuntimeLogger.cc:494-503, when the index
of the next buffer is `j` (before taking it modulo the number of buffers). -/
def Rt.advance (s : Rt) (j : Nat) : Out :=
  if s.bufs.length = 0 then .ub
  else
    let i := j % s.bufs.length
    .ok { s with i := i, wrap := s.wrap || i = 0, pc := if i = s.last then .scanned else .scan }

/-- The background thread up to the end of the scan, runtime/RuntimeLogger.cc:383-506. -/
def Rt.actScan (cfg : Config) (s : Rt) : Lbl → Out
  -- 383, 396-397
  | .top =>
    if s.pc ≠ .top then .off
    else if s.exit ∧ s.mem s.encPtr = [] ∧ s.aio = none then .ok { s with pc := .dead }
    else .ok { s with pc := .dict, i := s.last }
  -- 400-414
  | .dict skip =>
    if s.pc ≠ .dict then .off
    else if skip then .ok { s with pc := .scan }
    else
      match s.enc.step cfg (.dict s.sites.length) with
      | none => .ub
      | some (e, _) => .ok { s.setEnc e with pc := .scan }
  -- 418-426; `peek` finds nothing only if the buffer is empty
  | .peek n =>
    if s.pc ≠ .scan then .off
    else if s.full ∨ s.bufs = [] then .ok { s with pc := .scanned }
    else
      match s.bufs[s.i]? with
      | none => .ub
      | some t =>
        if (s.thr t).freed then .ub
        else if n = 0 then (if (s.thr t).q = [] then .ok { s with pc := .check, cur := t } else .off)
        else if n ≤ (s.thr t).q.length then .ok { s with pc := .encode, cur := t, rem := n }
        else .off
  -- 470-492, `checkCanDelete` RuntimeLogger.h:387-389.  `--i` followed by `(i + 1)` is `i`
  -- again, also for 0 because of the unsigned wrap-around.
  | .check =>
    if s.pc ≠ .check then .off
    else if (s.thr s.cur).dealloc ∧ (s.thr s.cur).q = [] then
      let s1 := { s.setThr s.cur { s.thr s.cur with freed := true } with
                  bufs := s.bufs.eraseIdx s.i }
      if s1.bufs = [] then .ok { s1 with last := 0, i := 0, wrap := true, pc := .scanned }
      else Rt.advance { s1 with last := if s.last ≥ s.i ∧ s.last > 0 then s.last - 1 else s.last } s.i
    else s.advance (s.i + 1)
  -- 438-469: one iteration of the loop over chunks
  | .encode junk more =>
    if s.pc ≠ .encode then .off
    else if (s.thr s.cur).freed then .ub
    else
      match (s.thr s.cur).bid with
      | none => .ub
      | some b =>
        let cs := (s.thr s.cur).q.take s.rem
        let bytes := s.msgBytes cs
        match s.enc.step cfg (.batch junk cs (bytes ++ more) (min cfg.release bytes.length) b s.wrap) with
        | some (e, some n) =>
          if n = 0 then Rt.advance { s.setEnc e with last := s.i, full := true } (s.i + 1)
          else
            match countBytes s.msgSize cs n.toNat with
            | none => .ub
            | some k =>
              let s1 := { (s.setEnc e).setThr s.cur { s.thr s.cur with q := (s.thr s.cur).q.drop k } with
                          wrap := false, rem := s.rem - k
                          gB := s.gB ++ (cs.take k).map fun c => (s.cur, c) }
              if s.rem - k = 0 then s1.advance (s.i + 1) else .ok s1
        | _ => .ub
  | _ => .off

/-- `syncStatus` after a pass that found nothing, runtime/RuntimeLogger.cc:521-524. -/
def Rt.idleStatus (s : Rt) : SyncStatus :=
  if s.status = .second then (if s.aio.isSome then .waitAio else .completed) else s.status

/-- The background thread from the end of the scan on, runtime/RuntimeLogger.cc:510-625, and
the writing done by the system.  (Sleeping is not a step: the thread continues at some
time.) -/
def Rt.actIo (s : Rt) : Lbl → Out
  -- 511-535
  | .scanned w =>
    if s.pc ≠ .scanned then .off
    else if s.mem s.encPtr ≠ [] then .ok { s with pc := .aio }
    else if s.status = .requested then .ok { s with status := .second, pc := .top }
    else if s.idleStatus = .completed then
      Rt.notify { s with status := s.idleStatus, pc := .aio } w
    else .ok { s with status := s.idleStatus, pc := .aio }
  -- 537-577
  | .aio =>
    if s.pc ≠ .aio then .off
    else
      match s.aio with
      | none => .ok { s with pc := .write }
      | some a =>
        if a.done = a.len then
          .ok { s with aio := none, pc := .aioDone, gD := s.gD ++ s.gO, gO := [] }
        else if s.full then .off
        else .ok { s with pc := .top }
  -- 579-587
  | .aioDone w =>
    if s.pc ≠ .aioDone then .off
    else if s.status = .waitAio then Rt.notify { s with status := .completed, pc := .write } w
    else .ok { s with pc := .write }
  -- 594-624
  | .write =>
    if s.pc ≠ .write then .off
    else if s.mem s.encPtr = [] then .ok { s with pc := .top }
    else
      .ok { s with aio := some ⟨s.comp, (s.mem s.encPtr).length, 0⟩
                   encPtr := s.dbl, mem := upd s.mem s.dbl [], comp := s.dbl, dbl := s.comp
                   full := false, pc := .top, gO := s.gO ++ s.gB, gB := [] }
  | .disk n =>
    match s.aio with
    | none => .off
    | some a =>
      if a.done + n ≤ a.len then
        if (s.mem a.buf).length < a.done + n then .ub
        else .ok { s with disk := s.disk ++ ((s.mem a.buf).drop a.done).take n
                          aio := some { a with done := a.done + n } }
      else .off
  | _ => .off

/-- One step.  See runtime/NanoLogCpp17.h:994-1097, runtime/RuntimeLogger.cc:353-730. -/
def Rt.act (cfg : Config) (prog : List Site) (s : Rt) (l : Lbl) : Out :=
  match l with
  | .call .. | .readId .. | .register .. | .stamp .. | .reserve .. | .commit .. => s.actLog prog l
  | .preallocate .. | .takeId .. | .push .. | .exitThread .. => s.actBuf l
  | .setLevel .. | .sync .. | .spurious .. | .ret .. | .setFile .. | .stop .. | .join .. =>
    s.actCtl cfg l
  | .top | .dict .. | .peek .. | .check | .encode .. => s.actScan cfg l
  | .scanned .. | .aio | .aioDone .. | .write | .disk .. => s.actIo l

/-- The state after the constructor, runtime/RuntimeLogger.cc:39-106, and the start of the
background thread with its encoder (checkpoint `c`).  (`nextBufferId()` in the initializer
list, 41, overrides the initial value 1 of the declaration, so the first id is 0.) -/
def Rt.init (cfg : Config) (jk : Nat) (c : Checkpoint) : Option Rt :=
  match EncSt.step cfg ⟨[], [], 0, [], []⟩ (.start jk c []) with
  | none => none
  | some (e, _) => some
    { level := 3, ids := fun _ => none, sites := [], nextId := 0, thr := fun _ => Thr.init
      bufs := [], status := .completed, exit := false, pc := .top, last := 0, i := 0
      full := false, wrap := false, shadow := e.shadow, cur := 0, rem := 0, pos := e.pos
      mem := fun b => if b = false then e.buf else []
      encPtr := false, comp := false, dbl := true, aio := none, disk := [], closed := []
      gD := [], gO := [], gB := [] }

/-- A sequence of steps.  See runtime/NanoLogCpp17.h:994-1097, runtime/RuntimeLogger.cc:353-730. -/
def Rt.run (cfg : Config) (prog : List Site) (s : Rt) : List Lbl → Out
  | [] => .ok s
  | l :: ls =>
    match s.act cfg prog l with
    | .ok s1 => Rt.run cfg prog s1 ls
    | .off => .off
    | .ub => .ub

end NanoLog
