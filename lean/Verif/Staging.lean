import Verif.Bytes

/-!
# Model of the staging buffer, `RuntimeLogger::StagingBuffer`

One producer (the logging thread) and one consumer (the background thread) share a ring of
`N = STAGING_BUFFER_SIZE` bytes.  Every load and store of a shared variable is a step of its
own.  Stores are kept in a store buffer of the storing thread and reach memory later, in an
order restricted only by `MemModel`; loads take place in program order.  Positions are offsets
from `storage`.
-/

namespace NanoLog

/-- In which order the stores of one thread may become visible.  `tso`: in program order
(x86; the code uses `sfence`, `lfence` and `rdtsc`, so it runs on x86 only).  `pso`: in any
order that respects `sfence` and the order of stores to the same variable. -/
inductive MemModel where
  | tso | pso
  deriving DecidableEq, Repr

/-- Pending stores of the producer.  `setP` carries as history the number of bytes published
by it (in total).  See runtime/RuntimeLogger.h:352-361, 511-516. -/
inductive Store where
  | data (off : Nat) (b : Byte)
  | setP (off len : Nat)
  | setE (off : Nat)
  | setD
  | fence
  deriving DecidableEq, Repr

/-- Do two stores go to the same variable?  See runtime/RuntimeLogger.h:421-487. -/
def Store.sameVar : Store → Store → Bool
  | .data i _, .data j _ => i = j
  | .setP .., .setP .. => true
  | .setE _, .setE _ => true
  | .setD, .setD => true
  | _, _ => false

/-- Control state of the producer.
* `idle`: outside, or before `reserveProducerSpace`.
* `loop n`: at the `while` of `reserveSpaceInternal` for `n` bytes (RuntimeLogger.cc:764).
* `loaded n c`: after loading `consumerPos` (767).
* `wrapping n c`: after the store to `endOfRecordedSpace` (776).
* `reserved n img`: space was returned; `img` are the bytes stored so far.
* `exited`: the thread has ended (`StagingBufferDestroyer`, RuntimeLogger.h:511-516). -/
inductive PPc where
  | idle
  | loop (n : Nat)
  | loaded (n c : Nat)
  | wrapping (n c : Nat)
  | reserved (n : Nat) (img : Nat → Option Byte)
  | exited

/-- Control state of the consumer.
* `idle`: before `peek`.
* `loaded p v`: after loading `producerPos` (RuntimeLogger.cc:828); `v` is history, the number
  of bytes published by the store that was in memory.
* `rolled p v`: after the roll-over (838).
* `holding avail view`: `peek` returned `avail` bytes; `view` are the bytes looked at so far.
* `dead`: `checkCanDelete` has loaded `shouldDeallocate` as true (RuntimeLogger.h:388).
* `freed`: the buffer was deleted (RuntimeLogger.cc:480). -/
inductive CPc where
  | idle
  | loaded (p v : Nat)
  | rolled (p v : Nat)
  | holding (avail : Nat) (view : Nat → Option Byte)
  | dead
  | freed

/-- The buffer (RuntimeLogger.h:421-487), both threads and the history.
Memory: `mem` (`storage`), `memP` (`producerPos`), `memE` (`endOfRecordedSpace`), `memC`
(`consumerPos`), `memD` (`shouldDeallocate`).
Producer: its view `pp` of `producerPos`, `minFree`, control state, pending stores `buf`.
Consumer: its view `cp` of `consumerPos`, control state, pending stores `cbuf` to
`consumerPos`.
History: `pub` published bytes, `got` consumed bytes, `vis` the number of bytes published by
the store that is now in `memP`. -/
structure SB where
  mem : Nat → Byte
  memP : Nat
  memE : Nat
  memC : Nat
  memD : Bool
  vis : Nat
  buf : List Store
  pp : Nat
  minFree : Nat
  pc : PPc
  cbuf : List Nat
  cp : Nat
  cc : CPc
  pub : List Byte
  got : List Byte

/-- `StagingBuffer::StagingBuffer`, RuntimeLogger.h:396-420. -/
def SB.init (N : Nat) : SB where
  mem := fun _ => 0
  memP := 0
  memE := N
  memC := 0
  memD := false
  vis := 0
  buf := []
  pp := 0
  minFree := N
  pc := .idle
  cbuf := []
  cp := 0
  cc := .idle
  pub := []
  got := []

/-- Subtraction of pointers assigned to a `uint64_t`. -/
def wsub (a b : Nat) : Nat := (a + 2 ^ 64 - b) % 2 ^ 64

/-- What the scheduler can choose.  See runtime/RuntimeLogger.h:333-389, runtime/RuntimeLogger.cc:751-844. -/
inductive Act where
  | reserve (n : Nat)
  | pstep
  | put (i : Nat) (b : Byte)
  | finish (m : Nat)
  | exit
  | commit (k : Nat)
  | commitC
  | peek
  | cstep
  | look (i : Nat)
  | consume (n : Nat)
  | release
  | canDelete
  deriving DecidableEq, Repr

/-- May the `k`-th pending store reach memory next? -/
def canCommit (mm : MemModel) (buf : List Store) (k : Nat) : Bool :=
  match mm with
  | .tso => k = 0
  | .pso =>
    match buf[k]? with
    | none => false
    | some .fence => k = 0
    | some w => (buf.take k).all fun v => v ≠ .fence ∧ v.sameVar w = false

/-- Effect of a store on memory.  See runtime/RuntimeLogger.h:352-361, 511-516. -/
def SB.apply (s : SB) : Store → SB
  | .data i b => { s with mem := fun j => if j = i then b else s.mem j }
  | .setP p len => { s with memP := p, vis := len }
  | .setE e => { s with memE := e }
  | .setD => { s with memD := true }
  | .fence => s

/-- The bytes of a partial image, as a list. -/
def imageBytes (f : Nat → Option Byte) (n : Nat) : Option (List Byte) :=
  (List.range n).mapM f

/-- One step.  `none`: not possible now.  See runtime/RuntimeLogger.h:333-389, runtime/RuntimeLogger.cc:751-844. -/
def SB.act (mm : MemModel) (N : Nat) (s : SB) : Act → Option SB
  /- `reserveProducerSpace`, RuntimeLogger.h:333-343 (statistics omitted) -/
  | .reserve n =>
    match s.pc with
    | .idle =>
      if n < s.minFree then some { s with pc := .reserved n fun _ => none }
      else some { s with pc := .loop n }
    | _ => none
  /- the next step inside `reserveSpaceInternal`, RuntimeLogger.cc:751-812 (without the
  benchmark and test variants in 789-799) -/
  | .pstep =>
    match s.pc with
    | .loop n =>
      if s.minFree ≤ n then some { s with pc := .loaded n s.memC }
      else some { s with pc := .reserved n fun _ => none }
    | .loaded n c =>
      if c ≤ s.pp then
        let free := wsub N s.pp
        if free > n then some { s with minFree := free, pc := .reserved n fun _ => none }
        else some { s with minFree := free, buf := s.buf ++ [.setE s.pp], pc := .wrapping n c }
      else some { s with minFree := wsub c s.pp, pc := .loop n }
    | .wrapping n c =>
      if c ≠ 0 then
        some { s with buf := s.buf ++ [.fence, .setP 0 s.pub.length], pp := 0
                      minFree := wsub c 0, pc := .loop n }
      else some { s with pc := .loop n }
    | _ => none
  /- the logging thread stores a byte of its message into the space reserved -/
  | .put i b =>
    match s.pc with
    | .reserved n img =>
      if i < n then
        some { s with buf := s.buf ++ [.data (s.pp + i) b]
                      pc := .reserved n fun j => if j = i then some b else img j }
      else none
    | _ => none
  /- `finishReservation`, RuntimeLogger.h:352-361 -/
  | .finish m =>
    match s.pc with
    | .reserved n img =>
      if m ≤ n then
        match imageBytes img m with
        | none => none
        | some bs =>
          some { s with buf := s.buf ++ [.fence, .setP (s.pp + m) (s.pub.length + m)]
                        minFree := wsub s.minFree m, pp := s.pp + m, pc := .idle
                        pub := s.pub ++ bs }
      else none
    | _ => none
  /- `~StagingBufferDestroyer`, RuntimeLogger.h:511-516 -/
  | .exit =>
    match s.pc with
    | .idle => some { s with buf := s.buf ++ [.setD], pc := .exited }
    | _ => none
  | .commit k =>
    if canCommit mm s.buf k then
      match s.buf[k]? with
      | none => none
      | some w => some { s.apply w with buf := s.buf.eraseIdx k }
    else none
  | .commitC =>
    match s.cbuf with
    | [] => none
    | c :: cs => some { s with memC := c, cbuf := cs }
  /- `peek`, RuntimeLogger.cc:826-844: load of `producerPos` -/
  | .peek =>
    match s.cc with
    | .idle => some { s with cc := .loaded s.memP s.vis }
    | _ => none
  /- the rest of `peek` -/
  | .cstep =>
    match s.cc with
    | .loaded p v =>
      if p < s.cp then
        let avail := wsub s.memE s.cp
        if avail > 0 then some { s with cc := .holding avail fun _ => none }
        else some { s with cbuf := s.cbuf ++ [0], cp := 0, cc := .rolled p v }
      else some { s with cc := .holding (wsub p s.cp) fun _ => none }
    | .rolled p _ => some { s with cc := .holding (wsub p s.cp) fun _ => none }
    | _ => none
  /- the background thread loads a byte of the region returned by `peek` -/
  | .look i =>
    match s.cc with
    | .holding avail view =>
      if i < avail then
        some { s with cc := .holding avail fun j => if j = i then some (s.mem (s.cp + i)) else view j }
      else none
    | _ => none
  /- `consume`, RuntimeLogger.h:373-377, after having looked at the bytes -/
  | .consume n =>
    match s.cc with
    | .holding avail view =>
      if n ≤ avail then
        match imageBytes view n with
        | none => none
        | some bs =>
          some { s with cbuf := s.cbuf ++ [s.cp + n], cp := s.cp + n
                        cc := .holding (avail - n) fun j => view (j + n)
                        got := s.got ++ bs }
      else none
    | _ => none
  /- the background thread goes on to the next buffer -/
  | .release =>
    match s.cc with
    | .holding _ _ => some { s with cc := .idle }
    | .dead => some { s with cc := .idle }
    | _ => none
  /- `checkCanDelete`, RuntimeLogger.h:386-389, after `peek` returned 0
  (RuntimeLogger.cc:474-480): load `shouldDeallocate`, then compare the positions -/
  | .canDelete =>
    match s.cc with
    | .holding 0 _ => if s.memD then some { s with cc := .dead } else none
    | .dead => if s.cp = s.memP then some { s with cc := .freed } else none
    | _ => none

/-- A sequence of steps.  See runtime/RuntimeLogger.h:314-487. -/
def SB.run (mm : MemModel) (N : Nat) : List Act → SB → Option SB
  | [], s => some s
  | a :: as, s =>
    match s.act mm N a with
    | none => none
    | some s' => SB.run mm N as s'

/-- States that occur in some execution. -/
def SB.Reachable (mm : MemModel) (N : Nat) (s : SB) : Prop :=
  ∃ as, SB.run mm N as (SB.init N) = some s

end NanoLog
