# NanoLog: formal model and proofs

Source of truth: `/repo` (PlatformLab/NanoLog, C++ and Python), read as text.
Model and proofs: Lean 4.33.0, in `lean/Verif`. Properties: `properties.jsonl`.
Which theorem proves which property: `MANIFEST.json`.

## Method

* The model is a set of small total functions, one per function of the code, each with a
  comment naming the file and lines it models and what was simplified.
* Undefined behaviour (reading outside a buffer, a failed `assert`) is an explicit outcome
  (`none`, or an error constructor), never a default value.
* Concurrency is modelled by labelled transition systems whose steps are single shared
  memory accesses (staging buffer) or critical sections (runtime).  Theorems quantify over
  all reachable states, by induction over executions.
* Specifications live apart from the model: they are stated with lists, sums, sortedness,
  permutations, prefixes, and C conversion semantics (`Spec*.lean` or a `Spec` section).
* If the code violates a property, the violation is proved with a concrete witness
  (theorem `..._false`/`..._counterexample`), and the strongest true version is proved with
  the suffix `_partial`; the missing part is stated next to it.
* Each theorem is followed by an `example` showing that its hypotheses hold in a concrete,
  non-trivial case.

## Trusted base

* Lean's kernel. No own axioms, no `sorry`, no `native_decide`, no `bv_decide`. The only
  axioms any theorem uses are `propext`, `Classical.choice`, `Quot.sound`.
* The fidelity of the model to the C++/Python text. Line citations make this reviewable.
* Machine assumptions: x86-64, little endian, LP64 type sizes, 4-byte `wchar_t`, 16-byte
  `long double`, bit-fields allocated from the least significant bit, packed structs.
* Memory model of the staging buffer (`Staging.lean`): each thread has a FIFO store buffer
  (`tso`, x86), or one in which stores to different locations may be reordered except across
  a store fence (`pso`). The compiler keeps the order of the accesses written in the source
  (the fences are `asm volatile` with a "memory" clobber; the plain stores between them are trusted). Every theorem says which of
  the two models it needs; most hold in both.
* Liveness theorems (`Props/StagingLive.lean`) assume fairness: a thread that can act does act
  eventually, stores become visible eventually, and the consumer keeps polling.

* Runtime (`Runtime.lean`): a critical section is one step, except that the background
  thread's scan consists of several steps during which it holds the lock; a staging buffer is
  a queue of messages (C63 proves that the staging buffer of `Staging.lean` is one; `Composed.lean` is the
  runtime with the queues replaced by these staging buffers, and C66 proves that it is simulated by the runtime with queues). Reads without lock may return old values where the code reads
  without lock (`logId`, `invocationSites.size()`). History variables (`log`, `gD`, `gO`, `gB`)
  record which messages went where; no step depends on them. The invariants are `RtInv`
  (control), `FInv` (bytes in buffers and files are the records of the encoder model), `RInv`
  (recorded calls), `SyncInv` (progress of a `sync` request).

* `LogMessage` (`LogMessage.lean`): bytes of a slot not written by a push are arbitrary (`Junk`),
  and the conversion `float` to `double` is an arbitrary function (`Widen`). Time
  (`Time.lean`): exact rationals of Mathlib; rounding of `double` is not modelled except in
  the final print. Time trace (`TimeTrace.lean`): printing is modelled without concurrent
  recording, except in the counterexample `C48_lock_false`.

### Modelled

`runtime/Packer.h` (all), `runtime/Log.h` (entry layouts, header (de)compression,
`LogMessage`), `runtime/Log.cc` (Encoder; Decoder: dictionary, micro code, extents,
unordered/iterator/ordered loops), `runtime/NanoLogCpp17.h` (format analysis, argument
sizing, storing, compression), `runtime/RuntimeLogger.{h,cc}` (staging buffer,
registration, buffer allocation and deletion, the background loop with sync/AIO states,
setLogFile, setLogLevel), `runtime/LogDecompressor.cc` (minMaxMean),
`runtime/TimeTrace.cc` (record, merge), `preprocessor/FunctionGenerator.py` (ids, format
splitting, layout of generated record/compress/decompress code, dictionary code),
`preprocessor/parser.py` (string literal and argument scanning, statement detection and rewriting).

### Not modelled

Text produced by `printf` itself (the model stops at the conversion specifier plus the
argument values passed to `fprintf`), floating point arithmetic (float arguments are opaque
bytes; wall-clock time, the calibration of `Cycles.cc` and ratios use exact rationals), the operating system
(a write completes with all its bytes or is outstanding, and in C55/C56 may be lost or short; crashes are modelled as
truncation of the file), memory allocation failure, compiler reordering, `printStats` text, `docopt.py`, the
benchmarks (except the two programs of C65) and tests.

## Plan per property

| id | model | proof |
|----|-------|-------|
| C01 | `packI`, `unpackI` over the eight integer types | case split on type and range, little-endian lemma |
| C02 | `packPtr`, `packFloat`, `unpackFloat` on opaque bytes | direct, nibble 0 = 16 bytes |
| C03 | same | minimality of `numBytes` by cases |
| C04 | `writeNibbles`, `getSizeOfPackedValues`, `Nibbler` | induction over argument list, two at a time |
| C05 | `compressLogHeader`, `decompressLogHeader` | round trip, modular arithmetic |
| C06 | `encodeExtentHeader`, `readExtentHeader` | round trip |
| C07 C08 C10 | two-thread transition system of the staging buffer, one shared access per step | inductive invariant with ghost history |
| C09 | same, deterministic run of producer after drain | invariant + bounded run; impossibility by invariant |
| C11 | buffer + thread-exit flag in the same system, and in the runtime system | invariant |
| C12 | `getArgSizes`, `storeArguments` | induction over arguments |
| C13 | `compressArgs`, `decodeArgs` | induction, using C01-C04 |
| C14 | encoder with write watermark | bound on every write incl. overshoot |
| C15 | `encodeLogMsgs`, `decodeExtent` | induction over messages |
| C16 C17 | same | arithmetic on sizes |
| C18 | encoder operation sequence -> bytes -> decoder | induction over operations |
| C19 C20 C30 C31 C32 C34 C43 | runtime transition system: threads, registration, buffers, background loop, AIO, files | inductive invariants; counterexample trace for sync |
| C21 | `encodeDictionary`, `readDictionaryFragment` | induction over entries; negation for long strings |
| C22 C23 | both format parsers on character lists; regular expression as prioritized matcher | simulation on a specified sub-grammar; negations |
| C24 C28 C29 C44 C45 | decoder loops on byte lists; the same with the decoder memory (`MemTerm`, `MemIter`, `MemOrdered`) | refinement between loops, induction on record list, measure |
| C25 C26 C27 | staged merge of `decompressTo` | permutation invariant; sortedness invariant; counterexamples |
| C33 | `setLogLevel`, filter | decision logic, fold over histories |
| C35 | `LogMessage` | invariant over push/reset sequences |
| C36 | `printSingleArg` argument selection | decision logic; negation for negative values |
| C37 | `generateLogIdStr` | injectivity on digit-free names (prefix code); collision witness |
| C38 | generator output as instruction lists (`GenCode`): length declarations, argument indices; arrays with explicit end; C parameter types of x86-64 | induction over argument rows; reuses C01-C04 lemmas; negations for arrays without terminator |
| C39 | `splitAndParseTypesInFmtString` (`PreFmt`); `FmtRegex` characterizes exactly what the regular expression matches; `int(float(s))` of a width is taken as exact | simulation of the two scanning loops on all texts; value of literals; negations |
| C40 C41 | scanners on byte lists (`PreParse`); Python 2 `str` = bytes, universal character names left out | induction over literal/argument grammar; flat scanner vs line scanner; negations |
| C42 | exact rational model of the time computation | arithmetic; rounding negation |
| C46 | scan steps of the runtime transition system | invariant: what is still to be inspected (`pend`); counterexample for the deletion of the first buffer of a pass |
| C47 | fold over messages | induction |
| C48 | merge over per-thread rings | sortedness by induction; reader-lock negation |
| C49 C50 | preprocessor mode (`PreMode`): generated dictionary code on a buffer with old contents, C++ literals as an automaton (`cLit`), decoder memory as bytes with an index of offsets; encoder and decoder loops as in C12-C18 with generated functions | induction over entries and fragments (offset invariant); cutting literals at conversions; invariant on the decoder memory for appended executions; ordered decoding by simulation of the abstract machine of C25-C27 (`MemOrderedSim`); negations by computation |
| C51 | `processFile` (`PreFile`): lines, line markers, scanning for `NANO_LOG`, replacement text, injection; generated record functions enter as any function from statements to text; the loop has a bound on steps, exceptions are `none` | specification with located characters (file, line, column by the C rules for line markers): output = input except the edits; inverse of the statement parser; tokens (strings, escapes) for detection; negations |
| C52 C53 | infinite executions of the runtime system with explicit fairness (`RtRun.Fair`); notifications may be lost or spurious except where fairness says otherwise | work measure that no step of the background thread increases; steady phase; ranking arguments for each stage of a pass; starvation by a periodic execution; with ongoing logging, a lexicographic rank (distance of the pass start from the buffer, position in the pass, rest of the chunk) shows that each buffer is served; if the background thread is started again infinitely often, an invariant shows that it ends only after a pass over empty buffers; an execution given by a strategy for the scheduler, in which the scan never returns to the first buffer because new threads keep appending buffers |
| C54 | `createMicroCode` on bytes (`MicroMem`): writes that may leave the allocation, counters and bit fields updated in place; memory-level dictionary and decoder | loop invariant relating the bytes to the fragments of C22; simulation of the list-level decoder; negation for every memory size |
| C55 C56 | the output step (`Output`): memory handed to `aio_write` with the padding for `O_DIRECT`; runs in which each write is complete, lost or short | zero bytes over the beginning of the buffer; records of the writes that remain; concrete witnesses for lost static information and short writes |
| C57 | counters of the background thread (`Stats`) along executions of `Rt`; the compression ratio in exact numbers | the loop of `encodeLogMsgs` counts the messages it encodes; invariant over steps; messages of returned calls compared by counting per thread |
| C58 | counters of a staging buffer (`StagingStats`) along executions of `SB`; undefined behaviour (division by zero, index) is a result of its own | induction over steps; `avail < N` from C10; concrete witnesses |
| C59 | destruction of the static object (`Destroy`): alive, in the destructor, destroyed; use of a member afterwards is undefined behaviour | the destructor's `sync` as in C31, then the background thread only ends; the two loss conditions are stated on the trace; concrete witnesses for each; fair executions reduced to C52 |
| C60 | `rcdfTime` of the decompressor (`Rcdf`): differences as `uint64_t`, sorting, the printing loop, conversion with exact rationals | specification by counting the larger elements of the list; loop invariant over the sorted list; joined with C24 for whole files; concrete witnesses for the wrong last line, mean, empty list and negative times |
| C61 | `main` of the decompressor (`Tool`): the arguments, `std::stoi`, the loop that counts calls of the iterator, exit status; `find` | the count equals the number of messages by an invariant of the iterator (a call that returned `true` left the stream readable) and C24, C27, C28; decimal notation and infix as specification |
| C62 | `Cycles` (`Cycles`): the two nested loops of the calibration on a list of readings, the values the static variable takes meanwhile, conversions, `sleep`; rationals for `double` | readings produced by clocks with resolution and delay; error propagation by linear arithmetic; witnesses for the documented precision, for the value read too early and for overflows |
| C63 | `StagingQueue` on `Staging`: a queue of whole messages and the events each step of the staging buffer stands for | forward simulation: relation between memory, pending stores and queue (places between messages, pending publications), on top of the invariant of C07-C11; events are unique, so facts hold for every pair of executions |
| C64 | `HexDump`: `vformat` with the text of `vsnprintf` as parameter, `hexDump` character by character; spec: a reader of dumps | induction over lines; the reader inverts the printer |
| C65 | `ArgScript` (regular expression with greedy prefix, Python's `not 0`), `ArgProgram` (`getline`, `strstr`, `atol`); spec: last or first occurrence, digits | induction over lines and characters; witnesses for the false cases |
| C66 | `Composed`: `Rt` with the queues replaced by `SB`; spec: the same observations as C30, C31 (calls of the execution, decoder) | forward simulation: a thread of `Rt` stays in its log call until the store publishing the message reaches memory, then catches up |
| C67 | infinite executions of `Composed` (`CrRun`), fairness as for C53 plus: a pending store reaches memory at some time (`CrRun.Fair`) | the forward simulation of C66 maps each step to at most eight steps of `Rt`; the infinite execution of `Rt` so obtained is fair because a rank bounds the silent steps of the background thread; C53 applied to it |
| C68 | `CrRun.Runs` in addition: a thread in a log call goes on (mutexes are fair), stores each byte once, pending stores of the background thread reach memory | the steps in one staging buffer form an execution of `Staging.lean` (`CrRun.sbExec`, two steps per step); if a call waited for ever, everything would be read (C67), and C09 would give it space |
| C69 | `CrRun.QuietFrom`: no log call returns, no `sync`, no `setLogFile`; stores may be pending | `Echo.loud`: steps of the other model that give new work are the same step here or publish a message; once the store buffers are drained (`RunOf.published`) the other run is quiet, C52 and C53 apply |
| C70 | `HSt` (`Verif.DecHeap`): fragments as objects with addresses, vectors of pointers, free list; `Verif.StdHeap`: the heap algorithms of libstdc++ (`__adjust_heap`, `__push_heap`), trusted to be those of the library used | simulation by the model with an oracle (`HRel`, `hstep_agree`): the oracle picks the heap's front; `popHeap_spec` does not need the front's key; ownership as a permutation of all addresses (`Owned`) |
| C71 | `OSt` and `HSt` as for C25 and C70, on a prefix of the file | the simulation of C25 up to the cut record (`sim_fill_core`); the failing read reaches the end of the file, after which `good` has no influence (`step_good`), so the rest is the simulation for a file that ends there; `cut_exec` relates the records in front of the cut to the operations |
| C72 | `Dec` as for C20-C24, file = log ++ arbitrary bytes | induction over the records for the loop with any sufficient bound (`unordered_prefix`); output only grows; counterexample for ordered decompression |
| C73 | `Cr` as for C66, then `HSt` as for C70 on the files it has written | the records of each file (`FInv`), cut where the disk is; unordered and ordered decompression of a cut file have the same complete extents (`cut_body`); `ARun.order`: the abstraction of ordered decompression keeps the messages of a thread with increasing time stamps in order, since among its remaining messages the first one is always the least (`KSt`) |
| C74 | as C73, infinite executions as for C67 and C69 | `exec_ordered` at each moment, combined with C66, C67 and C69 |
| C75 | as for C73, and pairs of states of an execution | `Resorted`: for every selection of messages in the order of time (`KSt` for any predicate), hence for every pair; `Accrues`: the files only grow, and `decode_accrues`: what is found in them grows at the end |
| C76 | as for C75 | `C66_sync_partial` and `C75_later`; ids of buffers stay (`Accrues.bid`) and are unique |
| C77 | `Cd` (`Verif/ComposedDestroy.lean`): `Cr` and the phases of the destructor of C59 | the beginning of the destructor is that of `setLogFile`; `CSim` up to its end, then `run_stopped` (C59) in the other model; `exec_ordered` for the output |
| C78 | `CdRun`: infinite executions of `Cd` with fairness | up to the end of the destructor the execution is one of `Cr` (`CdRun.toCr`); progress as in C59 and C68 (stores reach memory, records are written, the waiter is woken, the background thread ends), then C77 |
| C79 | `Proc`: a process as an execution of `Cr`; the log file is what the processes wrote, one behind the other | logs as lists of records that hold in any state of the decoder because they begin with a checkpoint (`PartOf`); where the cut in the last one lies (`decodeFile_behind`); C66 for each process; concrete witnesses for a process killed in a write |
| C80 | `Cr`, `Cd` as in C66 and C77, without a condition on the ends of threads; `CutsPass`: a step that deletes the buffer at which a second pass began | the simulation carries executions without `CutsPass` to ones of `Rt` without a pass cut short (`CRel.run_cut`), C31 and C59 there; concrete witness for the loss |
| C81 | `orderedFile` (C74) on files of processes as in C79 | extents in time order meet the conditions of C26 (`ordered_rising`), so each log in front ends with empty stages; the last log, cut anywhere, as in C71; `C70_heaps` for the objects of the decoder |
