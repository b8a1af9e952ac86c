import Verif.ComposedBg
import Verif.Props.Destroy
import Verif.RuntimeExample

/-!
# C66: the whole runtime with its staging buffers byte by byte

`Runtime.lean` has queues of whole messages in place of the staging buffers.  Here it is shown that this is justified:
every execution of the runtime with the staging buffers of `Staging.lean` (each load and store a step of its own, stores
delayed in store buffers) produces files that an execution of `Runtime.lean` produces, and the main theorems about
`Runtime.lean` hold of it.
-/

namespace NanoLog

section
variable {cfg : Config} {prog : List Site} {ls : List CLbl} {c : Cr}

theorem CrExec.sim (hP : ProgOK cfg prog) (h0 : 0 < cfg.staging) (h : CrExec cfg prog ls c) :
    ∃ s0 als, CSim s0 cfg prog ls c als ∧ ∀ u, .spurious u ∈ als → .rt (.spurious u) ∈ ls := by
  obtain ⟨jk, k, c0, h1, h2, h3, h4, h5⟩ := h
  have := CSim.run hP h4 (CSim.init hP h0 h1 h2 h3)
  rw [h5] at this
  obtain ⟨bls, h6, h7⟩ := this
  exact ⟨_, bls, h6, h7⟩

/-- Every execution with byte-wise staging buffers writes the same log files as some execution with queues of messages.
In that execution every thread has recorded the first of its calls, with the same arguments and time stamps, in the
order of the calls; only calls whose message still waits in the store buffer of the processor, and the call after
them, may be missing. -/
theorem C66_refinement (hP : ProgOK cfg prog) (h0 : 0 < cfg.staging) (h : CrExec cfg prog ls c) :
    ∃ als s, RtExec cfg prog als s ∧ s.files = c.rt.files ∧ s.sites = c.rt.sites ∧ s.level = c.rt.level ∧
      (∀ t, (s.thr t).bid = (c.rt.thr t).bid) ∧ allocs als = allocs (calls ls) ∧
      ∀ t, mustRecord prog t als <+: mustRecord prog t (calls ls) ∧ stamps t als <+: stamps t (calls ls) ∧
        returned t als ≤ finished t ls ∧
        ((c.sb t).buf = [] → mustRecord prog t als = mustRecord prog t (calls ls) ∧ stamps t als = stamps t (calls ls) ∧
          returned t als = finished t ls) := by
  obtain ⟨s0, als, ⟨G, kls, r, τ, held, hR⟩, -⟩ := h.sim hP h0
  refine ⟨als, c.rt.over G, hR.exec.rt, ?_, rfl, rfl, fun t => (hR.thr t).bid, hR.alloc, fun t => ?_⟩
  · show G.closed.map _ ++ _ = _
    rw [hR.closed]
    rfl
  · have ho := hR.obs t
    refine ⟨⟨_, ho.rcd.symm⟩, ⟨_, ho.st.symm⟩, by have := ho.ret; omega, fun hb => ?_⟩
    have hk := (hR.thr t).buf.pending hb
    rw [hk] at ho
    have h1 := ho.rcd
    have h2 := ho.st
    have h3 := ho.ret
    simp only [lagR, lagT, List.append_nil, List.length_nil, Nat.add_zero] at h1 h2 h3
    exact ⟨h1.symm, h2.symm, h3.symm⟩

/-- No step has undefined behaviour: no buffer is used after it was deleted, no index is out of range, the encoder finds
only whole messages, and `consume` never exceeds what `peek` returned. -/
theorem C66_no_ub (hP : ProgOK cfg prog) (h0 : 0 < cfg.staging) {jk : Nat} {k : Checkpoint} {c0 : Cr} (hk : k.Plain)
    (hj : jk < 2 ^ 62) (hi : Cr.init cfg jk k = some c0) (ho : ∀ l ∈ ls, l.OK cfg prog) : c0.run cfg prog ls ≠ .ub := by
  intro e
  have := CSim.run hP ho (CSim.init hP h0 hk hj hi)
  rw [e] at this
  exact this

theorem take_of_prefix {α : Type} {a b : List α} (h : a <+: b) {n : Nat} (hn : n ≤ a.length) : b.take n = a.take n := by
  obtain ⟨x, rfl⟩ := h
  rw [List.take_append_of_le_length hn]

/-- At every moment every log file decodes without error, and the messages with the id of a thread, over all files in
order, are those of the first calls that this thread had to record, each once, in call order, with the time stamps
taken in these calls. -/
theorem C66_prefix (hP : ProgOK cfg prog) (h0 : 0 < cfg.staging) (h : CrExec cfg prog ls c)
    (hn : allocs (calls ls) ≤ 2 ^ 32) :
    ∃ outs : List (List OutMsg),
      c.rt.files.map (decodeFile (cfg.staging + 9)) = outs.map some ∧
      (∀ t b, (c.rt.thr t).bid = some b → ∃ n,
        List.Forall₂ (MsgOf prog b) ((mustRecord prog t (calls ls)).take n)
          (outs.flatten.filter fun m => m.tid == b) ∧
        (outs.flatten.filter fun m => m.tid == b).map OutMsg.ts = (stamps t (calls ls)).take n) ∧
      ∀ m ∈ outs.flatten, ∃ t, (c.rt.thr t).bid = some m.tid := by
  obtain ⟨als, s, h1, h2, -, -, h3, h4, h5⟩ := C66_refinement hP h0 h
  obtain ⟨outs, f1, f2, f3⟩ := C30_prefix hP h1 (by rw [h4]; exact hn)
  refine ⟨outs, by rw [← h2]; exact f1, fun t b hb => ?_, fun m hm => ?_⟩
  · obtain ⟨n, g1, g2⟩ := f2 t b (by rw [h3]; exact hb)
    have e1 := g1.length_eq
    have e2 := congrArg List.length g2
    rw [List.length_take] at e1
    rw [List.length_map, List.length_take] at e2
    refine ⟨(outs.flatten.filter fun m => m.tid == b).length, ?_, ?_⟩
    · rw [take_of_prefix (h5 t).1 (by omega)]
      by_cases hl : n ≤ (mustRecord prog t als).length
      · rw [show (outs.flatten.filter fun m => m.tid == b).length = n by omega]
        exact g1
      · rw [List.take_of_length_le (by omega)] at g1 ⊢
        exact g1
    · rw [take_of_prefix (h5 t).2.1 (by omega), g2]
      by_cases hl : n ≤ (stamps t als).length
      · rw [show (outs.flatten.filter fun m => m.tid == b).length = n by omega]
      · rw [List.take_of_length_le (by omega), List.take_of_length_le (by omega)]
  · obtain ⟨t, ht⟩ := f3 m hm
    exact ⟨t, by rw [← h3]; exact ht⟩

/-- Nothing is lost: once the background thread has consumed everything a thread has published, that thread is not inside
a log statement, and the output buffers are written, all its recorded calls are in the files. -/
theorem C66_complete (hP : ProgOK cfg prog) (h0 : 0 < cfg.staging) (h : CrExec cfg prog ls c)
    (hn : allocs (calls ls) ≤ 2 ^ 32) (hw : c.rt.mem c.rt.encPtr = []) (ha : c.rt.aio = none) :
    ∃ outs : List (List OutMsg),
      c.rt.files.map (decodeFile (cfg.staging + 9)) = outs.map some ∧
      ∀ t b, (c.rt.thr t).bid = some b → (c.sb t).got = (c.sb t).pub →
        ((c.rt.thr t).pc = .idle ∨ (c.rt.thr t).pc = .exited) →
        List.Forall₂ (MsgOf prog b) (mustRecord prog t (calls ls))
          (outs.flatten.filter fun m => m.tid == b) := by
  obtain ⟨s0, als, ⟨G, kls, r, τ, held, hR⟩, -⟩ := h.sim hP h0
  obtain ⟨outs, f1, f2⟩ := C30_complete hP hR.exec.rt (by rw [hR.alloc]; exact hn) hw ha
  have hf : (c.rt.over G).files = c.rt.files := by
    show G.closed.map _ ++ _ = _
    rw [hR.closed]
    rfl
  refine ⟨outs, by rw [← hf]; exact f1, fun t b hb hg hpc => ?_⟩
  have ht := hR.thr t
  obtain ⟨g, done, hI, hQ⟩ := ht.buf
  have hfl := hQ.pub
  rw [← hg, hQ.got] at hfl
  have hql : (G.thr t).q.map (img c.rt.sites) ++ (kls t).map (fun p => img c.rt.sites p.2) = [] := by
    refine msgLen_zero (fun m hm => hQ.ne m ?_) ?_
    · simp only [List.mem_append] at hm ⊢
      rcases hm with hm | hm
      · exact .inl (.inr hm)
      · exact .inr hm
    · have := congrArg List.length hfl
      simp only [List.flatten_append, List.length_append] at this
      rw [msgLen_append]
      unfold msgLen
      omega
  obtain ⟨hq, hk⟩ := List.append_eq_nil_iff.1 hql
  have hq := List.map_eq_nil_iff.1 hq
  have hk := List.map_eq_nil_iff.1 hk
  have ho := (hR.obs t).rcd
  rw [hk] at ho
  simp only [lagR, List.append_nil] at ho
  rw [ho]
  refine f2 t b ((hR.thr t).bid.trans hb) hq ?_
  show (G.thr t).pc = .idle ∨ (G.thr t).pc = .exited
  rw [ht.sync hk, aim]
  split
  · exact .inl rfl
  · exact hpc

theorem Cr.run_append {c c' : Cr} {a b : List CLbl} (h : c.run cfg prog (a ++ b) = .ok c') :
    ∃ c1, c.run cfg prog a = .ok c1 ∧ c1.run cfg prog b = .ok c' := by
  induction a generalizing c with
  | nil => exact ⟨c, rfl, h⟩
  | cons x a ih =>
    simp only [List.cons_append, Cr.run] at h ⊢
    split at h <;> try cases h
    exact ih h

theorem Rt.run_split {s s' : Rt} {a b : List Lbl} (h : s.run cfg prog (a ++ b) = .ok s') :
    ∃ s1, s.run cfg prog a = .ok s1 ∧ s1.run cfg prog b = .ok s' := by
  induction a generalizing s with
  | nil => exact ⟨s, rfl, h⟩
  | cons x a ih =>
    simp only [List.cons_append, Rt.run] at h ⊢
    split at h <;> try cases h
    exact ih h

/-- `sync` (and the `sync` in `setLogFile`): when it has been woken, not spuriously, all messages of calls that had
returned when it was called, and whose stores had reached memory by then, are in the files; that includes all messages of
the calling thread.  As in `C31_simple_partial`, for programs in which at most one thread logs or no thread that logs
ends before. -/
theorem C66_sync_partial (hP : ProgOK cfg prog) (h0 : 0 < cfg.staging) {ls' : List CLbl} {c1 c2 : Cr} {t : Nat} {l : Lbl}
    {sw : Bool} (h : CrExec cfg prog ls c) (hl : l = .sync t ∨ l = .setFile t true)
    (ha : c.act cfg prog (.rt l) = .ok c1) (hr : c1.run cfg prog ls' = .ok c2) (hok : ∀ l' ∈ ls', l'.OK cfg prog)
    (hw : (c2.rt.thr t).pc = .woken sw) (hs : .rt (.spurious t) ∉ ls')
    (hc : allocs (calls (ls ++ .rt l :: ls')) ≤ 1 ∨
      allocs (calls (ls ++ .rt l :: ls')) ≤ 2 ^ 32 ∧ ∀ u, .exit u ∉ ls ++ .rt l :: ls') :
    (c.sb t).buf = [] ∧
    ∃ outs : List (List OutMsg), c2.rt.files.map (decodeFile (cfg.staging + 9)) = outs.map some ∧
      ∀ u b, (c2.rt.thr u).bid = some b → ∃ n, ((c.sb u).buf = [] → finished u ls ≤ n) ∧
        n ≤ (mustRecord prog u (calls (ls ++ .rt l :: ls'))).length ∧
        List.Forall₂ (MsgOf prog b) ((mustRecord prog u (calls (ls ++ .rt l :: ls'))).take n)
          (outs.flatten.filter fun m => m.tid == b) := by
  have hlok : l.OK cfg prog := by rcases hl with rfl | rfl <;> trivial
  have hlt : l.ofThr = some t ∧ l.locks = some t ∧ l.replaced = false := by rcases hl with rfl | rfl <;> exact ⟨rfl, rfl, rfl⟩
  obtain ⟨s0, als, ⟨G, kls, r, τ, held, hR⟩, -⟩ := h.sim hP h0
  simp only [Cr.act, Cr.actRt] at ha
  rw [hlt.2.2, hlt.2.1] at ha
  simp only [Bool.false_eq_true, if_false] at ha
  split at ha <;> try cases ha
  rename_i hb
  refine ⟨hb, ?_⟩
  cases hx : c.rt.act cfg prog l with
  | off => rw [hx] at ha; cases ha
  | ub => rw [hx] at ha; cases ha
  | ok s1 =>
    rw [hx] at ha
    cases ha
    obtain ⟨b0, hS, -, hb0⟩ := CSim.app hP hR hlt.1 hlok (fun _ => hb) hx
    have hb0 := hb0.1 (.inl hlt.2.1)
    subst hb0
    have := CSim.run hP hok hS
    rw [hr] at this
    obtain ⟨bls, ⟨G2, kls2, r2, τ2, held2, hR2⟩, hsp⟩ := this
    rw [List.append_assoc, List.singleton_append, List.append_assoc, List.singleton_append] at hR2
    obtain ⟨⟨jk, k, s0, i1, i2, i3, -, i6⟩, i4, i5⟩ := hR2.exec
    cases i6
    obtain ⟨s, j1, j2⟩ := Rt.run_split i5
    simp only [Rt.run] at j2
    split at j2 <;> try cases j2
    rename_i s1' hsa
    have hfin : ((c2.rt.over G2).thr t).pc = .woken sw := by
      show (G2.thr t).pc = _
      rw [((hR2.thr t).inSync (by rw [hw]; rfl)).2, hw]
    obtain ⟨outs, f1, f2⟩ := C31_simple_partial hP
      ⟨jk, k, s0, i1, i2, i3, fun x hx => i4 x (List.mem_append_left _ hx), j1⟩ hl hsa j2
      (fun x hx => i4 x (List.mem_append_right _ hx)) hfin (fun e => hs (hsp t e)) (by
        rw [hR2.alloc]
        refine hc.imp id fun hc => ⟨hc.1, fun u hu => hc.2 u (hR2.exits u hu)⟩)
    have hf : (c2.rt.over G2).files = c2.rt.files := by
      show G2.closed.map _ ++ _ = _
      rw [hR2.closed]
      rfl
    refine ⟨outs, by rw [← hf]; exact f1, fun u b hub => ?_⟩
    obtain ⟨n, g1, g2, g3⟩ := f2 u b ((hR2.thr u).bid.trans hub)
    have hpre : mustRecord prog u (als ++ l :: bls) <+: mustRecord prog u (calls (ls ++ .rt l :: ls')) :=
      ⟨_, (hR2.obs u).rcd.symm⟩
    refine ⟨n, fun hbu => ?_, Nat.le_trans g2 hpre.length_le, ?_⟩
    · have hk := (hR.thr u).buf.pending hbu
      have := (hR.obs u).ret
      rw [hk] at this
      simp only [List.length_nil] at this
      omega
    · rw [take_of_prefix hpre g2]
      exact g3

end

/-! ## Concrete executions -/

/-- Labels of the examples. -/
def exCLbl : CLbl → Bool
  | .rt l => exLbl l
  | _ => true

/-- Run the labels from the start and test the final state. -/
def exCrCheck (ls : List CLbl) (p : Cr → Bool) : Bool :=
  match Cr.init exCfg 0 exCk with
  | some c0 =>
    match c0.run exCfg exSites ls with
    | .ok c => p c
    | _ => false
  | none => false

theorem exCrExec {ls : List CLbl} {p : Cr → Bool} (hl : ls.all exCLbl = true)
    (h : exCrCheck ls p = true) : ∃ c, CrExec exCfg exSites ls c ∧ p c = true := by
  unfold exCrCheck at h
  split at h
  · rename_i c0 hc0
    split at h
    · rename_i c hc
      refine ⟨c, ⟨0, exCk, c0, exCk_plain, by decide, hc0, ?_, hc⟩, h⟩
      intro l hm
      have := List.all_eq_true.1 hl l hm
      cases l <;> first | exact exLbl_ok this | trivial
    · cases h
  · cases h

/-- Thread `t` writes the message `m` into its buffer, byte by byte, and returns. -/
def exStores (t : Nat) (m : List Byte) : List CLbl :=
  .write t (.reserve m.length) :: (m.zipIdx.map fun p => .write t (.put p.2 p.1)) ++ [.finish t]

/-- Its `n` oldest stores reach memory. -/
def exCrDrain (t n : Nat) : List CLbl := List.replicate n (.store t)

/-- Thread 1 logs `x=-5`. -/
def exCr1 : List CLbl :=
  ([.call 1 0 [.int .i32 (-5)], .readId 1 false, .register 1, .stamp 1 1000, .reserve 1, .takeId 1, .push 1].map .rt) ++
  exStores 1 (entryBytes exSite0 ⟨0, 1000, [.int .i32 (-5)]⟩)

/-- Thread 1 logs a second message; `exCrDrain` in between: the first has become visible. -/
def exCr2 : List CLbl :=
  ([.call 1 0 [.int .i32 70000], .readId 1 false, .stamp 1 1010, .reserve 1].map .rt) ++
  exStores 1 (entryBytes exSite0 ⟨0, 1010, [.int .i32 70000]⟩)

/-- The background thread peeks at one buffer, loads `n` bytes and encodes them. -/
def exRead (n : Nat) : List CLbl :=
  [.peek, .follow] ++ (List.range n).map .look ++ [.encode (fun _ => 0) []]

/-- Steps of `Runtime.lean`. -/
def exRt (ls : List Lbl) : List CLbl := ls.map .rt

/-- The background thread finds a buffer empty and does not delete it. -/
def exEmpty : List CLbl := [.peek, .follow, .check]

/-- The first message is read while the second waits in the store buffer. -/
def exCrA : List CLbl :=
  exCr1 ++ exCrDrain 1 22 ++ exCr2 ++ exRt [.top, .dict false] ++ exRead 20 ++ exRt [.scanned none, .aio, .write, .disk 79]

/-- Then the second one. -/
def exCrB : List CLbl :=
  exCrA ++ exCrDrain 1 22 ++ exRt [.top, .dict false] ++ exRead 20 ++ exRt [.scanned none, .aio, .aioDone none, .write, .disk 13,
    .top, .dict false] ++ exEmpty ++ exRt [.scanned none, .aio, .aioDone none, .write]

/-- A pass over the one buffer, which is empty. -/
def exPass : List CLbl := exRt [.top, .dict false] ++ exEmpty ++ exRt [.scanned none]

/-- After `sync`. -/
def exCrSynced (t : Nat) : List CLbl :=
  exRt [.top, .dict false] ++ exRead 20 ++ exRt [.scanned none, .aio, .write] ++ exPass ++ exPass ++
    exRt [.disk 79, .aio, .aioDone (some t)]

/-- After `sync`, the message being invisible. -/
def exCrMissed (t : Nat) : List CLbl :=
  exPass ++ exRt [.aio, .write] ++ exPass ++ exPass ++
    exRt [.disk 68, .aio, .aioDone (some t)]

/-- Thread 1 ends and its buffer is deleted. -/
def exCrC : List CLbl :=
  exCrB ++ [.exit 1, .store 1] ++ exRt [.top, .dict false] ++ [.peek, .follow, .check, .check]

/-- Case for `C66_refinement` and `C66_prefix`: two calls of thread 1 have returned, the first message is in the file, the
stores of the second are pending. -/
example : ∃ c, CrExec exCfg exSites exCrA c ∧ 0 < exCfg.staging ∧ allocs (calls exCrA) = 1 ∧ finished 1 exCrA = 2 ∧
    (c.rt.thr 1).bid = some 0 ∧ (c.sb 1).buf.length = 22 ∧
    c.rt.files.map (fun f => (decodeFile 265 f).map List.length) = [some 1] := by
  obtain ⟨c, h, hp⟩ := exCrExec (ls := exCrA)
    (p := fun c => (c.rt.thr 1).bid = some 0 && (c.sb 1).buf.length = 22 &&
      c.rt.files.map (fun f => (decodeFile 265 f).map List.length) = [some 1]) (by decide +kernel) (by decide +kernel)
  simp only [Bool.and_eq_true, decide_eq_true_eq] at hp
  exact ⟨c, h, by decide, by decide +kernel, by decide +kernel, hp.1.1, hp.1.2, hp.2⟩

/-- Case for `C66_complete`: both messages are in the file. -/
example : ∃ c, CrExec exCfg exSites exCrB c ∧ allocs (calls exCrB) = 1 ∧ (mustRecord exSites 1 (calls exCrB)).length = 2 ∧
    c.rt.mem c.rt.encPtr = [] ∧ c.rt.aio = none ∧ (c.rt.thr 1).bid = some 0 ∧ (c.sb 1).got = (c.sb 1).pub ∧
    (c.sb 1).pub.length = 40 ∧ (c.rt.thr 1).pc = .idle ∧
    c.rt.files.map (fun f => (decodeFile 265 f).map List.length) = [some 2] := by
  obtain ⟨c, h, hp⟩ := exCrExec (ls := exCrB)
    (p := fun c => c.rt.mem c.rt.encPtr = [] && c.rt.aio = none && (c.rt.thr 1).bid = some 0 &&
      (c.sb 1).got = (c.sb 1).pub && (c.sb 1).pub.length = 40 && (c.rt.thr 1).pc = .idle &&
      c.rt.files.map (fun f => (decodeFile 265 f).map List.length) = [some 2]) (by decide +kernel) (by decide +kernel)
  simp only [Bool.and_eq_true, decide_eq_true_eq] at hp
  obtain ⟨⟨⟨⟨⟨⟨p1, p2⟩, p3⟩, p4⟩, p5⟩, p6⟩, p7⟩ := hp
  exact ⟨c, h, by decide +kernel, by decide +kernel, p1, p2, p3, p4, p5, p6, p7⟩

/-- A buffer is deleted. -/
example : ∃ c, CrExec exCfg exSites exCrC c ∧ (c.rt.thr 1).freed = true ∧ c.rt.bufs = [] := by
  obtain ⟨c, h, hp⟩ := exCrExec (ls := exCrC) (p := fun c => (c.rt.thr 1).freed && c.rt.bufs = [])
    (by decide +kernel) (by decide +kernel)
  simp only [Bool.and_eq_true, decide_eq_true_eq] at hp
  exact ⟨c, h, hp.1, hp.2⟩

/-- Run `ls`, do `l`, run `ls'`, and test the final state. -/
def exCrSync (ls : List CLbl) (l : Lbl) (ls' : List CLbl) (p : Cr → Cr → Bool) : Bool :=
  match Cr.init exCfg 0 exCk with
  | some c0 =>
    match c0.run exCfg exSites ls with
    | .ok c =>
      match c.act exCfg exSites (.rt l) with
      | .ok c1 =>
        match c1.run exCfg exSites ls' with
        | .ok c2 => p c c2
        | _ => false
      | _ => false
    | _ => false
  | none => false

theorem exCrSync_ok {ls ls' : List CLbl} {l : Lbl} {p : Cr → Cr → Bool} (hl : ls.all exCLbl = true)
    (h : exCrSync ls l ls' p = true) : ∃ c c1 c2, CrExec exCfg exSites ls c ∧ c.act exCfg exSites (.rt l) = .ok c1 ∧
      c1.run exCfg exSites ls' = .ok c2 ∧ p c c2 = true := by
  unfold exCrSync at h
  split at h
  · rename_i c0 hc0
    split at h
    · rename_i c hc
      split at h
      · rename_i c1 hc1
        split at h
        · rename_i c2 hc2
          refine ⟨c, c1, c2, ⟨0, exCk, c0, exCk_plain, by decide, hc0, ?_, hc⟩, hc1, hc2, h⟩
          intro l hm
          have := List.all_eq_true.1 hl l hm
          cases l <;> first | exact exLbl_ok this | trivial
        · cases h
      · cases h
    · cases h
  · cases h

/-- Case for `C66_sync_partial`: thread 2 calls `sync` when the message of thread 1 is visible. -/
example : ∃ c c1 c2, CrExec exCfg exSites (exCr1 ++ exCrDrain 1 22) c ∧ c.act exCfg exSites (.rt (.sync 2)) = .ok c1 ∧
    c1.run exCfg exSites (exCrSynced 2) = .ok c2 ∧ (∀ l ∈ exCrSynced 2, l.OK exCfg exSites) ∧
    .rt (.spurious 2) ∉ exCrSynced 2 ∧ allocs (calls (exCr1 ++ exCrDrain 1 22 ++ .rt (.sync 2) :: exCrSynced 2)) ≤ 1 ∧
    (c2.rt.thr 2).pc = .woken false ∧ finished 1 (exCr1 ++ exCrDrain 1 22) = 1 ∧ (c.sb 1).buf = [] ∧ c.rt.files = [[]] := by
  obtain ⟨c, c1, c2, h1, h2, h3, hp⟩ := exCrSync_ok (ls := exCr1 ++ exCrDrain 1 22) (l := .sync 2) (ls' := exCrSynced 2)
    (p := fun c c2 => (c2.rt.thr 2).pc = .woken false && (c.sb 1).buf = [] && c.rt.files = [[]])
    (by decide +kernel) (by decide +kernel)
  simp only [Bool.and_eq_true, decide_eq_true_eq] at hp
  refine ⟨c, c1, c2, h1, h2, h3, fun l hl => ?_, ?_, by decide +kernel, hp.1.1, by decide +kernel, hp.1.2, hp.2⟩
  · have := List.all_eq_true.1 (show (exCrSynced 2).all exCLbl = true by decide +kernel) l hl
    cases l <;> first | exact exLbl_ok this | trivial
  · intro h
    have : (exCrSynced 2).all (fun l => match l with | .rt (.spurious _) => false | _ => true) = true := by decide +kernel
    have := List.all_eq_true.1 this _ h
    cases this

/-- The restriction to stores that have reached memory is needed: the log call of thread 1 has returned, then thread 2 calls
`sync`; it returns, and the message is not in the file.  (Nothing orders the two threads here; if thread 2 learns
through a lock that the call has returned, the stores have reached memory.) -/
theorem C66_unordered_false : ∃ c c1 c2, CrExec exCfg exSites exCr1 c ∧ c.act exCfg exSites (.rt (.sync 2)) = .ok c1 ∧
    c1.run exCfg exSites (exCrMissed 2) = .ok c2 ∧ (c2.rt.thr 2).pc = .woken false ∧ finished 1 exCr1 = 1 ∧
    allocs (calls (exCr1 ++ .rt (.sync 2) :: exCrMissed 2)) ≤ 1 ∧ .rt (.spurious 2) ∉ exCrMissed 2 ∧
    (c2.rt.thr 1).bid = some 0 ∧ c2.rt.files.map (decodeFile 265) = [some []] := by
  obtain ⟨c, c1, c2, h1, h2, h3, hp⟩ := exCrSync_ok (ls := exCr1) (l := .sync 2) (ls' := exCrMissed 2)
    (p := fun _ c2 => (c2.rt.thr 2).pc = .woken false && (c2.rt.thr 1).bid = some 0 &&
      c2.rt.files.map (fun f => (decodeFile 265 f).map List.length) = [some 0])
    (by decide +kernel) (by decide +kernel)
  simp only [Bool.and_eq_true, decide_eq_true_eq] at hp
  refine ⟨c, c1, c2, h1, h2, h3, hp.1.1, by decide +kernel, by decide +kernel, ?_, hp.1.2, ?_⟩
  · intro h
    have : (exCrMissed 2).all (fun l => match l with | .rt (.spurious _) => false | _ => true) = true := by decide +kernel
    have := List.all_eq_true.1 this _ h
    cases this
  · have h := hp.2
    cases hf : c2.rt.files with
    | nil => rw [hf] at h; cases h
    | cons f fs =>
      rw [hf] at h
      cases fs with
      | cons _ _ => simp at h
      | nil =>
        simp only [List.map_cons, List.map_nil, List.cons.injEq, and_true, Option.map_eq_some_iff] at h ⊢
        obtain ⟨o, ho, hz⟩ := h
        rw [ho, List.length_eq_zero_iff.1 hz]

end NanoLog
