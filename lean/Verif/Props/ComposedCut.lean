import Verif.ComposedCut
import Verif.Props.ComposedDestroy

/-!
# C80: `sync` and the end of the process when threads have ended

C66, C74 and C77 assume that at most one thread logs or that no thread that logs ends.  Here threads may end: what is
needed is only that no second pass that encodes nothing deletes the buffer with which it began while there are others
(`CutsPass`), as is shown necessary by C31_delete_false, C59_delete_false and C80_delete_false.
-/

namespace NanoLog

section
variable {cfg : Config} {prog : List Site} {ls ls' : List CLbl} {c c1 c2 : Cr} {t : Nat} {d1 d2 d3 : Cd}

/-! ## Lemmas -/

/-- What the files contain when the destructor has ended, decoded one after the other. -/
theorem cd_decoded_cut (hP : ProgOK cfg prog) (h0 : 0 < cfg.staging) (h : CrExec cfg prog ls c)
    (hd : (Cd.mk c .alive).act cfg prog (.destroy t) = .ok d1)
    (hr : d1.run cfg prog (ls'.map .cr) = .ok d2) (hok : ∀ l ∈ ls', l.OK cfg prog)
    (hf : d2.act cfg prog .finish = .ok d3) (hs : .rt (.spurious t) ∉ ls')
    (hnd : ∀ p ∈ d1.cr.trace cfg prog ls', ¬ CutsPass cfg prog p) (hn : allocs (calls (ls ++ ls')) ≤ 2 ^ 32) :
    ∃ outs : List (List OutMsg), d3.cr.rt.files.map (decodeFile (cfg.staging + 9)) = outs.map some ∧
      ∀ u b, (d3.cr.rt.thr u).bid = some b → ∃ n, ((c.sb u).buf = [] → finished u ls ≤ n) ∧
        n ≤ (mustRecord prog u (calls (ls ++ ls'))).length ∧
        List.Forall₂ (MsgOf prog b) ((mustRecord prog u (calls (ls ++ ls'))).take n)
          (outs.flatten.filter fun m => m.tid == b) := by
  obtain ⟨ha, hrun, hph, -⟩ := cd_exec h hd hr hok
  obtain ⟨-, -, hbuf⟩ := cd_destroy hd
  obtain ⟨t', ht', hw, hdead, rfl⟩ := cd_finish hf
  rw [hph] at ht'
  cases ht'
  obtain ⟨s0, als, ⟨G, kls, r, τ, held, hR⟩, -⟩ := h.sim hP h0
  simp only [Cr.act, Cr.actRt, Lbl.replaced, Lbl.locks, Bool.false_eq_true, if_false, hbuf, if_true] at ha
  cases hx : c.rt.act cfg prog (.setFile t true) with
  | off => rw [hx] at ha; cases ha
  | ub => rw [hx] at ha; cases ha
  | ok s1 =>
    rw [hx] at ha
    simp only [Cr.lift] at ha
    obtain ⟨b0, hS, -, hb0⟩ := CSim.app hP hR (l := .setFile t true) (t := t) rfl trivial (fun _ => hbuf) hx
    have hb0 := hb0.1 (.inl rfl)
    subst hb0
    rw [COut.ok.inj ha] at hS
    obtain ⟨G1, kls1, r1, τ1, held1, hR1⟩ := hS
    obtain ⟨bls, ⟨G2, kls2, r2, τ2, held2, hR2⟩, hsp, hcut⟩ := hR1.run_cut hP hok hrun
    have hcut := hcut hnd
    have hE : RtExec cfg prog als (c.rt.over G) := hR.exec.rt
    have hsa : (c.rt.over G).act cfg prog (.setFile t true) = .ok (d1.cr.rt.over G1) := by
      obtain ⟨s, i1, i2⟩ := Rt.run_split hR1.exec.run
      rw [hR.exec.run] at i1
      cases i1
      simp only [Rt.run] at i2
      split at i2 <;> try cases i2
      assumption
    have hrb : (d1.cr.rt.over G1).run cfg prog bls = .ok (d2.cr.rt.over G2) := by
      obtain ⟨s, i1, i2⟩ := Rt.run_split hR2.exec.run
      rw [hR1.exec.run] at i1
      cases i1
      exact i2
    rw [List.append_assoc, List.singleton_append, List.append_assoc, List.singleton_append] at hR2
    have hfin : ((d2.cr.rt.over G2).thr t).pc = .join := by
      show (G2.thr t).pc = _
      rw [((hR2.thr t).inSync (by rw [hw]; rfl)).2, hw]
    have hn2 : allocs (als ++ .setFile t true :: bls) ≤ 2 ^ 32 := by
      rw [hR2.alloc, (calls_setFile (prog := prog) (ls := ls) (ls' := ls') (t := t) 0).2.1]; exact hn
    have hI := syncInv_start hE (.inr rfl) hsa
    have hC1 := act_cinv hP.room (hE.inv hP).1 hsa
    have hst : ¬ (((d1.cr.rt.over G1).thr t).pc = .stop ∨ ((d1.cr.rt.over G1).thr t).pc = .join) := by
      simp only [Rt.act, Rt.actCtl] at hsa
      split at hsa
      · rw [← Out.ok.inj hsa]; simp [Rt.setThr]
      · cases hsa
    have hL := run_stopped hP.room hC1 hI (fun hx => absurd hx hst) hrb (fun e => hs (hsp t e)) hcut (.inr hfin)
    obtain ⟨outs, f1, f2⟩ := atLeast_decoded hP hR2.exec.rt hn2 hL
    have hf : (d2.cr.rt.over G2).files = d2.cr.rt.files := by
      show G2.closed.map _ ++ _ = _
      rw [hR2.closed]
      rfl
    refine ⟨outs, by rw [← hf]; exact f1, fun u b hub => ?_⟩
    obtain ⟨n, g1, g2, g3⟩ := f2 u b ((hR2.thr u).bid.trans hub)
    have hpre : mustRecord prog u (als ++ .setFile t true :: bls) <+: mustRecord prog u (calls (ls ++ ls')) := by
      rw [← (calls_setFile (ls := ls) (ls' := ls') (t := t) u).1]
      exact ⟨_, (hR2.obs u).rcd.symm⟩
    refine ⟨n, fun hbu => ?_, Nat.le_trans g2 hpre.length_le, ?_⟩
    · have hk := (hR.thr u).buf.pending hbu
      have := (hR.obs u).ret
      rw [hk] at this
      simp only [List.length_nil] at this
      omega
    · rw [take_of_prefix hpre g2]
      exact g3

/-! ## C80 -/

/-- **C80**, `sync` (and the `sync` in `setLogFile`), whatever threads end: when it has been woken, not spuriously, all
messages of calls that had returned when it was called, and whose stores had reached memory by then, are in the files.
What is missing: the claim is false if a pass is cut short (C31_delete_false). -/
theorem C80_sync_partial (hP : ProgOK cfg prog) (h0 : 0 < cfg.staging) {l : Lbl}
    {sw : Bool} (h : CrExec cfg prog ls c) (hl : l = .sync t ∨ l = .setFile t true)
    (ha : c.act cfg prog (.rt l) = .ok c1) (hr : c1.run cfg prog ls' = .ok c2) (hok : ∀ l' ∈ ls', l'.OK cfg prog)
    (hw : (c2.rt.thr t).pc = .woken sw) (hs : .rt (.spurious t) ∉ ls')
    (hnd : ∀ p ∈ c1.trace cfg prog ls', ¬ CutsPass cfg prog p) (hn : allocs (calls (ls ++ .rt l :: ls')) ≤ 2 ^ 32) :
    (c.sb t).buf = [] ∧
    ∃ outs : List (List OutMsg), c2.rt.files.map (decodeFile (cfg.staging + 9)) = outs.map some ∧
      ∀ u b, (c2.rt.thr u).bid = some b → ∃ n, ((c.sb u).buf = [] → finished u ls ≤ n) ∧
        n ≤ (mustRecord prog u (calls (ls ++ .rt l :: ls'))).length ∧
        List.Forall₂ (MsgOf prog b) ((mustRecord prog u (calls (ls ++ .rt l :: ls'))).take n)
          (outs.flatten.filter fun m => m.tid == b) := by
  have hlok : l.OK cfg prog := by rcases hl with rfl | rfl <;> trivial
  have hlt : l.ofThr = some t ∧ l.locks = some t ∧ l.replaced = false := by rcases hl with rfl | rfl <;> exact ⟨rfl, rfl, rfl⟩
  obtain ⟨s0, als, ⟨G, kls, r, τ, held, hR⟩, -⟩ := h.sim hP h0
  simp only [Cr.act, Cr.actRt] at ha
  rw [hlt.2.2, hlt.2.1] at ha
  simp only [Bool.false_eq_true, if_false] at ha
  split at ha <;> try cases ha
  rename_i hb
  refine ⟨hb, ?_⟩
  cases hx : c.rt.act cfg prog l with
  | off => rw [hx] at ha; cases ha
  | ub => rw [hx] at ha; cases ha
  | ok s1 =>
    rw [hx] at ha
    cases ha
    obtain ⟨b0, hS, -, hb0⟩ := CSim.app hP hR hlt.1 hlok (fun _ => hb) hx
    have hb0 := hb0.1 (.inl hlt.2.1)
    subst hb0
    obtain ⟨G1, kls1, r1, τ1, held1, hR1⟩ := hS
    obtain ⟨bls, ⟨G2, kls2, r2, τ2, held2, hR2⟩, hsp, hcut⟩ := hR1.run_cut hP hok hr
    have hcut := hcut hnd
    have hsa : (c.rt.over G).act cfg prog l = .ok (s1.over G1) := by
      obtain ⟨s, i1, i2⟩ := Rt.run_split hR1.exec.run
      rw [hR.exec.run] at i1
      cases i1
      simp only [Rt.run] at i2
      split at i2 <;> try cases i2
      assumption
    have hrb : (s1.over G1).run cfg prog bls = .ok (c2.rt.over G2) := by
      obtain ⟨s, i1, i2⟩ := Rt.run_split hR2.exec.run
      rw [hR1.exec.run] at i1
      cases i1
      exact i2
    rw [List.append_assoc, List.singleton_append, List.append_assoc, List.singleton_append] at hR2
    have hfin : ((c2.rt.over G2).thr t).pc = .woken sw := by
      show (G2.thr t).pc = _
      rw [((hR2.thr t).inSync (by rw [hw]; rfl)).2, hw]
    obtain ⟨outs, f1, f2⟩ := C31_sync_partial hP hR.exec.rt hl hsa hrb
      (fun x hx => hR2.exec.ok x (List.mem_append_right _ hx)) hfin (fun e => hs (hsp t e)) hcut (by rw [hR2.alloc]; exact hn)
    have hf : (c2.rt.over G2).files = c2.rt.files := by
      show G2.closed.map _ ++ _ = _
      rw [hR2.closed]
      rfl
    refine ⟨outs, by rw [← hf]; exact f1, fun u b hub => ?_⟩
    obtain ⟨n, g1, g2, g3⟩ := f2 u b ((hR2.thr u).bid.trans hub)
    have hpre : mustRecord prog u (als ++ l :: bls) <+: mustRecord prog u (calls (ls ++ .rt l :: ls')) :=
      ⟨_, (hR2.obs u).rcd.symm⟩
    refine ⟨n, fun hbu => ?_, Nat.le_trans g2 hpre.length_le, ?_⟩
    · have hk := (hR.thr u).buf.pending hbu
      have := (hR.obs u).ret
      rw [hk] at this
      simp only [List.length_nil] at this
      omega
    · rw [take_of_prefix hpre g2]
      exact g3

/-- **C80**, end of the process, whatever threads have ended: the ordered decompressor accepts every file and prints for
every thread the messages of its first calls, each once, among them all that had returned, with their stores in memory, when
the destructor began; in call order if the time stamps of the thread increase.  What is missing: the claim is false if a pass is
cut short (C80_delete_false) or the destructor is woken spuriously (C59_spurious_false). -/
theorem C80_end_partial (hP : ProgOK cfg prog) (h0 : 0 < cfg.staging) (h : CrExec cfg prog ls c)
    (hd : (Cd.mk c .alive).act cfg prog (.destroy t) = .ok d1)
    (hr : d1.run cfg prog (ls'.map .cr) = .ok d2) (hok : ∀ l ∈ ls', l.OK cfg prog)
    (hf : d2.act cfg prog .finish = .ok d3) (hs : .rt (.spurious t) ∉ ls')
    (hnd : ∀ p ∈ d1.cr.trace cfg prog ls', ¬ CutsPass cfg prog p) (hn : allocs (calls (ls ++ ls')) ≤ 2 ^ 32)
    {o : Objs} (hu : Used (cfg.staging + 9) o) :
    ∃ outs : List (List OutMsg), d3.cr.rt.files.map (orderedFile (cfg.staging + 9) o) = outs.map some ∧
      (∀ u b, (d3.cr.rt.thr u).bid = some b → ∃ n msgs, ((c.sb u).buf = [] → finished u ls ≤ n) ∧
        n ≤ (mustRecord prog u (calls (ls ++ ls'))).length ∧
        List.Forall₂ (MsgOf prog b) ((mustRecord prog u (calls (ls ++ ls'))).take n) msgs ∧
        (outs.flatten.filter fun m => m.tid == b).Perm msgs ∧
        ((stamps u (calls (ls ++ ls'))).Pairwise (· < ·) → (outs.flatten.filter fun m => m.tid == b) = msgs)) ∧
      ∀ m ∈ outs.flatten, ∃ u, (d3.cr.rt.thr u).bid = some m.tid := by
  obtain ⟨ms, f1, f2⟩ := cd_decoded_cut hP h0 h hd hr hok hf hs hnd hn
  obtain ⟨-, -, -, hE⟩ := cd_exec h hd hr hok
  obtain ⟨t', -, -, -, rfl⟩ := cd_finish hf
  have hn : allocs (calls (ls ++ .rt (.setFile t true) :: ls')) ≤ 2 ^ 32 := by
    rw [(calls_setFile (prog := prog) (ls := ls) (ls' := ls') (t := t) 0).2.1]; exact hn
  obtain ⟨ms', outs, g1, g2, g3, g4⟩ := exec_ordered hP h0 hE hn hu
  obtain ⟨ms2, e1, -, e3⟩ := C66_prefix hP h0 hE hn
  rw [f1] at g1 e1
  obtain rfl := some_inj g1
  obtain rfl := some_inj e1
  refine ⟨outs, g2, fun u b hb => ?_, fun m hm => e3 m (g3.1.mem_iff.1 hm)⟩
  obtain ⟨n, k1, k2, k3⟩ := f2 u b hb
  have hg := g4 u b hb
  rw [(calls_setFile (prog := prog) (ls := ls) (ls' := ls') (t := t) u).2.2] at hg
  exact ⟨n, _, k1, k2, k3, g3.1.filter _, hg⟩

/-- **C80**, when the condition holds: from a state in which no thread whose buffer is still in the list has ended, while no
thread ends; or from one with at most one buffer in the list, while none is added.  So threads that ended long before do no
harm. -/
theorem C80_no_cut (hP : ProgOK cfg prog) (h0 : 0 < cfg.staging) (h : CrExec cfg prog ls c) (hok : ∀ l ∈ ls', l.OK cfg prog)
    (hc : (∀ u ∈ c.rt.bufs, (c.rt.thr u).pc ≠ .exited) ∧ (∀ u, .exit u ∉ ls') ∨
      c.rt.bufs.length ≤ 1 ∧ ∀ u, .rt (.push u) ∉ ls') :
    ∀ p ∈ c.trace cfg prog ls', ¬ CutsPass cfg prog p := by
  rcases hc with ⟨h1, h2⟩ | ⟨h1, h2⟩
  · obtain ⟨s0, als, ⟨G, kls, r, τ, held, hR⟩, -⟩ := h.sim hP h0
    exact hR.noneEnded_run hP hok h1 h2
  · exact few_run h1 h2

/-- **C80**, end of a process whose threads have ended and whose staging buffers have been deleted, but for that of the main
thread, or in which all that have a buffer still run. -/
theorem C80_joined_partial (hP : ProgOK cfg prog) (h0 : 0 < cfg.staging) (h : CrExec cfg prog ls c)
    (hd : (Cd.mk c .alive).act cfg prog (.destroy t) = .ok d1)
    (hr : d1.run cfg prog (ls'.map .cr) = .ok d2) (hok : ∀ l ∈ ls', l.OK cfg prog)
    (hf : d2.act cfg prog .finish = .ok d3) (hs : .rt (.spurious t) ∉ ls')
    (hc : (∀ u ∈ c.rt.bufs, (c.rt.thr u).pc ≠ .exited) ∧ (∀ u, .exit u ∉ ls') ∨
      c.rt.bufs.length ≤ 1 ∧ ∀ u, .rt (.push u) ∉ ls') (hn : allocs (calls (ls ++ ls')) ≤ 2 ^ 32)
    {o : Objs} (hu : Used (cfg.staging + 9) o) :
    ∃ outs : List (List OutMsg), d3.cr.rt.files.map (orderedFile (cfg.staging + 9) o) = outs.map some ∧
      ∀ u b, (d3.cr.rt.thr u).bid = some b → ∃ n msgs, ((c.sb u).buf = [] → finished u ls ≤ n) ∧
        n ≤ (mustRecord prog u (calls (ls ++ ls'))).length ∧
        List.Forall₂ (MsgOf prog b) ((mustRecord prog u (calls (ls ++ ls'))).take n) msgs ∧
        (outs.flatten.filter fun m => m.tid == b).Perm msgs ∧
        ((stamps u (calls (ls ++ ls'))).Pairwise (· < ·) → (outs.flatten.filter fun m => m.tid == b) = msgs) := by
  have hcut := C80_no_cut (ls' := .rt (.setFile t true) :: ls') hP h0 h (by
      intro l hl
      rcases List.mem_cons.1 hl with rfl | hl
      · trivial
      · exact hok l hl) (by
      refine hc.imp (fun hc => ⟨hc.1, fun u hu => ?_⟩) fun hc => ⟨hc.1, fun u hu => ?_⟩
      · rcases List.mem_cons.1 hu with hu | hu
        · cases hu
        · exact hc.2 u hu
      · rcases List.mem_cons.1 hu with hu | hu
        · cases hu
        · exact hc.2 u hu)
  obtain ⟨ha, -, -, -⟩ := cd_exec h hd hr hok
  obtain ⟨outs, g1, g2, -⟩ := C80_end_partial hP h0 h hd hr hok hf hs
    (fun p hp => hcut p (by simp only [Cr.trace, ha, List.mem_cons]; exact .inr hp)) hn hu
  exact ⟨outs, g1, g2⟩

end

/-! ## Concrete executions -/

/-- Thread 2 logs a message, which becomes visible; `first`: it needs a staging buffer. -/
def exCrLog2 (first : Bool) (ts : Nat) : List CLbl :=
  exRt ([.call 2 0 [.int .i32 6], .readId 2 false, .stamp 2 ts, .reserve 2] ++ if first then [.takeId 2, .push 2] else []) ++
  exStores 2 (entryBytes exSite0 ⟨0, ts, [.int .i32 6]⟩) ++ exCrDrain 2 22

/-- Thread 1 has logged and ended, its buffer has been deleted; then thread 2 logs. -/
def exGone : List CLbl := exCrC ++ exRt [.scanned none, .aio, .write] ++ exCrLog2 true 1020

/-- Thread 3 waits in `sync`. -/
def exGoneSynced : List CLbl :=
  exRt [.top, .dict false] ++ exRead 20 ++ exRt [.scanned none, .aio, .write] ++ exPass ++ exPass ++
    exRt [.disk 11, .aio, .aioDone (some 3)]

/-- Thread 2 is the main thread and has left `main`; the destructor. -/
def exGoneEnd : List CLbl :=
  exRt [.top, .dict false] ++ exRead 20 ++ exRt [.scanned none, .aio, .write, .top, .dict false] ++
  [.peek, .follow, .check, .check] ++ exRt [.scanned none, .top, .dict false] ++ [.peek] ++
  exRt [.scanned none, .disk 11, .aio, .aioDone (some 3), .write, .ret 3, .stop 3, .top]

/-- Thread 1 and the main thread (2) have logged.  While the background thread is at the end of a pass, thread 1 ends, and the
main thread logs again and leaves `main`. -/
def exCutLast : List CLbl :=
  exCrB ++ exCrLog2 true 1020 ++ exRt [.top, .dict false] ++ exEmpty ++ exRead 20 ++ exRt [.scanned none, .aio, .write, .disk 11,
    .top, .dict false] ++ exEmpty ++ exEmpty ++ exRt [.scanned none, .aio, .aioDone none, .write, .top, .dict false] ++ exEmpty ++
  exEmpty ++ [.exit 1, .store 1] ++ exCrLog2 false 1030 ++ [.exit 2, .store 2]

/-- The destructor: the pass under way ends, the second one deletes the buffer of thread 1 and ends. -/
def exCutLost : List CLbl :=
  exRt [.scanned none, .top, .dict false] ++ [.peek, .follow, .check, .check] ++
  exRt [.scanned (some 3), .ret 3, .stop 3, .aio, .write, .top]

/-- Case for `C80_sync_partial` and `C80_no_cut`: two threads have logged and one has ended. -/
example : ∃ c c1 c2, CrExec exCfg exSites exGone c ∧ c.act exCfg exSites (.rt (.sync 3)) = .ok c1 ∧
    c1.run exCfg exSites exGoneSynced = .ok c2 ∧ (∀ l ∈ exGoneSynced, l.OK exCfg exSites) ∧
    .rt (.spurious 3) ∉ exGoneSynced ∧ (∀ p ∈ c1.trace exCfg exSites exGoneSynced, ¬ CutsPass exCfg exSites p) ∧
    allocs (calls (exGone ++ .rt (.sync 3) :: exGoneSynced)) = 2 ∧ .exit 1 ∈ exGone ∧ (c2.rt.thr 3).pc = .woken false ∧
    finished 2 exGone = 1 ∧ (c.sb 2).buf = [] ∧ (c2.rt.thr 2).bid = some 1 ∧
    (c.rt.files.map (decodeFile 265)).map (Option.map List.length) = [some 2] ∧
    (c2.rt.files.map (decodeFile 265)).map (Option.map List.length) = [some 3] := by
  obtain ⟨c, c1, c2, h1, h2, h3, hp⟩ := exCrSync_ok (ls := exGone) (l := .sync 3) (ls' := exGoneSynced)
    (p := fun c c2 => (c2.rt.thr 3).pc = .woken false && (c.sb 2).buf = [] && (c2.rt.thr 2).bid = some 1 &&
      (c.rt.bufs.length ≤ 1) && (c.rt.files.map (decodeFile 265)).map (Option.map List.length) = [some 2] &&
      (c2.rt.files.map (decodeFile 265)).map (Option.map List.length) = [some 3])
    (by decide +kernel) (by decide +kernel)
  simp only [Bool.and_eq_true, decide_eq_true_eq] at hp
  obtain ⟨⟨⟨⟨⟨p1, p2⟩, p3⟩, p4⟩, p5⟩, p6⟩ := hp
  have hok : ∀ l ∈ exGoneSynced, l.OK exCfg exSites := fun l hl => by
    have := List.all_eq_true.1 (show exGoneSynced.all exCLbl = true by decide +kernel) l hl
    cases l <;> first | exact exLbl_ok this | trivial
  have hn : exGoneSynced.all (fun l => match l with | .rt (.spurious _) | .rt (.push _) => false | _ => true) = true := by
    decide +kernel
  have hcut := C80_no_cut (ls' := .rt (.sync 3) :: exGoneSynced) exProgOK (by decide) h1 (by
    intro l hl
    rcases List.mem_cons.1 hl with rfl | hl
    · trivial
    · exact hok l hl) (.inr ⟨p4, fun u hu => by
    rcases List.mem_cons.1 hu with hu | hu
    · cases hu
    · cases List.all_eq_true.1 hn _ hu⟩)
  exact ⟨c, c1, c2, h1, h2, h3, hok, fun h => (by cases List.all_eq_true.1 hn _ h),
    fun p hp => hcut p (by simp only [Cr.trace, h2, List.mem_cons]; exact .inr hp), by decide +kernel,
    by simp [exGone, exCrC], p1, by decide +kernel, p2, p3, p5, p6⟩

/-- Case for `C80_end_partial` and `C80_joined_partial`: then the main thread, which has logged, ends, too. -/
example : ∃ c d1 d2 d3, CrExec exCfg exSites (exGone ++ [.exit 2, .store 2]) c ∧
    (Cd.mk c .alive).act exCfg exSites (.destroy 3) = .ok d1 ∧ d1.run exCfg exSites (exGoneEnd.map .cr) = .ok d2 ∧
    (∀ l ∈ exGoneEnd, l.OK exCfg exSites) ∧ d2.act exCfg exSites .finish = .ok d3 ∧ .rt (.spurious 3) ∉ exGoneEnd ∧
    c.rt.bufs.length ≤ 1 ∧ (∀ u, .rt (.push u) ∉ exGoneEnd) ∧ allocs (calls (exGone ++ [.exit 2, .store 2] ++ exGoneEnd)) = 2 ∧
    (c.rt.thr 1).pc = .exited ∧ (c.rt.thr 2).pc = .exited ∧ finished 2 (exGone ++ [.exit 2, .store 2]) = 1 ∧
    (c.sb 2).buf = [] ∧ (d3.cr.rt.thr 2).bid = some 1 ∧
    (c.rt.files.map (decodeFile 265)).map (Option.map List.length) = [some 2] ∧
    (d3.cr.rt.files.map (orderedFile 265 (Objs.new 265))).map (Option.map (List.map OutMsg.ts)) = [some [1000, 1010, 1020]] := by
  obtain ⟨c, d1, d2, d3, d4, h1, h2, h3, h4, h5, h6, hp⟩ := exCdCheck_ok (ls := exGone ++ [.exit 2, .store 2]) (ls' := exGoneEnd)
    (ls'' := []) (t := 3) (p := fun c d3 _ => (c.rt.bufs.length ≤ 1) && (c.rt.thr 1).pc = .exited && (c.rt.thr 2).pc = .exited &&
      (c.sb 2).buf = [] && (d3.cr.rt.thr 2).bid = some 1 &&
      (c.rt.files.map (decodeFile 265)).map (Option.map List.length) = [some 2] &&
      (d3.cr.rt.files.map (orderedFile 265 (Objs.new 265))).map (Option.map (List.map OutMsg.ts)) = [some [1000, 1010, 1020]])
    (by decide +kernel) (by decide +kernel) (by decide +kernel)
  simp only [Bool.and_eq_true, decide_eq_true_eq] at hp
  obtain ⟨⟨⟨⟨⟨⟨p1, p2⟩, p3⟩, p4⟩, p5⟩, p6⟩, p7⟩ := hp
  have hn : exGoneEnd.all (fun l => match l with | .rt (.spurious _) | .rt (.push _) => false | _ => true) = true := by
    decide +kernel
  exact ⟨c, d1, d2, d3, h1, h2, h3, h4, h5, fun h => (by cases List.all_eq_true.1 hn _ h), p1,
    fun u h => (by cases List.all_eq_true.1 hn _ h), by decide +kernel, p2, p3, by decide +kernel, p4, p5, p6, p7⟩

/-- **C80 is false of the code without the condition**: the last message of the main thread is lost in a regular exit although all
stores have reached memory, all threads have ended, and nobody is woken spuriously. -/
theorem C80_delete_false : ∃ c d1 d2 d3, CrExec exCfg exSites exCutLast c ∧
    (Cd.mk c .alive).act exCfg exSites (.destroy 3) = .ok d1 ∧ d1.run exCfg exSites (exCutLost.map .cr) = .ok d2 ∧
    (∀ l ∈ exCutLost, l.OK exCfg exSites) ∧ d2.act exCfg exSites .finish = .ok d3 ∧ .rt (.spurious 3) ∉ exCutLost ∧
    finished 2 exCutLast = 2 ∧ (c.sb 1).buf = [] ∧ (c.sb 2).buf = [] ∧ (d3.cr.rt.thr 2).bid = some 1 ∧
    (d3.cr.rt.files.map (orderedFile 265 (Objs.new 265))).map (Option.map (List.map OutMsg.ts)) = [some [1000, 1010, 1020]] := by
  obtain ⟨c, d1, d2, d3, d4, h1, h2, h3, h4, h5, h6, hp⟩ := exCdCheck_ok (ls := exCutLast) (ls' := exCutLost)
    (ls'' := []) (t := 3) (p := fun c d3 _ => (c.sb 1).buf = [] && (c.sb 2).buf = [] && (d3.cr.rt.thr 2).bid = some 1 &&
      (d3.cr.rt.files.map (orderedFile 265 (Objs.new 265))).map (Option.map (List.map OutMsg.ts)) = [some [1000, 1010, 1020]])
    (by decide +kernel) (by decide +kernel) (by decide +kernel)
  simp only [Bool.and_eq_true, decide_eq_true_eq] at hp
  obtain ⟨⟨⟨p1, p2⟩, p3⟩, p4⟩ := hp
  have hn : exCutLost.all (fun l => match l with | .rt (.spurious _) => false | _ => true) = true := by
    decide +kernel
  exact ⟨c, d1, d2, d3, h1, h2, h3, h4, h5, fun h => (by cases List.all_eq_true.1 hn _ h), by decide +kernel, p1, p2, p3, p4⟩

end NanoLog
