import Verif.Destroy
import Verif.Props.RuntimeLive

/-!
# The end of the process (C59)
-/

namespace NanoLog

/-! ## C59 Nothing is lost when the process ends -/

section
variable {cfg : Config} {prog : List Site}

/-- While the destructor runs, the steps are steps of the runtime, but for `join`. -/
theorem actRt_running {s : Rt} {t : Nat} {l : Lbl} {d' : Dt}
    (ha : (Dt.mk s (.running t)).actRt cfg prog l = .ok d') :
    s.act cfg prog l = .ok d'.rt ∧ d'.ph = .running t ∧ ∀ u jk c, l ≠ .join u jk c := by
  unfold Dt.actRt at ha
  simp only at ha
  split at ha
  · rename_i s' hs
    simp only [DPhase.step] at ha
    split at ha
    · rename_i hj
      cases ha
      exact ⟨hs, rfl, fun u jk c hl => by rw [hl] at hj; cases hj⟩
    · split at ha <;> cases ha
  · cases ha
  · cases ha

theorem run_running {s : Rt} {t : Nat} {ls : List Lbl} {d' : Dt}
    (hr : (Dt.mk s (.running t)).run cfg prog (ls.map .rt) = .ok d') :
    s.run cfg prog ls = .ok d'.rt ∧ d'.ph = .running t ∧ ∀ u jk c, .join u jk c ∉ ls := by
  induction ls generalizing s with
  | nil => cases hr; exact ⟨rfl, rfl, fun _ _ _ h => by cases h⟩
  | cons l ls ih =>
    simp only [List.map_cons, Dt.run, Dt.act] at hr
    split at hr <;> try cases hr
    rename_i d1 ha
    obtain ⟨h1, h2, h3⟩ := actRt_running ha
    obtain ⟨s1, p1⟩ := d1
    simp only at h1 h2
    subst h2
    obtain ⟨g1, g2, g3⟩ := ih hr
    refine ⟨by simp only [Rt.run, h1]; exact g1, g2, fun u jk c hm => ?_⟩
    rcases List.mem_cons.1 hm with hm | hm
    · exact h3 u jk c hm.symm
    · exact g3 u jk c hm

theorem destroy_setFile {s : Rt} {t : Nat} {d1 : Dt}
    (ha : (Dt.mk s .alive).act cfg prog (.destroy t) = .ok d1) :
    s.act cfg prog (.setFile t true) = .ok d1.rt ∧ d1.ph = .running t := by
  simp only [Dt.act] at ha
  split at ha <;> cases ha
  rename_i hpc
  exact ⟨by simp only [Rt.act, Rt.actCtl, hpc, if_true], rfl⟩

theorem finish_eq {d2 d3 : Dt} (hf : d2.act cfg prog .finish = .ok d3) :
    ∃ t, d2.ph = .running t ∧ (d2.rt.thr t).pc = .join ∧ d2.rt.pc = .dead ∧ d3 = ⟨d2.rt, .done⟩ := by
  simp only [Dt.act] at hf
  split at hf
  · rename_i t hp
    split at hf <;> cases hf
    rename_i h
    exact ⟨t, hp, h.1, h.2, rfl⟩
  · cases hf

theorem afterAlloc_stop (c : Option LogCall) : afterAlloc c ≠ .stop ∧ afterAlloc c ≠ .join := by
  cases c <;> simp [afterAlloc]

/-- What `sync` achieved still holds at the later positions of the same call. -/
theorem act_stopped {L : Nat → Nat} {t : Nat} {s s' : Rt} {l : Lbl}
    (hC : RtInv s) (h : SyncInv L t s)
    (hw : (s.thr t).pc = .stop ∨ (s.thr t).pc = .join → AtLeast L s.persisted)
    (ha : s.act cfg prog l = .ok s') :
    (s'.thr t).pc = .stop ∨ (s'.thr t).pc = .join → AtLeast L s'.persisted := by
  intro hp
  refine AtLeast.mono ?_ (act_hist hC ha).1
  by_cases hl : l = .ret t
  · subst hl
    simp only [Rt.act, Rt.actCtl] at ha
    split at ha
    · rename_i sw hpc
      exact h.woken sw hpc
    · cases ha
  · refine hw ?_
    have hset : ∀ (s1 : Rt) (u : Nat) (th : Thr), s1.thr = upd s.thr u th →
        (th.pc ≠ .stop ∧ th.pc ≠ .join ∨ u ≠ t ∨ th.pc = (s.thr t).pc ∨ (s.thr t).pc = .stop) →
        ((s1.thr t).pc = .stop ∨ (s1.thr t).pc = .join) →
        ((s.thr t).pc = .stop ∨ (s.thr t).pc = .join) := by
      intro s1 u th he hx hy
      rw [he] at hy
      by_cases hu : t = u
      · subst hu
        rw [upd_same] at hy
        rcases hx with ⟨x1, x2⟩ | hx | hx | hx
        · rcases hy with hy | hy
          · exact absurd hy x1
          · exact absurd hy x2
        · exact absurd rfl hx
        · rw [hx] at hy; exact hy
        · exact .inl hx
      · rw [upd_other _ _ hu] at hy; exact hy
    have hbg : BgStep s s' → ((s.thr t).pc = .stop ∨ (s.thr t).pc = .join) := by
      intro h
      rcases h.pc t with h1 | ⟨sw', h1, h2⟩
      · rw [h1] at hp; exact hp
      · rw [h2] at hp; rcases hp with hp | hp <;> cases hp
    cases l <;> simp only [Rt.act] at ha
    case ret u =>
      simp only [Rt.actCtl] at ha
      split at ha <;> cases ha
      exact hset _ u _ rfl (.inr (.inl fun hu => hl (by rw [hu]))) hp
    case stop u =>
      simp only [Rt.actCtl] at ha
      split at ha <;> cases ha
      rename_i hpc
      refine hset _ u _ rfl ?_ hp
      by_cases hu : u = t
      · subst hu; exact .inr (.inr (.inr hpc))
      · exact .inr (.inl hu)
    all_goals first
      | exact hbg (actScan_bg ha)
      | exact hbg (actIo_bg ha)
      | (simp only [Rt.actLog, Rt.actBuf, Rt.actCtl] at ha
         (repeat' split at ha)
         all_goals first
           | (cases ha; done)
           | (cases ha; exact hp)
           | (cases ha; exact hset _ _ _ rfl (.inl ⟨by simp [afterAlloc_stop], by simp [afterAlloc_stop]⟩) hp))

theorem run_stopped (hroom : 40 ≤ cfg.output) {L : Nat → Nat} {t : Nat} {s s' : Rt} {ls : List Lbl}
    (hC : RtInv s) (h : SyncInv L t s)
    (hw : (s.thr t).pc = .stop ∨ (s.thr t).pc = .join → AtLeast L s.persisted)
    (hr : s.run cfg prog ls = .ok s') (hs : .spurious t ∉ ls)
    (hnd : ∀ p ∈ s.trace cfg prog ls, ¬ CutsSync p) :
    (s'.thr t).pc = .stop ∨ (s'.thr t).pc = .join → AtLeast L s'.persisted := by
  induction ls generalizing s with
  | nil => cases hr; exact hw
  | cons l ls ih =>
    simp only [Rt.run] at hr
    simp only [Rt.trace] at hnd
    cases ha : s.act cfg prog l with
    | off => rw [ha] at hr; cases hr
    | ub => rw [ha] at hr; cases hr
    | ok s1 =>
      rw [ha] at hr hnd
      exact ih (act_cinv hroom hC ha)
        (act_sync hroom hC h ha (by rintro rfl; simp at hs) (hnd _ (by simp)))
        (act_stopped hC h hw ha) hr (fun hm => hs (by simp [hm])) fun p hp => hnd p (by simp [hp])

/-- The execution up to the end of the destructor, as an execution of the runtime. -/
theorem destroyed_exec {ls ls' : List Lbl} {s : Rt} {d1 d2 d3 : Dt} {t : Nat} (h : RtExec cfg prog ls s)
    (hd : (Dt.mk s .alive).act cfg prog (.destroy t) = .ok d1)
    (hr : d1.run cfg prog (ls'.map .rt) = .ok d2) (hok : ∀ l ∈ ls', l.OK cfg prog)
    (hf : d2.act cfg prog .finish = .ok d3) :
    s.act cfg prog (.setFile t true) = .ok d1.rt ∧ d1.rt.run cfg prog ls' = .ok d3.rt ∧
    RtExec cfg prog (ls ++ .setFile t true :: ls') d3.rt ∧ (d3.rt.thr t).pc = .join ∧
    d3.rt.pc = .dead ∧ d3.ph = .done := by
  obtain ⟨h1, h2⟩ := destroy_setFile hd
  obtain ⟨s1, p1⟩ := d1
  simp only at h1 h2
  subst h2
  obtain ⟨g1, g2, -⟩ := run_running hr
  obtain ⟨t', f1, f2, f3, rfl⟩ := finish_eq hf
  rw [g2] at f1
  cases f1
  refine ⟨h1, g1, ?_, f2, f3, rfl⟩
  refine h.append ?_ (by simp only [Rt.run, h1]; exact g1)
  intro l hl
  rcases List.mem_cons.1 hl with rfl | hl
  · trivial
  · exact hok l hl

/-- `mustRecord`, `allocs` do not depend on `setLogFile`. -/
theorem mustRecord_setFile (u t : Nat) (ls ls' : List Lbl) :
    mustRecord prog u (ls ++ .setFile t true :: ls') = mustRecord prog u (ls ++ ls') := by
  simp only [mustRecord, List.foldl_append, List.foldl_cons, recordStep]

theorem allocs_setFile (t : Nat) (ls ls' : List Lbl) :
    allocs (ls ++ .setFile t true :: ls') = allocs (ls ++ ls') := by
  simp [allocs, List.filter_append]

/-- When the process ends, the messages of all log calls, of all threads, that had returned before the
destructor began are in the log files and are decoded, in order per thread; whatever other threads do in the meantime, provided
that the thread that runs the destructor is not woken spuriously, and that the background thread does not
delete, in a second pass in which it encodes nothing, the buffer with which the pass began while there
are others.  What is missing: without these two conditions the claim is false, see `C59_delete_false` and
`C59_spurious_false`. -/
theorem C59_messages_partial (hP : ProgOK cfg prog) {ls ls' : List Lbl} {s : Rt} {d1 d2 d3 : Dt} {t : Nat}
    (h : RtExec cfg prog ls s) (hd : (Dt.mk s .alive).act cfg prog (.destroy t) = .ok d1)
    (hr : d1.run cfg prog (ls'.map .rt) = .ok d2) (hok : ∀ l ∈ ls', l.OK cfg prog)
    (hf : d2.act cfg prog .finish = .ok d3) (hs : .spurious t ∉ ls')
    (hnd : ∀ p ∈ d1.rt.trace cfg prog ls', ¬ CutsSync p) (hn : allocs (ls ++ ls') ≤ 2 ^ 32) :
    ∃ outs : List (List OutMsg), d3.rt.files.map (decodeFile (cfg.staging + 9)) = outs.map some ∧
      ∀ u b, (d3.rt.thr u).bid = some b → ∃ n, returned u ls ≤ n ∧
        n ≤ (mustRecord prog u (ls ++ ls')).length ∧
        List.Forall₂ (MsgOf prog b) ((mustRecord prog u (ls ++ ls')).take n)
          (outs.flatten.filter fun m => m.tid == b) := by
  obtain ⟨h1, h2, h3, h4, -, -⟩ := destroyed_exec h hd hr hok hf
  have h0 := syncInv_start h (.inr rfl) h1
  have hC1 := act_cinv hP.room (h.inv hP).1 h1
  have hst : ¬ ((d1.rt.thr t).pc = .stop ∨ (d1.rt.thr t).pc = .join) := by
    simp only [Rt.act, Rt.actCtl] at h1
    split at h1
    · rw [← Out.ok.inj h1]; simp [Rt.setThr]
    · cases h1
  have hL := run_stopped hP.room hC1 h0 (fun hx => absurd hx hst) h2 hs hnd (.inr h4)
  have := atLeast_decoded hP h3 (by rw [allocs_setFile]; exact hn) hL
  simp only [mustRecord_setFile] at this
  exact this

/-- For every thread that is outside of log statements when the destructor begins and that logs nothing afterwards
(whatever the others do), exactly the recorded calls are decoded. -/
theorem C59_complete_partial (hP : ProgOK cfg prog) {ls ls' : List Lbl} {s : Rt} {d1 d2 d3 : Dt} {t : Nat}
    (h : RtExec cfg prog ls s) (hd : (Dt.mk s .alive).act cfg prog (.destroy t) = .ok d1)
    (hr : d1.run cfg prog (ls'.map .rt) = .ok d2) (hok : ∀ l ∈ ls', l.OK cfg prog)
    (hf : d2.act cfg prog .finish = .ok d3) (hs : .spurious t ∉ ls')
    (hnd : ∀ p ∈ d1.rt.trace cfg prog ls', ¬ CutsSync p) (hn : allocs (ls ++ ls') ≤ 2 ^ 32) :
    ∃ outs : List (List OutMsg), d3.rt.files.map (decodeFile (cfg.staging + 9)) = outs.map some ∧
      ∀ u b, (d3.rt.thr u).bid = some b → (s.thr u).pc = .idle ∨ (s.thr u).pc = .exited →
        (∀ k args, .call u k args ∉ ls') →
        List.Forall₂ (MsgOf prog b) (mustRecord prog u ls) (outs.flatten.filter fun m => m.tid == b) := by
  obtain ⟨outs, g1, g2⟩ := C59_messages_partial hP h hd hr hok hf hs hnd hn
  refine ⟨outs, g1, fun u b hb hidle hcall => ?_⟩
  obtain ⟨n, n1, n2, n3⟩ := g2 u b hb
  have hlev : ∀ (ls' : List Lbl) (st : Int × List (Nat × List Arg)), (∀ k args, .call u k args ∉ ls') →
      (ls'.foldl (recordStep prog u) st).2 = st.2 := by
    intro ls'
    induction ls' with
    | nil => intro st _; rfl
    | cons l ls' ih =>
      intro st hc
      rw [List.foldl_cons, ih _ fun k args hm => hc k args (List.mem_cons_of_mem _ hm)]
      cases l <;> simp only [recordStep]
      rename_i v k args
      by_cases hv : v = u
      · subst hv; exact absurd List.mem_cons_self (hc _ _)
      · cases prog[k]? <;> simp [hv]
  have he : mustRecord prog u (ls ++ ls') = mustRecord prog u ls := by
    simp only [mustRecord, List.foldl_append]
    exact hlev ls' _ hcall
  have hlen := ((C33_recorded h u).1 hidle).length_eq
  rw [returned_log h u] at hlen
  rw [he] at n2 n3
  rw [List.take_of_length_le (by omega)] at n3
  exact n3

/-! ### Conditions under which no pass is cut short -/

/-- The states of a trace are reached by the steps before them. -/
theorem trace_reach {s : Rt} {ls : List Lbl} {p : Rt × Lbl} (h : p ∈ s.trace cfg prog ls) :
    ∃ pre, pre <+: ls ∧ s.run cfg prog pre = .ok p.1 := by
  induction ls generalizing s with
  | nil => cases h
  | cons l ls ih =>
    simp only [Rt.trace, List.mem_cons] at h
    rcases h with rfl | h
    · exact ⟨[], List.nil_prefix, rfl⟩
    cases ha : s.act cfg prog l with
    | off => rw [ha] at h; cases h
    | ub => rw [ha] at h; cases h
    | ok s1 =>
      rw [ha] at h
      obtain ⟨pre, h1, h2⟩ := ih h
      exact ⟨l :: pre, List.cons_prefix_cons.2 ⟨rfl, h1⟩, by simp only [Rt.run, ha]; exact h2⟩

/-- Only threads that end have ended. -/
theorem exited_label {ls : List Lbl} {s : Rt} (h : RtExec cfg prog ls s) (t : Nat)
    (ht : (s.thr t).pc = .exited) : .exitThread t ∈ ls := by
  revert ht
  refine RtExec.induct (P := fun ls s => (s.thr t).pc = .exited → .exitThread t ∈ ls) ?_ ?_ h
  · intro jk c s hi
    unfold Rt.init at hi
    split at hi <;> cases hi
    intro hx; simp [Thr.init] at hx
  · rintro ls s l s' - ih - ha hx
    by_cases hl : l = .exitThread t
    · simp [hl]
    refine List.mem_append_left _ (ih ?_)
    have hbg : BgStep s s' → (s.thr t).pc = .exited := by
      intro h
      rcases h.pc t with h1 | ⟨sw', h1, h2⟩
      · rw [h1] at hx; exact hx
      · rw [h2] at hx; cases hx
    have hset : ∀ (s1 : Rt) (u : Nat) (th : Thr), s1.thr = upd s.thr u th →
        (th.pc ≠ .exited ∨ u ≠ t) → (s1.thr t).pc = .exited → (s.thr t).pc = .exited := by
      intro s1 u th he h1 h2
      rw [he] at h2
      by_cases hu : t = u
      · subst hu
        rw [upd_same] at h2
        rcases h1 with h1 | h1
        · exact absurd h2 h1
        · exact absurd rfl h1
      · rw [upd_other _ _ hu] at h2; exact h2
    have haf : ∀ c, afterAlloc c ≠ .exited := fun c => by cases c <;> simp [afterAlloc]
    cases l <;> simp only [Rt.act] at ha
    case exitThread u =>
      simp only [Rt.actBuf] at ha
      (repeat' split at ha) <;> cases ha <;>
        exact hset _ u _ rfl (.inr fun hu => hl (by rw [hu])) hx
    case ret u =>
      simp only [Rt.actCtl] at ha
      split at ha <;> cases ha
      refine hset _ u _ rfl (.inl ?_) hx
      dsimp only; split <;> simp
    case reserve u =>
      simp only [Rt.actLog] at ha
      split at ha <;> cases ha
      refine hset _ u _ rfl (.inl ?_) hx
      dsimp only; split <;> simp
    all_goals first
      | exact hbg (actScan_bg ha)
      | exact hbg (actIo_bg ha)
      | (simp only [Rt.actLog, Rt.actBuf, Rt.actCtl] at ha
         (repeat' split at ha)
         all_goals first
           | (cases ha; done)
           | (cases ha; exact hx)
           | (cases ha; exact hset _ _ _ rfl (.inl (by simp [haf])) hx))

/-- At most one buffer. -/
theorem bufs_le_one {ls : List Lbl} {s : Rt} (hP : ProgOK cfg prog) (h : RtExec cfg prog ls s)
    (hn : allocs ls ≤ 1) : s.bufs.length ≤ 1 := by
  obtain ⟨hC, -⟩ := h.inv hP
  by_contra hlen
  have h0 : 0 < s.bufs.length := by omega
  have h1 : 1 < s.bufs.length := by omega
  have hB := h.bids.2 (by omega)
  have hb : ∀ t ∈ s.bufs, (s.thr t).bid = some 0 := by
    intro t ht
    cases hx : (s.thr t).bid with
    | none => exact absurd hx ((hC.thr t).alloc ht).2
    | some b =>
      have := hB.1 t b hx
      rw [show b = 0 by omega]
  have he := hB.2 s.bufs[0] s.bufs[1] 0 (hb _ (List.getElem_mem h0)) (hb _ (List.getElem_mem h1))
  exact List.pairwise_iff_getElem.1 hC.nodup 0 1 h0 h1 (by omega) he

/-- No pass is cut short if at most one staging buffer is allocated, or if no thread has ended. -/
theorem no_cut (hP : ProgOK cfg prog) {ls ls' : List Lbl} {s s1 : Rt} {l : Lbl} (h : RtExec cfg prog ls s)
    (ha : s.act cfg prog l = .ok s1) (hok : ∀ l' ∈ l :: ls', l'.OK cfg prog)
    (hc : allocs (ls ++ l :: ls') ≤ 1 ∨ ∀ u, .exitThread u ∉ ls ++ l :: ls') :
    ∀ p ∈ s1.trace cfg prog ls', ¬ CutsSync p := by
  rintro p hp ⟨⟨-, -, hlen, hde, -⟩, -, -⟩
  obtain ⟨pre, ⟨post, rfl⟩, hrun⟩ := trace_reach hp
  have hx : RtExec cfg prog (ls ++ l :: pre) p.1 := by
    refine h.append ?_ (by simp only [Rt.run, ha]; exact hrun)
    intro l' hl
    refine hok l' ?_
    simp only [List.mem_cons, List.mem_append] at hl ⊢
    rcases hl with hl | hl
    · exact .inl hl
    · exact .inr (.inl hl)
  have he : ls ++ l :: (pre ++ post) = (ls ++ l :: pre) ++ post := by simp
  rw [he] at hc
  rcases hc with hc | hc
  · have : allocs (ls ++ l :: pre) ≤ 1 := by
      refine Nat.le_trans ?_ hc
      simp only [allocs]
      rw [List.filter_append _ post, List.length_append]
      omega
    have := bufs_le_one hP hx this
    omega
  · have hE := exited_label hx _ (((hx.inv hP).1.thr _).dealloc hde)
    exact hc p.1.cur (List.mem_append_left _ hE)

/-- `C31_sync_partial` for programs in which at most one thread logs, or in which no thread that uses NanoLog ends before
`sync` returns: `sync` does what it promises unless it is woken spuriously. -/
theorem C31_simple_partial (hP : ProgOK cfg prog) {ls ls' : List Lbl} {s s1 s2 : Rt} {t : Nat} {l : Lbl}
    {sw : Bool} (h : RtExec cfg prog ls s) (hl : l = .sync t ∨ l = .setFile t true)
    (ha : s.act cfg prog l = .ok s1) (hr : s1.run cfg prog ls' = .ok s2)
    (hok : ∀ l' ∈ l :: ls', l'.OK cfg prog) (hw : (s2.thr t).pc = .woken sw) (hs : .spurious t ∉ ls')
    (hc : allocs (ls ++ l :: ls') ≤ 1 ∨
      allocs (ls ++ l :: ls') ≤ 2 ^ 32 ∧ ∀ u, .exitThread u ∉ ls ++ l :: ls') :
    ∃ outs : List (List OutMsg), s2.files.map (decodeFile (cfg.staging + 9)) = outs.map some ∧
      ∀ u b, (s2.thr u).bid = some b → ∃ n, returned u ls ≤ n ∧
        n ≤ (mustRecord prog u (ls ++ l :: ls')).length ∧
        List.Forall₂ (MsgOf prog b) ((mustRecord prog u (ls ++ l :: ls')).take n)
          (outs.flatten.filter fun m => m.tid == b) :=
  C31_sync_partial hP h hl ha hr hok hw hs
    (no_cut hP h ha hok (hc.imp id fun h => h.2)) (by omega)

/-- Programs in which at most one thread logs, or in which no thread that uses NanoLog ends: nothing is lost at the end of
the process unless the destructor is woken spuriously.  (The main thread has ended in this sense when the destructor
runs, if it has logged.) -/
theorem C59_simple_partial (hP : ProgOK cfg prog) {ls ls' : List Lbl} {s : Rt} {d1 d2 d3 : Dt} {t : Nat}
    (h : RtExec cfg prog ls s) (hd : (Dt.mk s .alive).act cfg prog (.destroy t) = .ok d1)
    (hr : d1.run cfg prog (ls'.map .rt) = .ok d2) (hok : ∀ l ∈ ls', l.OK cfg prog)
    (hf : d2.act cfg prog .finish = .ok d3) (hs : .spurious t ∉ ls')
    (hc : allocs (ls ++ ls') ≤ 1 ∨ allocs (ls ++ ls') ≤ 2 ^ 32 ∧ ∀ u, .exitThread u ∉ ls ++ ls') :
    ∃ outs : List (List OutMsg), d3.rt.files.map (decodeFile (cfg.staging + 9)) = outs.map some ∧
      ∀ u b, (d3.rt.thr u).bid = some b → ∃ n, returned u ls ≤ n ∧
        n ≤ (mustRecord prog u (ls ++ ls')).length ∧
        List.Forall₂ (MsgOf prog b) ((mustRecord prog u (ls ++ ls')).take n)
          (outs.flatten.filter fun m => m.tid == b) := by
  obtain ⟨h1, -, -, -, -, -⟩ := destroyed_exec h hd hr hok hf
  refine C59_messages_partial hP h hd hr hok hf hs (no_cut hP h h1 ?_ ?_) (by omega)
  · intro l hl
    rcases List.mem_cons.1 hl with rfl | hl
    · trivial
    · exact hok l hl
  · rw [allocs_setFile]
    refine hc.imp id fun hc u hm => hc.2 u ?_
    simp only [List.mem_append, List.mem_cons] at hm ⊢
    rcases hm with hm | hm | hm
    · exact .inl hm
    · cases hm
    · exact .inr hm

theorem done_run {d3 d4 : Dt} {ds : List DLbl} (h5 : d3.rt.pc = .dead) (h6 : d3.ph = .done)
    (ha : d3.rt.aio = none) (hr' : d3.run cfg prog ds = .ok d4) :
    d4.rt.files = d3.rt.files ∧ d4.rt.mem = d3.rt.mem ∧
    ∀ l ∈ ds, ∃ l', l = .rt l' ∧ l'.ofBg = false ∧ ∀ n, l' ≠ .disk n := by
  induction ds generalizing d3 with
  | nil => cases hr'; exact ⟨rfl, rfl, fun _ h => by cases h⟩
  | cons l ds ih =>
    simp only [Dt.run] at hr'
    split at hr' <;> try cases hr'
    rename_i d5 hx
    obtain ⟨s3, p3⟩ := d3
    simp only at h5 h6 ha
    subst h6
    have key : ∃ l', l = .rt l' ∧ l'.member = false ∧ s3.act cfg prog l' = .ok d5.rt ∧ d5.ph = .done := by
      cases l with
      | destroy t => simp [Dt.act] at hx
      | finish => simp [Dt.act] at hx
      | rt l' =>
        simp only [Dt.act, Dt.actRt] at hx
        split at hx
        · rename_i s' hs
          simp only [DPhase.step] at hx
          split at hx
          · cases hx
          · rename_i hm
            cases hx
            exact ⟨l', rfl, by simpa using hm, hs, rfl⟩
        · cases hx
        · cases hx
    obtain ⟨l', rfl, hm, hs, hp⟩ := key
    have hstep : d5.rt.disk = s3.disk ∧ d5.rt.closed = s3.closed ∧ d5.rt.mem = s3.mem ∧ d5.rt.pc = .dead ∧
        d5.rt.aio = none ∧ l'.ofBg = false ∧ ∀ n, l' ≠ .disk n := by
      cases l' <;> simp only [Lbl.member, Bool.true_eq_false] at hm <;>
        simp only [Rt.act, Rt.actLog, Rt.actBuf, Rt.actScan, Rt.actIo, h5, ha] at hs
      all_goals first
        | (exfalso; revert hs; simp; done)
        | ((repeat' split at hs)
           all_goals first
             | (cases hs; done)
             | (rw [← Out.ok.inj hs]
                exact ⟨rfl, rfl, rfl, h5, ha, rfl, fun _ h => by cases h⟩))
    obtain ⟨q1, q2, q3, q4, q5, q6, q7⟩ := hstep
    obtain ⟨r1, r2, r3⟩ := ih q4 hp q5 hr'
    refine ⟨by rw [r1]; simp only [Rt.files, q1, q2], by rw [r2, q3], fun l hl => ?_⟩
    rcases List.mem_cons.1 hl with rfl | hl
    · exact ⟨l', rfl, q6, q7⟩
    · exact r3 l hl

/-- The state after the destructor: no step writes to the files or changes the output buffers, which are freed; the background
thread does nothing. -/
theorem C59_final (hP : ProgOK cfg prog) {ls ls' : List Lbl} {s : Rt} {d1 d2 d3 d4 : Dt} {t : Nat}
    (h : RtExec cfg prog ls s) (hd : (Dt.mk s .alive).act cfg prog (.destroy t) = .ok d1)
    (hr : d1.run cfg prog (ls'.map .rt) = .ok d2) (hok : ∀ l ∈ ls', l.OK cfg prog)
    (hf : d2.act cfg prog .finish = .ok d3) {ds : List DLbl} (hr' : d3.run cfg prog ds = .ok d4) :
    d4.rt.files = d3.rt.files ∧ d4.rt.mem = d3.rt.mem ∧
    ∀ l ∈ ds, ∃ l', l = .rt l' ∧ l'.ofBg = false ∧ ∀ n, l' ≠ .disk n := by
  obtain ⟨-, -, h3, -, h5, h6⟩ := destroyed_exec h hd hr hok hf
  exact done_run h5 h6 ((h3.inv hP).1.pcAio (.inr (.inr h5))) hr'

/-- Until the end of the destructor nothing undefined happens as long as no other thread is in
`setLogFile`; nor afterwards, if the other threads do not use the object any more. -/
theorem C59_no_undefined (hP : ProgOK cfg prog) {ls ls' : List Lbl} {s : Rt} {d1 d2 : Dt} {t : Nat}
    (h : RtExec cfg prog ls s) (hd : (Dt.mk s .alive).act cfg prog (.destroy t) = .ok d1)
    (hr : d1.run cfg prog (ls'.map .rt) = .ok d2) (hok : ∀ l ∈ ls', l.OK cfg prog) :
    (∀ l, (∀ u jk c, l = .rt (.join u jk c) → u = t) → d2.act cfg prog l ≠ .ub) ∧
    (∀ d3, d2.act cfg prog .finish = .ok d3 → ∀ l, l.member = false → d3.act cfg prog (.rt l) ≠ .ub) := by
  obtain ⟨h1, h2⟩ := destroy_setFile hd
  obtain ⟨s1, p1⟩ := d1
  simp only at h1 h2
  subst h2
  obtain ⟨g1, g2, -⟩ := run_running hr
  have hx : RtExec cfg prog (ls ++ .setFile t true :: ls') d2.rt := by
    refine h.append ?_ (by simp only [Rt.run, h1]; exact g1)
    intro l hl
    rcases List.mem_cons.1 hl with rfl | hl
    · trivial
    · exact hok l hl
  obtain ⟨s2, p2⟩ := d2
  simp only at g2 hx
  subst g2
  have key : ∀ l ph, (Dt.mk s2 ph).actRt cfg prog l = .ub → ∃ s', ph.step l s' = .ub := by
    intro l ph hu
    unfold Dt.actRt at hu
    split at hu
    · rename_i s' _; exact ⟨s', hu⟩
    · cases hu
    · rename_i ho
      exact absurd ho (C11_no_undefined hP hx l)
  constructor
  · intro l hj hu
    cases l with
    | destroy u => simp [Dt.act] at hu
    | finish =>
      simp only [Dt.act] at hu
      split at hu <;> cases hu
    | rt l =>
      obtain ⟨s', h'⟩ := key _ _ hu
      simp only [DPhase.step] at h'
      split at h'
      · cases h'
      · rename_i u hju
        split at h' <;> try cases h'
        rename_i hne
        cases l <;> simp only [Lbl.joins] at hju <;> cases hju
        exact hne (hj _ _ _ rfl)
  · intro d3 hf l hm hu
    obtain ⟨t', -, -, -, rfl⟩ := finish_eq hf
    obtain ⟨s', h'⟩ := key _ _ hu
    simp [DPhase.step, hm] at h'

end

/-! ### The destructor returns -/

/-- An infinite execution with the destructor; `none`: nothing happens at that time. -/
structure DtRun (cfg : Config) (prog : List Site) where
  σ : Nat → Dt
  lbl : Nat → Option DLbl
  start : (∃ jk c, c.Plain ∧ jk < 2 ^ 62 ∧ Rt.init cfg jk c = some (σ 0).rt) ∧ (σ 0).ph = .alive
  ok : ∀ k l, lbl k = some (.rt l) → l.OK cfg prog
  step : ∀ k, match lbl k with
    | none => σ (k + 1) = σ k
    | some l => (σ k).act cfg prog l = .ok (σ (k + 1))

/-- A step as a step of the runtime: the beginning of the destructor is that of `setLogFile`. -/
def DLbl.toRt : DLbl → Option Lbl
  | .rt l => some l
  | .destroy t => some (.setFile t true)
  | .finish => none

theorem toRt_step {cfg : Config} {prog : List Site} {d d' : Dt} {l : DLbl} (ha : d.act cfg prog l = .ok d') :
    match l.toRt with
    | none => d'.rt = d.rt
    | some l => d.rt.act cfg prog l = .ok d'.rt := by
  obtain ⟨s, ph⟩ := d
  cases l with
  | finish =>
    obtain ⟨-, -, -, -, rfl⟩ := finish_eq ha
    rfl
  | destroy t =>
    cases ph with
    | alive => exact (destroy_setFile ha).1
    | running u => simp [Dt.act] at ha
    | done => simp [Dt.act] at ha
  | rt l =>
    simp only [DLbl.toRt]
    simp only [Dt.act, Dt.actRt] at ha
    split at ha
    · rename_i s' hs
      rw [hs]
      unfold DPhase.step at ha
      (repeat' split at ha) <;> cases ha <;> rfl
    · cases ha
    · cases ha

/-- The execution of the runtime. -/
def DtRun.toRt {cfg : Config} {prog : List Site} (r : DtRun cfg prog) : RtRun cfg prog where
  σ k := (r.σ k).rt
  lbl k := (r.lbl k).bind DLbl.toRt
  start := r.start.1
  ok := by
    intro k l hl
    cases h : r.lbl k with
    | none => rw [h] at hl; cases hl
    | some d =>
      rw [h] at hl
      cases d with
      | rt l' => cases hl; exact r.ok k _ h
      | destroy t => cases hl; trivial
      | finish => cases hl
  step := by
    intro k
    have hs := r.step k
    cases h : r.lbl k with
    | none => rw [h] at hs; simp only at hs; simp only [Option.bind_none]; rw [hs]
    | some d =>
      rw [h] at hs
      simp only at hs
      exact toRt_step hs

/-- Fairness as in `RtRun.Fair`; in addition the destructor goes on when the background thread has ended
(runtime/RuntimeLogger.cc:119-120). -/
structure DtRun.Fair {cfg : Config} {prog : List Site} (r : DtRun cfg prog) : Prop where
  bg : ∀ k, ∃ j ≥ k, (∃ l, r.lbl j = some (.rt l) ∧ l.ofBg = true) ∨ (r.σ j).rt.pc = .dead ∨
    ((r.σ j).rt.pc = .aio ∧ (r.σ j).rt.full = true ∧ ∃ a, (r.σ j).rt.aio = some a ∧ a.done ≠ a.len)
  disk : ∀ k, ∃ j ≥ k, ∀ a, (r.σ j).rt.aio = some a → a.done = a.len
  notify : ∀ k, r.lbl k = some (.rt (.scanned none)) → (r.σ k).rt.mem (r.σ k).rt.encPtr = [] →
    (r.σ k).rt.status ≠ .requested → (r.σ k).rt.idleStatus = .completed →
    ∀ u sw, ((r.σ k).rt.thr u).pc ≠ .sync sw
  ret : ∀ k t sw, ((r.σ k).rt.thr t).pc = .woken sw → ∃ j ≥ k, r.lbl j = some (.rt (.ret t))
  stop : ∀ k t, ((r.σ k).rt.thr t).pc = .stop → ∃ j ≥ k, r.lbl j = some (.rt (.stop t))
  join : ∀ k t, (∀ j ≥ k, ((r.σ j).rt.thr t).pc = .join ∧ (r.σ j).rt.pc = .dead ∧ (r.σ j).ph ≠ .running t) →
    (∃ j ≥ k, ∃ jk c, r.lbl j = some (.rt (.join t jk c))) ∨ ∃ j, (r.σ j).ph = .done
  finish : ∀ k t, (∀ j ≥ k, ((r.σ j).rt.thr t).pc = .join ∧ (r.σ j).rt.pc = .dead ∧ (r.σ j).ph = .running t) →
    ∃ j ≥ k, r.lbl j = some .finish
  fresh : ∀ k, (∀ j ≥ k, (r.σ j).rt.sites = (r.σ k).rt.sites) →
    ∃ j ≥ k, ∀ i ≥ j, r.lbl i ≠ some (.rt (.dict true))

/-- Full claim: the destructor returns in every fair execution (false, as it calls `sync`, see `C52_starved_false`).  Proved here: it
returns if it is called while no thread is in the second part of `setLogFile`, none gets there, and from some time on
nothing is logged and neither `sync` nor `setLogFile` is called. -/
theorem C59_returns_partial {cfg : Config} {prog : List Site} (hP : ProgOK cfg prog) (hL : LiveOK cfg prog)
    (r : DtRun cfg prog) (hF : r.Fair) {K t : Nat} (hd : r.lbl K = some (.destroy t))
    (hq0 : ∀ j > K, ∀ u, (r.lbl j = some (.rt (.stop u)) → u = t) ∧ ∀ jk c, r.lbl j ≠ some (.rt (.join u jk c)))
    {K' : Nat} (hK : K < K') (hq : ∀ j ≥ K', ∀ l, r.lbl j = some (.rt l) → l.quiet = true ∨ l = .stop t)
    (he : (r.σ K).rt.exit = false) : ∃ j > K, r.lbl j = some .finish := by
  by_contra hno
  have hno' : ∀ j > K, r.lbl j ≠ some .finish := fun j hj h => hno ⟨j, hj, h⟩
  have hact : ∀ {j : Nat} {l : DLbl}, r.lbl j = some l → (r.σ j).act cfg prog l = .ok (r.σ (j + 1)) := by
    intro j l hl
    have hs := r.step j
    rw [hl] at hs; exact hs
  -- the first step
  have h0 := hact hd
  have hal : (r.σ K).ph = .alive ∧ ((r.σ (K + 1)).rt.thr t).pc = .sync true ∧
      (r.σ (K + 1)).ph = .running t ∧ (r.σ (K + 1)).rt.exit = false := by
    simp only [Dt.act] at h0
    split at h0
    · rename_i h1 h2
      cases hx : r.σ (K + 1) with
      | mk s ph =>
        rw [hx] at h0
        cases h0
        exact ⟨h1, by simp [Rt.setThr], rfl, he⟩
    · cases h0
  -- the destructor goes on running
  have hrun : ∀ j ≥ K + 1, (r.σ j).ph = .running t := by
    intro j hj
    induction j, hj using Nat.le_induction with
    | base => exact hal.2.2.1
    | succ j hj ih =>
      have hs := r.step j
      cases hl : r.lbl j with
      | none => rw [hl] at hs; simp only at hs; rw [hs]; exact ih
      | some l =>
        have ha := hact hl
        cases hx : r.σ j with
        | mk s ph =>
          rw [hx] at ha ih
          simp only at ih
          subst ih
          cases l with
          | finish => exact absurd hl (hno' j (by omega))
          | destroy u => simp [Dt.act] at ha
          | rt l => exact (actRt_running ha).2.1
  have hnd : ∀ j, (r.σ j).ph ≠ .done := by
    intro j hj
    have hst : ∀ i, j ≤ i → (r.σ i).ph = .done := by
      intro i hi
      induction i, hi using Nat.le_induction with
      | base => exact hj
      | succ i hi ih =>
        have hs := r.step i
        cases hl : r.lbl i with
        | none => rw [hl] at hs; simp only at hs; rw [hs]; exact ih
        | some l =>
          have ha := hact hl
          cases hx : r.σ i with
          | mk s ph =>
            rw [hx] at ha ih
            simp only at ih
            subst ih
            cases l with
            | finish => simp [Dt.act] at ha
            | destroy u => simp [Dt.act] at ha
            | rt l =>
              simp only [Dt.act, Dt.actRt] at ha
              split at ha
              · simp only [DPhase.step] at ha
                split at ha
                · cases ha
                · have := DOut.ok.inj ha
                  rw [← this]
              · cases ha
              · cases ha
    have h1 := hst (max j (K + 1)) (by omega)
    rw [hrun _ (by omega)] at h1
    cases h1
  have hlbl : ∀ {k : Nat} {l : Lbl}, r.lbl k = some (.rt l) → r.toRt.lbl k = some l := by
    intro k l hl
    simp [DtRun.toRt, hl, DLbl.toRt]
  have hlbl' : ∀ {k : Nat} {l : Lbl}, r.toRt.lbl k = some l →
      r.lbl k = some (.rt l) ∨ ∃ u, r.lbl k = some (.destroy u) ∧ l = .setFile u true := by
    intro k l hl
    simp only [DtRun.toRt] at hl
    cases h : r.lbl k with
    | none => rw [h] at hl; cases hl
    | some d =>
      rw [h] at hl
      cases d with
      | rt l' => cases hl; exact .inl rfl
      | destroy u => cases hl; exact .inr ⟨u, rfl, rfl⟩
      | finish => cases hl
  -- fairness of the execution of the runtime
  have hFr : r.toRt.Fair := by
    refine ⟨?_, hF.disk, ?_, ?_, ?_, ?_, ?_⟩
    · intro k
      obtain ⟨j, hj, h⟩ := hF.bg k
      refine ⟨j, hj, h.imp ?_ id⟩
      rintro ⟨l, h1, h2⟩
      exact ⟨l, hlbl h1, h2⟩
    · intro k hl
      rcases hlbl' hl with h | ⟨u, -, h⟩
      · exact hF.notify k h
      · cases h
    · intro k u sw h
      obtain ⟨j, hj, h⟩ := hF.ret k u sw h
      exact ⟨j, hj, hlbl h⟩
    · intro k u h
      obtain ⟨j, hj, h⟩ := hF.stop k u h
      exact ⟨j, hj, hlbl h⟩
    · intro k u h
      by_cases hu : u = t
      · subst hu
        exfalso
        obtain ⟨j, hj, h⟩ := hF.finish (max k (K + 1)) u fun j hj =>
          ⟨(h j (by omega)).1, (h j (by omega)).2, hrun j (by omega)⟩
        exact hno' j (by omega) h
      · rcases hF.join (max k (K + 1)) u fun j hj =>
          ⟨(h j (by omega)).1, (h j (by omega)).2, by
            rw [hrun j (by omega)]; intro hx; cases hx; exact hu rfl⟩ with ⟨j, hj, jk, c, h⟩ | ⟨j, h⟩
        · exact ⟨j, by omega, jk, c, hlbl h⟩
        · exact absurd h (hnd j)
    · intro k h
      obtain ⟨j, hj, h⟩ := hF.fresh k h
      refine ⟨j, hj, fun i hi hl => ?_⟩
      rcases hlbl' hl with h' | ⟨u, -, h'⟩
      · exact h i hi h'
      · cases h'
  obtain ⟨j, hj, jk, c, hl⟩ := C52_setLogFile_returns_partial hP hL r.toRt hFr (K0 := K + 1) (K := K') (t := t) (by omega)
    (by
      intro j hj u
      refine ⟨fun hl => ?_, fun jk c hl => ?_⟩
      · rcases hlbl' hl with h | ⟨_, -, h⟩
        · exact (hq0 j (by omega) u).1 h
        · cases h
      · rcases hlbl' hl with h | ⟨_, -, h⟩
        · exact absurd h ((hq0 j (by omega) u).2 jk c)
        · cases h)
    (by
      intro j hj l hl
      rcases hlbl' hl with h | ⟨u, h, rfl⟩
      · rcases hq j (by omega) l h with h | h
        · exact .inl h
        · exact .inr (.inl h)
      · have ha := hact h
        cases hx : r.σ j with
        | mk s ph =>
          have := hrun j (by omega)
          rw [hx] at ha this
          simp only at this
          subst this
          simp [Dt.act] at ha)
    hal.2.2.2 hal.2.1
  rcases hlbl' hl with h | ⟨u, -, h⟩
  · exact (hq0 j (by omega) _).2 jk c h
  · cases h

/-! ### Concrete executions -/

/-- Run `ls`, the destructor by thread `t` with the steps `ls'` meanwhile, and test the states before the destructor, after its
first step and at the end. -/
def exDestroy (ls : List Lbl) (t : Nat) (ls' : List Lbl) (p : Rt → Dt → Dt → Bool) : Bool :=
  exCheck ls fun s =>
    match (Dt.mk s .alive).act exCfg exSites (.destroy t) with
    | .ok d1 =>
      match d1.run exCfg exSites (ls'.map .rt) with
      | .ok d2 =>
        match d2.act exCfg exSites .finish with
        | .ok d3 => p s d1 d3
        | _ => false
      | _ => false
    | _ => false

theorem exDestroy_ok {ls ls' : List Lbl} {t : Nat} {p : Rt → Dt → Dt → Bool} (hl : ls.all exLbl = true)
    (hl' : ls'.all exLbl = true) (h : exDestroy ls t ls' p = true) :
    ∃ s d1 d2 d3, RtExec exCfg exSites ls s ∧ (Dt.mk s .alive).act exCfg exSites (.destroy t) = .ok d1 ∧
      d1.run exCfg exSites (ls'.map .rt) = .ok d2 ∧ (∀ l ∈ ls', l.OK exCfg exSites) ∧
      d2.act exCfg exSites .finish = .ok d3 ∧ p s d1 d3 = true := by
  obtain ⟨s, hs, hp⟩ := exExec hl h
  split at hp <;> try cases hp
  rename_i d1 h1
  split at hp <;> try cases hp
  rename_i d2 h2
  split at hp <;> try cases hp
  rename_i d3 h3
  exact ⟨s, d1, d2, d3, hs, h1, h2, fun l hm => exLbl_ok (List.all_eq_true.1 hl' l hm), h3, hp⟩

/-- Three messages are queued; the main thread (2) has left `main`; thread 1 is still there. -/
def exMainGone : List Lbl := exThreads ++ [.exitThread 2]

/-- The destructor runs (thread name 3); the buffer of the main thread is deleted. -/
def exDestroyed : List Lbl :=
  exScan ++ [.top, .dict false, .peek 0, .check, .peek 0, .check, .scanned none, .top, .dict false,
    .peek 0, .check, .scanned none, .disk 115, .aio, .aioDone (some 3), .write, .ret 3, .stop 3, .top]

/-- Case for `C59_messages_partial`, `C59_complete_partial`, `C59_final` and `C59_no_undefined`. -/
example : ∃ s d1 d2 d3, RtExec exCfg exSites exMainGone s ∧
    (Dt.mk s .alive).act exCfg exSites (.destroy 3) = .ok d1 ∧
    d1.run exCfg exSites (exDestroyed.map .rt) = .ok d2 ∧ (∀ l ∈ exDestroyed, l.OK exCfg exSites) ∧
    d2.act exCfg exSites .finish = .ok d3 ∧
    ((s.thr 1).q.length == 1 && (s.thr 2).q.length == 2 && s.files == [[]] &&
      ((d1.rt.trace exCfg exSites exDestroyed).all fun p => p.1.pc != .check || p.1.i != p.1.last ||
        !(p.1.thr p.1.cur).dealloc) && d3.rt.bufs == [1] &&
      (d3.rt.files.map (decodeFile 265)).map (fun o => o.map List.length) == [some 3] &&
      match d3.run exCfg exSites [.rt (.exitThread 1)] with | .ok _ => true | _ => false) = true :=
  exDestroy_ok (p := fun s d1 d3 => (s.thr 1).q.length == 1 && (s.thr 2).q.length == 2 && s.files == [[]] &&
      ((d1.rt.trace exCfg exSites exDestroyed).all fun p => p.1.pc != .check || p.1.i != p.1.last ||
        !(p.1.thr p.1.cur).dealloc) && d3.rt.bufs == [1] &&
      (d3.rt.files.map (decodeFile 265)).map (fun o => o.map List.length) == [some 3] &&
      match d3.run exCfg exSites [.rt (.exitThread 1)] with | .ok _ => true | _ => false)
    (by decide +kernel) (by decide +kernel) (by decide +kernel)

/-- The same without the end of the main thread. -/
def exQuit : List Lbl :=
  exScan ++ [.top, .dict false, .peek 0, .check, .peek 0, .check, .scanned none, .top, .dict false,
    .peek 0, .check, .peek 0, .check, .scanned none, .disk 115, .aio, .aioDone (some 3), .write, .ret 3, .stop 3, .top]

/-- Case for `C59_simple_partial`: two threads have logged and do not end. -/
example : (∃ s d1 d2 d3, RtExec exCfg exSites exThreads s ∧
    (Dt.mk s .alive).act exCfg exSites (.destroy 3) = .ok d1 ∧
    d1.run exCfg exSites (exQuit.map .rt) = .ok d2 ∧ (∀ l ∈ exQuit, l.OK exCfg exSites) ∧
    d2.act exCfg exSites .finish = .ok d3 ∧
    (s.files == [[]] && (d3.rt.files.map (decodeFile 265)).map (fun o => o.map List.length) == [some 3]) = true) ∧
    .spurious 3 ∉ exQuit ∧ allocs (exThreads ++ exQuit) = 2 ∧ ∀ u, .exitThread u ∉ exThreads ++ exQuit :=
  ⟨exDestroy_ok (p := fun s _ d3 => s.files == [[]] &&
      (d3.rt.files.map (decodeFile 265)).map (fun o => o.map List.length) == [some 3])
    (by decide +kernel) (by decide +kernel) (by decide +kernel), by simp [exQuit, exScan], by decide +kernel,
    fun u h => by simp [exThreads, exFirst, exNext, exQuit, exScan] at h⟩

/-- Case for `C31_simple_partial`: thread 1 calls `sync` while messages are queued and no thread ends. -/
example : (∃ s, RtExec exCfg exSites exThreads s ∧
    (match s.act exCfg exSites (.sync 1) with
     | .ok s1 =>
       match s1.run exCfg exSites exSynced with
       | .ok s' => (s'.thr 1).pc == .woken false && s'.persisted.length == 3
       | _ => false
     | _ => false) = true) ∧ .spurious 1 ∉ exSynced ∧
    allocs (exThreads ++ .sync 1 :: exSynced) = 2 ∧ ∀ u, .exitThread u ∉ exThreads ++ .sync 1 :: exSynced :=
  ⟨exExec (by decide +kernel) (by decide +kernel), by simp [exSynced, exScan], by decide +kernel,
    fun u h => by simp [exThreads, exFirst, exNext, exSynced, exScan] at h⟩

/-- Thread 1 has logged, its message is written.  While the background thread is at the end of a pass, thread 1 ends, and the main
thread (2) logs and leaves `main`. -/
def exLast : List Lbl :=
  exWritten ++ [.top, .dict false, .peek 0, .check, .peek 0, .check, .exitThread 1, .setLevel 3] ++
  exNext 2 0 1030 [.int .i32 6] ++ [.exitThread 2]

/-- The destructor: the pass under way ends, the second one deletes the buffer of thread 1 and ends. -/
def exLost : List Lbl :=
  [.scanned none, .top, .dict false, .peek 0, .check, .scanned (some 3), .ret 3, .stop 3, .aio, .write, .top]

/-- The last message of the main thread is lost in a regular exit, although all threads have ended: no other
thread is running, nobody is woken spuriously, and one thread ended shortly before. -/
theorem C59_delete_false : ∃ s d1 d2 d3, RtExec exCfg exSites exLast s ∧
    (Dt.mk s .alive).act exCfg exSites (.destroy 3) = .ok d1 ∧
    d1.run exCfg exSites (exLost.map .rt) = .ok d2 ∧ (∀ l ∈ exLost, l.OK exCfg exSites) ∧
    d2.act exCfg exSites .finish = .ok d3 ∧ .spurious 3 ∉ exLost ∧
    (d3.rt.thr 2).bid = some 1 ∧ returned 2 exLast = 3 ∧
    ∃ outs, d3.rt.files.map (decodeFile (exCfg.staging + 9)) = [some outs] ∧
      (outs.filter fun m => m.tid == 1).length = 2 := by
  obtain ⟨s, d1, d2, d3, h1, h2, h3, h4, h5, hp⟩ := exDestroy_ok (ls := exLast) (ls' := exLost) (t := 3)
    (p := fun _ _ d3 => (d3.rt.thr 2).bid == some 1 && d3.rt.closed.length == 0 &&
      match decodeFile (exCfg.staging + 9) d3.rt.disk with
      | some outs => (outs.filter fun m => m.tid == 1).length == 2
      | none => false) (by decide +kernel) (by decide +kernel) (by decide +kernel)
  simp only [Bool.and_eq_true, beq_iff_eq] at hp
  obtain ⟨⟨p1, p2⟩, p3⟩ := hp
  split at p3 <;> try cases p3
  rename_i outs h6
  refine ⟨s, d1, d2, d3, h1, h2, h3, h4, h5, by simp [exLost], p1, by decide +kernel, outs, ?_, by simpa using p3⟩
  have := List.length_eq_zero_iff.1 p2
  simp [Rt.files, this, h6]

/-- After a spurious wake-up of the destructor's `sync` everything in the staging buffers is lost: the background thread has
written the beginning of the file and ends. -/
theorem C59_spurious_false : ∃ s d1 d2 d3, RtExec exCfg exSites (exWritten ++ .setLevel 3 :: exNext 1 0 1030 [.int .i32 6]) s ∧
    (Dt.mk s .alive).act exCfg exSites (.destroy 3) = .ok d1 ∧
    d1.run exCfg exSites ([.spurious 3, .ret 3, .stop 3, .top].map .rt) = .ok d2 ∧
    d2.act exCfg exSites .finish = .ok d3 ∧ (∀ p ∈ d1.rt.trace exCfg exSites [.spurious 3, .ret 3, .stop 3, .top], ¬ CutsSync p) ∧
    (d3.rt.thr 1).bid = some 0 ∧ returned 1 (exWritten ++ .setLevel 3 :: exNext 1 0 1030 [.int .i32 6]) = 2 ∧
    ∃ outs, d3.rt.files.map (decodeFile (exCfg.staging + 9)) = [some outs] ∧
      (outs.filter fun m => m.tid == 0).length = 1 := by
  obtain ⟨s, d1, d2, d3, h1, h2, h3, h4, h5, hp⟩ := exDestroy_ok
    (ls := exWritten ++ .setLevel 3 :: exNext 1 0 1030 [.int .i32 6])
    (ls' := [.spurious 3, .ret 3, .stop 3, .top]) (t := 3)
    (p := fun _ d1 d3 => (d3.rt.thr 1).bid == some 0 && d3.rt.closed.length == 0 &&
      ((d1.rt.trace exCfg exSites [.spurious 3, .ret 3, .stop 3, .top]).all fun p => p.1.status != .second) &&
      match decodeFile (exCfg.staging + 9) d3.rt.disk with
      | some outs => (outs.filter fun m => m.tid == 0).length == 1
      | none => false) (by decide +kernel) (by decide +kernel) (by decide +kernel)
  simp only [Bool.and_eq_true, beq_iff_eq] at hp
  obtain ⟨⟨⟨p1, p2⟩, p4⟩, p3⟩ := hp
  split at p3 <;> try cases p3
  rename_i outs h6
  refine ⟨s, d1, d2, d3, h1, h2, h3, h5, ?_, p1, by decide +kernel, outs, ?_, by simpa using p3⟩
  · rintro p hm ⟨-, h, -⟩
    have := List.all_eq_true.1 p4 p hm
    rw [h] at this
    cases this
  · have := List.length_eq_zero_iff.1 p2
    simp [Rt.files, this, h6]

/-- The destructor does not wait for other threads: one that is inside a log statement when the destructor begins
can use the object after its end (here: register the statement). -/
theorem C59_late_false : ∃ s d1 d2 d3, RtExec exCfg exSites (exWritten ++ [.setLevel 3, .call 4 0 [.int .i32 6], .readId 4 true]) s ∧
    (Dt.mk s .alive).act exCfg exSites (.destroy 3) = .ok d1 ∧
    d1.run exCfg exSites (([.top, .dict false, .peek 0, .check, .peek 0, .check, .scanned none, .top, .dict false,
      .peek 0, .check, .peek 0, .check, .scanned (some 3), .ret 3, .stop 3, .aio, .write, .top]).map .rt) = .ok d2 ∧
    d2.act exCfg exSites .finish = .ok d3 ∧ d3.act exCfg exSites (.rt (.register 4)) = .ub := by
  obtain ⟨s, d1, d2, d3, h1, h2, h3, -, h5, hp⟩ := exDestroy_ok
    (ls := exWritten ++ [.setLevel 3, .call 4 0 [.int .i32 6], .readId 4 true])
    (ls' := [.top, .dict false, .peek 0, .check, .peek 0, .check, .scanned none, .top, .dict false,
      .peek 0, .check, .peek 0, .check, .scanned (some 3), .ret 3, .stop 3, .aio, .write, .top]) (t := 3)
    (p := fun _ _ d3 => match d3.act exCfg exSites (.rt (.register 4)) with | .ub => true | _ => false)
    (by decide +kernel) (by decide +kernel) (by decide +kernel)
  split at hp <;> try cases hp
  rename_i hu
  exact ⟨s, d1, d2, d3, h1, h2, h3, h5, hu⟩

/-- Once the destructor has ended, every operation of the interface that a thread can begin is undefined
behaviour: a log statement (even one whose level is disabled), `setLogLevel`, `sync`, `setLogFile`. -/
theorem C59_use_after_end {cfg : Config} {prog : List Site} {d2 d3 : Dt} (hf : d2.act cfg prog .finish = .ok d3)
    {l : Lbl} (hl : (∃ t k args, l = .call t k args) ∨ (∃ v, l = .setLevel v) ∨ (∃ t, l = .sync t) ∨
      ∃ t ok, l = .setFile t ok) (hs : d3.rt.act cfg prog l ≠ .off) : d3.act cfg prog (.rt l) = .ub := by
  have hp : d3.ph = .done := by
    simp only [Dt.act] at hf
    split at hf <;> try cases hf
    split at hf <;> cases hf
    rfl
  simp only [Dt.act, Dt.actRt]
  cases hr : d3.rt.act cfg prog l with
  | off => exact absurd hr hs
  | ub => rfl
  | ok s =>
    simp only [DPhase.step, hp]
    rcases hl with ⟨t, k, args, rfl⟩ | ⟨v, rfl⟩ | ⟨t, rfl⟩ | ⟨t, ok, rfl⟩ <;> rfl

/-- Thread 1 logs after the destructor, which thread 3 has called. -/
example : ∃ s d1 d2 d3, RtExec exCfg exSites (exWritten ++ [.setLevel 3]) s ∧
    (Dt.mk s .alive).act exCfg exSites (.destroy 3) = .ok d1 ∧
    d1.run exCfg exSites (([.top, .dict false, .peek 0, .check, .peek 0, .check, .scanned none, .top, .dict false,
      .peek 0, .check, .peek 0, .check, .scanned (some 3), .ret 3, .stop 3, .aio, .write, .top]).map .rt) = .ok d2 ∧
    d2.act exCfg exSites .finish = .ok d3 ∧ d3.rt.act exCfg exSites (.call 1 0 [.int .i32 6]) ≠ .off := by
  obtain ⟨s, d1, d2, d3, h1, h2, h3, -, h5, hp⟩ := exDestroy_ok
    (ls := exWritten ++ [.setLevel 3])
    (ls' := [.top, .dict false, .peek 0, .check, .peek 0, .check, .scanned none, .top, .dict false,
      .peek 0, .check, .peek 0, .check, .scanned (some 3), .ret 3, .stop 3, .aio, .write, .top]) (t := 3)
    (p := fun _ _ d3 => match d3.rt.act exCfg exSites (.call 1 0 [.int .i32 6]) with | .off => false | _ => true)
    (by decide +kernel) (by decide +kernel) (by decide +kernel)
  exact ⟨s, d1, d2, d3, h1, h2, h3, h5, fun h => by rw [h] at hp; cases hp⟩

/-- The states of a finite execution, the last one repeated for ever. -/
def finState (ds : List DLbl) (d : Dt) : Nat → Dt
  | 0 => d
  | k + 1 =>
    match ds[k]? with
    | none => finState ds d k
    | some l =>
      match (finState ds d k).act exCfg exSites l with
      | .ok d1 => d1
      | _ => finState ds d k

theorem finState_run {ds : List DLbl} {d d' : Dt} (h : d.run exCfg exSites ds = .ok d') :
    ∀ k ≤ ds.length, d.run exCfg exSites (ds.take k) = .ok (finState ds d k) ∧
      (finState ds d k).run exCfg exSites (ds.drop k) = .ok d' := by
  intro k hk
  induction k with
  | zero => exact ⟨rfl, h⟩
  | succ k ih =>
    obtain ⟨h1, h2⟩ := ih (by omega)
    have hlt : k < ds.length := by omega
    rw [List.drop_eq_getElem_cons hlt] at h2
    simp only [Dt.run] at h2
    split at h2 <;> try cases h2
    rename_i d1 ha
    have he : finState ds d (k + 1) = d1 := by
      simp only [finState, List.getElem?_eq_getElem hlt, ha]
    refine ⟨?_, by rw [he]; exact h2⟩
    rw [he, List.take_succ_eq_append_getElem hlt]
    have happ : ∀ (a : List DLbl) (d0 : Dt) (l : DLbl), d0.run exCfg exSites a = .ok (finState ds d k) →
        (finState ds d k).act exCfg exSites l = .ok d1 → d0.run exCfg exSites (a ++ [l]) = .ok d1 := by
      intro a
      induction a with
      | nil => intro d0 l e1 e2; cases e1; simp [Dt.run, e2]
      | cons x a iha =>
        intro d0 l e1 e2
        simp only [Dt.run, List.cons_append] at e1 ⊢
        split at e1 <;> try cases e1
        exact iha _ l e1 e2
    exact happ _ _ _ h1 ha

theorem finState_step {ds : List DLbl} {d d' : Dt} (h : d.run exCfg exSites ds = .ok d') (k : Nat) :
    match ds[k]? with
    | none => finState ds d (k + 1) = finState ds d k
    | some l => (finState ds d k).act exCfg exSites l = .ok (finState ds d (k + 1)) := by
  by_cases hk : k < ds.length
  · obtain ⟨-, h2⟩ := finState_run h k (by omega)
    rw [List.getElem?_eq_getElem hk]
    rw [List.drop_eq_getElem_cons hk] at h2
    simp only [Dt.run] at h2
    split at h2 <;> try cases h2
    rename_i d1 ha
    simp only [finState, List.getElem?_eq_getElem hk, ha]
  · simp only [finState, List.getElem?_eq_none (Nat.le_of_not_lt hk)]

theorem finState_end {ds : List DLbl} {d d' : Dt} (h : d.run exCfg exSites ds = .ok d') {k : Nat}
    (hk : ds.length ≤ k) : finState ds d k = d' := by
  induction k, hk using Nat.le_induction with
  | base =>
    have := (finState_run h ds.length (Nat.le_refl _)).2
    rw [List.drop_length] at this
    exact DOut.ok.inj this
  | succ k hk ih => simp only [finState, List.getElem?_eq_none hk, ih]

/-- Threads up to 4 are not in the middle of `sync` or `setLogFile`, except where the destructor ends. -/
def endedB (d : Dt) : Bool :=
  d.rt.pc == .dead && d.rt.aio == none && d.ph == .done &&
  (List.range 5).all fun u => match (d.rt.thr u).pc with
    | .woken _ | .stop => false
    | _ => true

/-- Notifications of nobody happen only when nobody has to be notified. -/
def notifiesD (d : Dt) : List DLbl → Bool
  | [] => true
  | l :: ls =>
    (match l with
     | .rt (.scanned none) =>
       d.rt.mem d.rt.encPtr != [] || d.rt.status == .requested || d.rt.idleStatus != .completed
     | _ => true) &&
    match d.act exCfg exSites l with
    | .ok d1 => notifiesD d1 ls
    | _ => false

theorem notifiesD_at {ds : List DLbl} {d d' : Dt} (h : d.run exCfg exSites ds = .ok d')
    (hn : notifiesD d ds = true) (k : Nat) (hk : k ≤ ds.length) :
    notifiesD (finState ds d k) (ds.drop k) = true := by
  induction k with
  | zero => exact hn
  | succ k ih =>
    have hlt : k < ds.length := by omega
    have h1 := ih (by omega)
    have hs := finState_step h k
    rw [List.getElem?_eq_getElem hlt] at hs
    simp only at hs
    rw [List.drop_eq_getElem_cons hlt] at h1
    simp only [notifiesD, hs, Bool.and_eq_true] at h1
    exact h1.2

def DLbl.exOK : DLbl → Bool
  | .rt l => exLbl l
  | _ => true

/-- A finite execution that ends with the destructor is a fair infinite one. -/
theorem exEnded {ds : List DLbl} {s0 : Rt} {d : Dt} (h0 : Rt.init exCfg 0 exCk = some s0)
    (hl : ds.all DLbl.exOK = true)
    (hw : (ds.all fun l => match l.toRt.bind Lbl.who with | none => true | some u => decide (u < 5)) = true)
    (h : (Dt.mk s0 .alive).run exCfg exSites ds = .ok d) (he : endedB d = true)
    (hn : notifiesD (Dt.mk s0 .alive) ds = true) :
    ∃ r : DtRun exCfg exSites, r.Fair ∧ (∀ k, r.lbl k = ds[k]?) ∧
      ∀ k ≤ ds.length, (Dt.mk s0 .alive).run exCfg exSites (ds.take k) = .ok (r.σ k) := by
  let r : DtRun exCfg exSites :=
    { σ := finState ds ⟨s0, .alive⟩
      lbl := fun k => ds[k]?
      start := ⟨⟨0, exCk, exCk_plain, by decide, h0⟩, rfl⟩
      ok := fun k l hk => exLbl_ok (List.all_eq_true.1 hl _ (List.mem_of_getElem? hk))
      step := finState_step h }
  refine ⟨r, ?_, fun _ => rfl, fun k hk => (finState_run h k hk).1⟩
  have hend : ∀ k ≥ ds.length, r.σ k = d := fun k hk => finState_end h hk
  simp only [endedB, Bool.and_eq_true, beq_iff_eq, List.all_eq_true, List.mem_range] at he
  obtain ⟨⟨⟨e1, e2⟩, e3⟩, e4⟩ := he
  have hidle : ∀ u, ¬ u < 5 → ∀ k, ((r.σ k).rt.thr u).pc = .idle := by
    intro u hu k
    induction k with
    | zero =>
      change (s0.thr u).pc = .idle
      unfold Rt.init at h0
      split at h0 <;> cases h0
      rfl
    | succ k ih =>
      have hs := r.toRt.step k
      cases hk : r.toRt.lbl k with
      | none => rw [hk] at hs; simp only at hs; change ((r.toRt.σ (k + 1)).thr u).pc = _; rw [hs]; exact ih
      | some l =>
        refine act_other (r.toRt.act_of hk) (fun hx => ?_) ih
        simp only [DtRun.toRt] at hk
        cases hd : r.lbl k with
        | none => rw [hd] at hk; cases hk
        | some dl =>
          rw [hd] at hk
          have hm := List.all_eq_true.1 hw dl (List.mem_of_getElem? hd)
          simp only [Option.bind_some] at hk
          rw [hk, Option.bind_some, hx] at hm
          exact hu (by simpa using hm)
  have hfin : ∀ u sw, (d.rt.thr u).pc ≠ .woken sw ∧ (d.rt.thr u).pc ≠ .stop := by
    intro u sw
    by_cases hu : u < 5
    · have := e4 u hu
      constructor <;> intro hx <;> rw [hx] at this <;> cases this
    · have := hidle u hu ds.length
      rw [hend _ (Nat.le_refl _)] at this
      rw [this]; simp
  have hstay : ∀ k u (p : TPc), (d.rt.thr u).pc ≠ p → ((r.σ k).rt.thr u).pc = p →
      (∀ j ≥ k, ((r.σ j).rt.thr u).pc = p → ((r.σ (j + 1)).rt.thr u).pc = p) → False := by
    intro k u p hp h1 h2
    have h3 : ∀ j ≥ k, ((r.σ j).rt.thr u).pc = p := by
      intro j hj
      induction j, hj using Nat.le_induction with
      | base => exact h1
      | succ j hj ih => exact h2 j hj ih
    have h4 := h3 (max k ds.length) (by omega)
    rw [hend _ (by omega)] at h4
    exact hp h4
  have hrt : ∀ k l, r.toRt.lbl k = some l → (∀ u b, l ≠ .setFile u b) → r.lbl k = some (.rt l) := by
    intro k l hk hne
    simp only [DtRun.toRt] at hk
    cases hd : r.lbl k with
    | none => rw [hd] at hk; cases hk
    | some dl =>
      rw [hd] at hk
      cases dl with
      | rt l' => cases hk; rfl
      | destroy u => cases hk; exact absurd rfl (hne u true)
      | finish => cases hk
  refine ⟨fun k => ?_, fun k => ?_, fun k hs hm hst hid u sw hu => ?_, fun k t sw hw => ?_,
    fun k t hw => ?_, fun k t hw => ?_, fun k t hw => ?_, fun k _ => ?_⟩
  · exact ⟨max k ds.length, by omega, .inr (.inl (by rw [hend _ (by omega)]; exact e1))⟩
  · refine ⟨max k ds.length, by omega, fun a ha => ?_⟩
    rw [hend _ (by omega), e2] at ha; cases ha
  · have hlt : k < ds.length := by
      by_contra hx
      have : ds[k]? = none := List.getElem?_eq_none (by omega)
      rw [show r.lbl k = ds[k]? from rfl, this] at hs; cases hs
    have h1 := notifiesD_at h hn k (by omega)
    rw [List.drop_eq_getElem_cons hlt] at h1
    have h2 : ds[k] = .rt (.scanned none) := by
      have : ds[k]? = some (.rt (.scanned none)) := hs
      rw [List.getElem?_eq_getElem hlt] at this
      exact Option.some.inj this
    rw [h2] at h1
    simp only [notifiesD, Bool.and_eq_true, Bool.or_eq_true, bne_iff_ne, beq_iff_eq] at h1
    rcases h1.1 with (h3 | h3) | h3
    · exact h3 hm
    · exact hst h3
    · exact h3 hid
  · by_contra hno
    refine hstay k t (.woken sw) (hfin t sw).1 hw fun j hj hp => ?_
    have hs := r.toRt.step j
    cases hl : r.toRt.lbl j with
    | none => rw [hl] at hs; simp only at hs; change ((r.toRt.σ (j + 1)).thr t).pc = _; rw [hs]; exact hp
    | some l =>
      have := act_stays (r.toRt.act_of hl) (u := t)
        (.inl ⟨⟨_, hp⟩, fun hx => hno ⟨j, hj, by rw [hrt j l hl (by rw [hx]; simp), hx]⟩⟩)
      change ((r.toRt.σ (j + 1)).thr t).pc = _
      rw [this]; exact hp
  · by_contra hno
    refine hstay k t .stop (hfin t true).2 hw fun j hj hp => ?_
    have hs := r.toRt.step j
    cases hl : r.toRt.lbl j with
    | none => rw [hl] at hs; simp only at hs; change ((r.toRt.σ (j + 1)).thr t).pc = _; rw [hs]; exact hp
    | some l =>
      have := act_stays (r.toRt.act_of hl) (u := t)
        (.inr (.inl ⟨hp, fun hx => hno ⟨j, hj, by rw [hrt j l hl (by rw [hx]; simp), hx]⟩⟩))
      change ((r.toRt.σ (j + 1)).thr t).pc = _
      rw [this]; exact hp
  · exact .inr ⟨ds.length, by rw [hend _ (Nat.le_refl _)]; exact e3⟩
  · have h1 := (hw (max k ds.length) (by omega)).2.2
    rw [hend _ (by omega), e3] at h1
    cases h1
  · refine ⟨max k ds.length, by omega, fun i hi hx => ?_⟩
    have : ds[i]? = none := List.getElem?_eq_none (by omega)
    rw [show r.lbl i = ds[i]? from rfl, this] at hx; cases hx

/-- Thread 3 destroys the object while thread 2 has one more message to log. -/
def exWhole : List DLbl :=
  (exFirst 1 0 1000 [.int .i32 (-5)] ++ exFirst 2 1 1010 [.cstr 4096 [104, 105]]).map .rt ++ .destroy 3 ::
  (exNext 2 0 1020 [.int .i32 70000] ++ [Lbl.setLevel 2, Lbl.call 1 0 [.int .i32 8], Lbl.exitThread 2] ++
    exDestroyed).map .rt ++ [.finish]

/-- Case for `C59_returns_partial`. -/
example : ∃ (r : DtRun exCfg exSites) (K K' : Nat), r.Fair ∧ r.lbl K = some (.destroy 3) ∧ K < K' ∧
    (∀ j > K, ∀ u, (r.lbl j = some (.rt (.stop u)) → u = 3) ∧ ∀ jk c, r.lbl j ≠ some (.rt (.join u jk c))) ∧
    (∀ j ≥ K', ∀ l, r.lbl j = some (.rt l) → l.quiet = true ∨ l = .stop 3) ∧ (r.σ K).rt.exit = false := by
  have hc : (match Rt.init exCfg 0 exCk with
    | some s0 =>
      notifiesD (Dt.mk s0 .alive) exWhole &&
      (match (Dt.mk s0 .alive).run exCfg exSites exWhole with
       | .ok d => endedB d
       | _ => false) &&
      (match (Dt.mk s0 .alive).run exCfg exSites (exWhole.take 16) with
       | .ok d => !d.rt.exit
       | _ => false)
    | none => false) = true := by decide +kernel
  split at hc
  swap
  · cases hc
  rename_i s0 h0
  simp only [Bool.and_eq_true] at hc
  obtain ⟨⟨c1, c2⟩, c3⟩ := hc
  split at c2 <;> try cases c2
  rename_i d hd
  obtain ⟨r, hF, hl, hσ⟩ := exEnded h0 (by decide +kernel) (by decide +kernel) hd c2 c1
  rw [hσ 16 (by decide +kernel)] at c3
  have hm : ∀ n j, n ≤ j → ∀ l, r.lbl j = some l → l ∈ exWhole.drop n := by
    intro n j hj l hx
    rw [hl] at hx
    refine List.mem_of_getElem? (i := j - n) ?_
    rw [List.getElem?_drop, show n + (j - n) = j by omega, hx]
  refine ⟨r, 16, 22, hF, by rw [hl]; rfl, by omega, fun j hj u => ?_, fun j hj l hx => ?_, by simpa using c3⟩
  · have hq : ((exWhole.drop 17).all fun l => match l with
      | .rt (.stop t) => t == 3
      | .rt (.join ..) => false
      | _ => true) = true := by decide +kernel
    exact ⟨fun hx => by simpa using List.all_eq_true.1 hq _ (hm 17 j hj _ hx),
      fun jk c hx => by simpa using List.all_eq_true.1 hq _ (hm 17 j hj _ hx)⟩
  · have hq : ((exWhole.drop 22).all fun l => match l with
      | .rt l => l.quiet || (match l with | .stop t => t == 3 | _ => false)
      | _ => true) = true := by decide +kernel
    have := List.all_eq_true.1 hq _ (hm 22 j hj _ hx)
    simp only [Bool.or_eq_true] at this
    rcases this with h | h
    · exact .inl h
    · right
      cases l <;> simp at h
      rw [h]

end NanoLog
