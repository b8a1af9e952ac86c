import Verif.ComposedDestroy
import Verif.Props.Destroy
import Verif.Props.EndToEnd
import Verif.ComposedRun

/-!
# C77: the end of the process, over byte-wise staging buffers and in the output of the ordered decompressor

The destructor of `Verif/ComposedDestroy.lean`, the output of `decompressTo` as in C73.
-/

namespace NanoLog

section
variable {cfg : Config} {prog : List Site} {ls ls' : List CLbl} {c : Cr} {d1 d2 d3 d4 : Cd} {t : Nat}

/-! ## Lemmas -/

theorem cd_next_running {l : CLbl} {c' : Cr} {d' : Cd} (h : Cd.next (.running t) l c' = .ok d') :
    d' = ⟨c', .running t⟩ ∧ ∀ u jk k, l ≠ .rt (.join u jk k) := by
  cases l with
  | rt l =>
    simp only [Cd.next] at h
    split at h
    · rename_i d hd
      simp only [DPhase.step] at hd
      split at hd
      · rename_i hj
        cases hd; cases h
        refine ⟨rfl, fun u jk k e => ?_⟩
        cases e; cases hj
      · split at hd <;> cases hd
    · cases h
    · cases h
  | _ => cases h; exact ⟨rfl, fun _ _ _ e => by cases e⟩

theorem cd_run_running {d' : Cd} (hr : (Cd.mk c (.running t)).run cfg prog (ls.map .cr) = .ok d') :
    c.run cfg prog ls = .ok d'.cr ∧ d'.ph = .running t ∧ ∀ u jk k, .rt (.join u jk k) ∉ ls := by
  induction ls generalizing c with
  | nil => cases hr; exact ⟨rfl, rfl, fun _ _ _ h => by cases h⟩
  | cons l ls ih =>
    simp only [List.map_cons, Cd.run, Cd.act, Cd.actCr] at hr
    cases ha : c.act cfg prog l with
    | off => rw [ha] at hr; cases hr
    | ub => rw [ha] at hr; cases hr
    | ok c1 =>
      rw [ha] at hr
      simp only at hr
      split at hr <;> try cases hr
      rename_i d1 hd
      obtain ⟨rfl, hj⟩ := cd_next_running hd
      obtain ⟨g1, g2, g3⟩ := ih hr
      refine ⟨by simp only [Cr.run, ha]; exact g1, g2, fun u jk k hm => ?_⟩
      rcases List.mem_cons.1 hm with hm | hm
      · exact hj u jk k hm.symm
      · exact g3 u jk k hm

theorem cd_destroy (hd : (Cd.mk c .alive).act cfg prog (.destroy t) = .ok d1) :
    c.act cfg prog (.rt (.setFile t true)) = .ok d1.cr ∧ d1.ph = .running t ∧ (c.sb t).buf = [] := by
  simp only [Cd.act] at hd
  split at hd <;> try cases hd
  rename_i hpc
  split at hd <;> cases hd
  rename_i hb
  exact ⟨by simp [Cr.act, Cr.actRt, Lbl.replaced, Lbl.locks, hb, Cr.lift, Rt.act, Rt.actCtl, hpc], rfl, hb⟩

theorem cd_finish (hf : d2.act cfg prog .finish = .ok d3) :
    ∃ t, d2.ph = .running t ∧ (d2.cr.rt.thr t).pc = .join ∧ d2.cr.rt.pc = .dead ∧ d3 = ⟨d2.cr, .done⟩ := by
  simp only [Cd.act] at hf
  split at hf
  · rename_i t hp
    split at hf <;> cases hf
    rename_i h
    exact ⟨t, hp, h.1, h.2, rfl⟩
  · cases hf

theorem cr_run_then {c1 : Cr} {a : List CLbl} {l : CLbl} (h : c.run cfg prog a = .ok c1)
    (hu : c1.act cfg prog l = .ub) : c.run cfg prog (a ++ [l]) = .ub := by
  induction a generalizing c with
  | nil => cases h; simp only [List.nil_append, Cr.run, hu]
  | cons x a ih =>
    simp only [Cr.run, List.cons_append] at h ⊢
    split at h <;> try cases h
    exact ih h

/-- The execution up to the end of the destructor, as an execution of the runtime. -/
theorem cd_exec (h : CrExec cfg prog ls c) (hd : (Cd.mk c .alive).act cfg prog (.destroy t) = .ok d1)
    (hr : d1.run cfg prog (ls'.map .cr) = .ok d2) (hok : ∀ l ∈ ls', l.OK cfg prog) :
    c.act cfg prog (.rt (.setFile t true)) = .ok d1.cr ∧ d1.cr.run cfg prog ls' = .ok d2.cr ∧ d2.ph = .running t ∧
    CrExec cfg prog (ls ++ .rt (.setFile t true) :: ls') d2.cr := by
  obtain ⟨h1, h2, -⟩ := cd_destroy hd
  obtain ⟨c1, p1⟩ := d1
  simp only at h1 h2
  subst h2
  obtain ⟨g1, g2, -⟩ := cd_run_running hr
  obtain ⟨jk, k, c0, i1, i2, i3, i4, i5⟩ := h
  refine ⟨h1, g1, g2, jk, k, c0, i1, i2, i3, fun l hl => ?_, ?_⟩
  · rcases List.mem_append.1 hl with hl | hl
    · exact i4 l hl
    · rcases List.mem_cons.1 hl with rfl | hl
      · trivial
      · exact hok l hl
  · refine Cr.run_app i5 ?_
    simp only [Cr.run, h1]
    exact g1

theorem calls_setFile (u : Nat) :
    mustRecord prog u (calls (ls ++ .rt (.setFile t true) :: ls')) = mustRecord prog u (calls (ls ++ ls')) ∧
    allocs (calls (ls ++ .rt (.setFile t true) :: ls')) = allocs (calls (ls ++ ls')) ∧
    stamps u (calls (ls ++ .rt (.setFile t true) :: ls')) = stamps u (calls (ls ++ ls')) := by
  have e1 : calls (ls ++ .rt (.setFile t true) :: ls') = calls ls ++ .setFile t true :: calls ls' := by
    simp [calls, List.filterMap_append]
  have e2 : calls (ls ++ ls') = calls ls ++ calls ls' := by simp [calls, List.filterMap_append]
  rw [e1, e2]
  refine ⟨mustRecord_setFile _ _ _ _, allocs_setFile _ _ _, ?_⟩
  simp [stamps, List.filterMap_append]

/-- What the files contain when the destructor has ended, decoded one after the other. -/
theorem cd_decoded (hP : ProgOK cfg prog) (h0 : 0 < cfg.staging) (h : CrExec cfg prog ls c)
    (hd : (Cd.mk c .alive).act cfg prog (.destroy t) = .ok d1)
    (hr : d1.run cfg prog (ls'.map .cr) = .ok d2) (hok : ∀ l ∈ ls', l.OK cfg prog)
    (hf : d2.act cfg prog .finish = .ok d3) (hs : .rt (.spurious t) ∉ ls')
    (hc : allocs (calls (ls ++ ls')) ≤ 1 ∨ allocs (calls (ls ++ ls')) ≤ 2 ^ 32 ∧ ∀ u, .exit u ∉ ls ++ ls') :
    ∃ outs : List (List OutMsg), d3.cr.rt.files.map (decodeFile (cfg.staging + 9)) = outs.map some ∧
      ∀ u b, (d3.cr.rt.thr u).bid = some b → ∃ n, ((c.sb u).buf = [] → finished u ls ≤ n) ∧
        n ≤ (mustRecord prog u (calls (ls ++ ls'))).length ∧
        List.Forall₂ (MsgOf prog b) ((mustRecord prog u (calls (ls ++ ls'))).take n)
          (outs.flatten.filter fun m => m.tid == b) := by
  obtain ⟨ha, hb, hbuf⟩ := cd_destroy hd
  obtain ⟨-, hrun, hph, -⟩ := cd_exec h hd hr hok
  obtain ⟨t', f1, hw, -, rfl⟩ := cd_finish hf
  rw [hph] at f1
  cases f1
  obtain ⟨s0, als, ⟨G, kls, r, τ, held, hR⟩, -⟩ := h.sim hP h0
  simp only [Cr.act, Cr.actRt, Lbl.replaced, Lbl.locks, Bool.false_eq_true, if_false, hbuf, if_true] at ha
  cases hx : c.rt.act cfg prog (.setFile t true) with
  | off => rw [hx] at ha; cases ha
  | ub => rw [hx] at ha; cases ha
  | ok s1 =>
    rw [hx] at ha
    simp only [Cr.lift] at ha
    obtain ⟨b0, hS, -, hb0⟩ := CSim.app hP hR (l := .setFile t true) (t := t) rfl trivial (fun _ => hbuf) hx
    have hb0 := hb0.1 (.inl rfl)
    subst hb0
    rw [COut.ok.inj ha] at hS
    have := CSim.run hP hok hS
    rw [hrun] at this
    obtain ⟨bls, ⟨G2, kls2, r2, τ2, held2, hR2⟩, hsp⟩ := this
    rw [List.append_assoc, List.singleton_append, List.append_assoc, List.singleton_append] at hR2
    obtain ⟨⟨jk, k, s0, i1, i2, i3, -, i6⟩, i4, i5⟩ := hR2.exec
    cases i6
    obtain ⟨s, j1, j2⟩ := Rt.run_split i5
    simp only [Rt.run] at j2
    split at j2 <;> try cases j2
    rename_i s1' hsa
    have hfin : ((d2.cr.rt.over G2).thr t).pc = .join := by
      show (G2.thr t).pc = _
      rw [((hR2.thr t).inSync (by rw [hw]; rfl)).2, hw]
    have hE : RtExec cfg prog als s := ⟨jk, k, s0, i1, i2, i3, fun x hx => i4 x (List.mem_append_left _ hx), j1⟩
    have hok2 : ∀ x ∈ (.setFile t true : Lbl) :: bls, x.OK cfg prog := fun x hx => i4 x (List.mem_append_right _ hx)
    have hc2 : allocs (als ++ .setFile t true :: bls) ≤ 1 ∨
        allocs (als ++ .setFile t true :: bls) ≤ 2 ^ 32 ∧ ∀ u, .exitThread u ∉ als ++ .setFile t true :: bls := by
      rw [hR2.alloc, (calls_setFile (prog := prog) (ls := ls) (ls' := ls') (t := t) 0).2.1]
      refine hc.imp id fun hc => ⟨hc.1, fun u hu => ?_⟩
      have := hR2.exits u hu
      simp only [List.mem_append, List.mem_cons, reduceCtorEq, false_or] at this
      exact hc.2 u (List.mem_append.2 this)
    have hcut := no_cut hP hE hsa hok2 (hc2.imp id fun h => h.2)
    have hI := syncInv_start hE (.inr rfl) hsa
    have hC1 := act_cinv hP.room (hE.inv hP).1 hsa
    have hst : ¬ ((s1'.thr t).pc = .stop ∨ (s1'.thr t).pc = .join) := by
      simp only [Rt.act, Rt.actCtl] at hsa
      split at hsa
      · rw [← Out.ok.inj hsa]; simp [Rt.setThr]
      · cases hsa
    have hL := run_stopped hP.room hC1 hI (fun hx => absurd hx hst) j2 (fun e => hs (hsp t e)) hcut (.inr hfin)
    obtain ⟨outs, f1, f2⟩ := atLeast_decoded hP hR2.exec.rt (by rcases hc2 with h | h <;> omega) hL
    have hf : (d2.cr.rt.over G2).files = d2.cr.rt.files := by
      show G2.closed.map _ ++ _ = _
      rw [hR2.closed]
      rfl
    refine ⟨outs, by rw [← hf]; exact f1, fun u b hub => ?_⟩
    obtain ⟨n, g1, g2, g3⟩ := f2 u b ((hR2.thr u).bid.trans hub)
    have hpre : mustRecord prog u (als ++ .setFile t true :: bls) <+: mustRecord prog u (calls (ls ++ ls')) := by
      rw [← (calls_setFile (ls := ls) (ls' := ls') (t := t) u).1]
      exact ⟨_, (hR2.obs u).rcd.symm⟩
    refine ⟨n, fun hbu => ?_, Nat.le_trans g2 hpre.length_le, ?_⟩
    · have hk := (hR.thr u).buf.pending hbu
      have := (hR.obs u).ret
      rw [hk] at this
      simp only [List.length_nil] at this
      omega
    · rw [take_of_prefix hpre g2]
      exact g3

/-! ## C77 -/

/-- **C77**: when the destructor has ended, the ordered decompressor accepts every file, and prints for every thread the
messages of its first calls, each once, among them all that had returned, with their stores in memory, when the destructor
began; in call order, if the time stamps of the thread increase.  What is missing: without the conditions on spurious wakeups
and ending threads the claim is false, see `C59_spurious_false` and `C59_delete_false`; for stores that have not reached
memory, see `C66_unordered_false`. -/
theorem C77_end_partial (hP : ProgOK cfg prog) (h0 : 0 < cfg.staging) (h : CrExec cfg prog ls c)
    (hd : (Cd.mk c .alive).act cfg prog (.destroy t) = .ok d1)
    (hr : d1.run cfg prog (ls'.map .cr) = .ok d2) (hok : ∀ l ∈ ls', l.OK cfg prog)
    (hf : d2.act cfg prog .finish = .ok d3) (hs : .rt (.spurious t) ∉ ls')
    (hc : allocs (calls (ls ++ ls')) ≤ 1 ∨ allocs (calls (ls ++ ls')) ≤ 2 ^ 32 ∧ ∀ u, .exit u ∉ ls ++ ls')
    {o : Objs} (hu : Used (cfg.staging + 9) o) :
    ∃ outs : List (List OutMsg), d3.cr.rt.files.map (orderedFile (cfg.staging + 9) o) = outs.map some ∧
      (∀ u b, (d3.cr.rt.thr u).bid = some b → ∃ n msgs, ((c.sb u).buf = [] → finished u ls ≤ n) ∧
        n ≤ (mustRecord prog u (calls (ls ++ ls'))).length ∧
        List.Forall₂ (MsgOf prog b) ((mustRecord prog u (calls (ls ++ ls'))).take n) msgs ∧
        (outs.flatten.filter fun m => m.tid == b).Perm msgs ∧
        ((stamps u (calls (ls ++ ls'))).Pairwise (· < ·) → (outs.flatten.filter fun m => m.tid == b) = msgs)) ∧
      ∀ m ∈ outs.flatten, ∃ u, (d3.cr.rt.thr u).bid = some m.tid := by
  obtain ⟨ms, f1, f2⟩ := cd_decoded hP h0 h hd hr hok hf hs hc
  obtain ⟨-, -, -, hE⟩ := cd_exec h hd hr hok
  obtain ⟨t', -, -, -, rfl⟩ := cd_finish hf
  have hn : allocs (calls (ls ++ .rt (.setFile t true) :: ls')) ≤ 2 ^ 32 := by
    rw [(calls_setFile (prog := prog) (ls := ls) (ls' := ls') (t := t) 0).2.1]; omega
  obtain ⟨ms', outs, g1, g2, g3, g4⟩ := exec_ordered hP h0 hE hn hu
  obtain ⟨ms2, e1, -, e3⟩ := C66_prefix hP h0 hE hn
  rw [f1] at g1 e1
  obtain rfl := some_inj g1
  obtain rfl := some_inj e1
  refine ⟨outs, g2, fun u b hb => ?_, fun m hm => e3 m (g3.1.mem_iff.1 hm)⟩
  obtain ⟨n, k1, k2, k3⟩ := f2 u b hb
  have hg := g4 u b hb
  rw [(calls_setFile (prog := prog) (ls := ls) (ls' := ls') (t := t) u).2.2] at hg
  exact ⟨n, _, k1, k2, k3, g3.1.filter _, hg⟩

/-- **C77**, for every thread that is outside of log statements, with its stores in memory, when the destructor begins, and
that logs nothing afterwards: the output contains exactly its recorded calls. -/
theorem C77_complete_partial (hP : ProgOK cfg prog) (h0 : 0 < cfg.staging) (h : CrExec cfg prog ls c)
    (hd : (Cd.mk c .alive).act cfg prog (.destroy t) = .ok d1)
    (hr : d1.run cfg prog (ls'.map .cr) = .ok d2) (hok : ∀ l ∈ ls', l.OK cfg prog)
    (hf : d2.act cfg prog .finish = .ok d3) (hs : .rt (.spurious t) ∉ ls')
    (hc : allocs (calls (ls ++ ls')) ≤ 1 ∨ allocs (calls (ls ++ ls')) ≤ 2 ^ 32 ∧ ∀ u, .exit u ∉ ls ++ ls')
    {o : Objs} (hu : Used (cfg.staging + 9) o) :
    ∃ outs : List (List OutMsg), d3.cr.rt.files.map (orderedFile (cfg.staging + 9) o) = outs.map some ∧
      (∀ u b, (d3.cr.rt.thr u).bid = some b → (c.rt.thr u).pc = .idle ∨ (c.rt.thr u).pc = .exited → (c.sb u).buf = [] →
        (∀ k args, .rt (.call u k args) ∉ ls') → ∃ msgs,
        List.Forall₂ (MsgOf prog b) (mustRecord prog u (calls ls)) msgs ∧
        (outs.flatten.filter fun m => m.tid == b).Perm msgs ∧
        ((stamps u (calls (ls ++ ls'))).Pairwise (· < ·) → (outs.flatten.filter fun m => m.tid == b) = msgs)) ∧
      ∀ m ∈ outs.flatten, ∃ u, (d3.cr.rt.thr u).bid = some m.tid := by
  obtain ⟨outs, g1, g2, g3⟩ := C77_end_partial hP h0 h hd hr hok hf hs hc hu
  refine ⟨outs, g1, fun u b hb hidle hbuf hcall => ?_, g3⟩
  obtain ⟨n, msgs, n1, n2, n3, n4, n5⟩ := g2 u b hb
  have hlev : ∀ (xs : List Lbl) (st : Int × List (Nat × List Arg)), (∀ k args, .call u k args ∉ xs) →
      (xs.foldl (recordStep prog u) st).2 = st.2 := by
    intro xs
    induction xs with
    | nil => intro st _; rfl
    | cons l xs ih =>
      intro st hc
      rw [List.foldl_cons, ih _ fun k args hm => hc k args (List.mem_cons_of_mem _ hm)]
      cases l <;> simp only [recordStep]
      rename_i v k args
      by_cases hv : v = u
      · subst hv; exact absurd List.mem_cons_self (hc _ _)
      · cases prog[k]? <;> simp [hv]
  have he : mustRecord prog u (calls (ls ++ ls')) = mustRecord prog u (calls ls) := by
    rw [show calls (ls ++ ls') = calls ls ++ calls ls' by simp [calls, List.filterMap_append]]
    simp only [mustRecord, List.foldl_append]
    refine hlev _ _ fun k args hm => ?_
    simp only [calls, List.mem_filterMap] at hm
    obtain ⟨x, hx1, hx2⟩ := hm
    split at hx2
    · cases hx2; exact hcall _ _ hx1
    · cases hx2
  have hlen : finished u ls = (mustRecord prog u (calls ls)).length := by
    obtain ⟨s0, als, ⟨G, kls, r, τ, held, hR⟩, -⟩ := h.sim hP h0
    have hk := (hR.thr u).buf.pending hbuf
    have h1 := (hR.obs u).ret
    have h2 := (hR.obs u).rcd
    rw [hk] at h1 h2
    simp only [lagR, List.append_nil, List.length_nil, Nat.add_zero] at h1 h2
    have hpc : ((c.rt.over G).thr u).pc = .idle ∨ ((c.rt.over G).thr u).pc = .exited := by
      show (G.thr u).pc = .idle ∨ (G.thr u).pc = .exited
      rw [(hR.thr u).sync hk, aim]
      split
      · exact .inl rfl
      · exact hidle
    have h3 := ((C33_recorded hR.exec.rt u).1 hpc).length_eq
    rw [returned_log hR.exec.rt u] at h3
    rw [h1, h2]; omega
  have hn := n1 hbuf
  rw [he] at n2 n3
  rw [List.take_of_length_le (by omega)] at n3
  exact ⟨msgs, n3, n4, n5⟩

/-- **C77**, after the destructor: no step changes a file, and the background thread does nothing. -/
theorem C77_final (hP : ProgOK cfg prog) (h0 : 0 < cfg.staging) (h : CrExec cfg prog ls c)
    (hd : (Cd.mk c .alive).act cfg prog (.destroy t) = .ok d1)
    (hr : d1.run cfg prog (ls'.map .cr) = .ok d2) (hok : ∀ l ∈ ls', l.OK cfg prog)
    (hf : d2.act cfg prog .finish = .ok d3) {ds : List CdLbl} (hr' : d3.run cfg prog ds = .ok d4) :
    d4.cr.rt.files = d3.cr.rt.files ∧ d4.cr.rt.mem = d3.cr.rt.mem ∧
    ∀ l ∈ ds, ∃ l', l = .cr l' ∧ l'.ofBg = false ∧ (∀ i, l' ≠ .look i) ∧ ∀ n, l' ≠ .rt (.disk n) := by
  obtain ⟨-, -, -, hE⟩ := cd_exec h hd hr hok
  obtain ⟨t', -, -, hdead, rfl⟩ := cd_finish hf
  obtain ⟨s0, als, ⟨G, kls, r, τ, held, hR⟩, -⟩ := hE.sim hP h0
  have htg : d2.cr.tgt = none := by
    cases hx : d2.cr.tgt with
    | none => rfl
    | some u =>
      have := (hR.cc.tgt u hx).1
      rw [hdead] at this; cases this
  have haio : d2.cr.rt.aio = none := by
    have hg : (d2.cr.rt.over G).pc = .dead := by
      show G.pc = _
      rw [(hR.cc.none htg).1, hdead]
    exact (hR.exec.inv hP).1.pcAio (.inr (.inr hg))
  clear hr hf hE hR hd
  revert hdead htg haio hr'
  generalize d2.cr = e
  intro hdead hr' htg haio
  induction ds generalizing e with
  | nil => cases hr'; exact ⟨rfl, rfl, fun _ h => by cases h⟩
  | cons l ds ih =>
    simp only [Cd.run] at hr'
    split at hr' <;> try cases hr'
    rename_i d5 hx
    have key : ∃ l', l = .cr l' ∧ d5.ph = .done ∧ d5.cr.rt.disk = e.rt.disk ∧ d5.cr.rt.closed = e.rt.closed ∧
        d5.cr.rt.mem = e.rt.mem ∧ d5.cr.rt.pc = .dead ∧ d5.cr.rt.aio = none ∧ d5.cr.tgt = none ∧ l'.ofBg = false ∧
        (∀ i, l' ≠ .look i) ∧ ∀ n, l' ≠ .rt (.disk n) := by
      cases l with
      | destroy t => simp [Cd.act] at hx
      | finish => simp [Cd.act] at hx
      | cr l' =>
        refine ⟨l', rfl, ?_⟩
        simp only [Cd.act, Cd.actCr] at hx
        cases ha : e.act cfg prog l' with
        | off => rw [ha] at hx; cases hx
        | ub => rw [ha] at hx; cases hx
        | ok e' =>
          rw [ha] at hx
          cases l' with
          | rt l' =>
            simp only [Cd.next, DPhase.step] at hx
            cases hm : l'.member with
            | true => rw [hm] at hx; cases hx
            | false =>
              rw [hm] at hx
              simp only [Bool.false_eq_true, if_false] at hx
              cases hx
              simp only [Cr.act, Cr.actRt, Cr.lift] at ha
              cases l' <;> simp only [Lbl.member, Bool.true_eq_false] at hm <;>
                simp only [Lbl.replaced, Lbl.locks, if_true, Bool.false_eq_true, if_false, Rt.act, Rt.actLog, Rt.actBuf,
                  Rt.actScan, Rt.actIo, hdead, haio] at ha
              all_goals first
                | (exfalso; revert ha; simp; done)
                | ((repeat' split at ha)
                   all_goals first
                     | (cases ha; done)
                     | (rename_i hq; (repeat' split at hq)
                        all_goals first
                          | (cases hq; done)
                          | (rw [← COut.ok.inj ha, ← Out.ok.inj hq]
                             exact ⟨rfl, rfl, rfl, rfl, hdead, haio, htg, rfl, fun _ h => (by cases h), fun _ h => (by cases h)⟩)))
          | peek | look i | encode jk more | check => simp [Cr.act, Cr.actBg, hdead] at ha
          | follow => simp [Cr.act, Cr.actBg, htg] at ha
          | write u a | finish u | exit u | store u | storeC u =>
            cases hx
            simp only [Cr.act, Cr.actThr] at ha
            (repeat' split at ha)
            all_goals first
              | (cases ha; done)
              | (rw [← COut.ok.inj ha]
                 exact ⟨rfl, rfl, rfl, rfl, hdead, haio, htg, rfl, fun _ h => (by cases h), fun _ h => (by cases h)⟩)
    obtain ⟨l', rfl, q1, q2, q3, q4, q5, q6, q7, q8, q9⟩ := key
    obtain ⟨c5, p5⟩ := d5
    simp only at q1 q2 q3 q4 q5 q6 q7
    subst q1
    obtain ⟨r1, r2, r3⟩ := ih c5 q5 hr' q7 q6
    refine ⟨by rw [r1]; simp only [Rt.files, q2, q3], by rw [r2]; exact q4, fun l hl => ?_⟩
    rcases List.mem_cons.1 hl with rfl | hl
    · exact ⟨l', rfl, q8, q9⟩
    · exact r3 l hl

/-- **C77**: until the end of the destructor nothing undefined happens as long as no other thread is in `setLogFile`. -/
theorem C77_no_undefined (hP : ProgOK cfg prog) (h0 : 0 < cfg.staging) (h : CrExec cfg prog ls c)
    (hd : (Cd.mk c .alive).act cfg prog (.destroy t) = .ok d1)
    (hr : d1.run cfg prog (ls'.map .cr) = .ok d2) (hok : ∀ l ∈ ls', l.OK cfg prog) {l : CdLbl}
    (hl : ∀ l', l = .cr l' → l'.OK cfg prog ∧ ∀ u jk k, l' = .rt (.join u jk k) → u = t) :
    d2.act cfg prog l ≠ .ub := by
  obtain ⟨-, -, hph, jk, k, c0, i1, i2, i3, i4, i5⟩ := cd_exec h hd hr hok
  obtain ⟨c2, p2⟩ := d2
  simp only at hph i5
  subst hph
  intro hu
  cases l with
  | destroy u => simp [Cd.act] at hu
  | finish =>
    simp only [Cd.act] at hu
    split at hu <;> cases hu
  | cr l' =>
    obtain ⟨l1, l2⟩ := hl l' rfl
    simp only [Cd.act, Cd.actCr] at hu
    cases ha : c2.act cfg prog l' with
    | off => rw [ha] at hu; cases hu
    | ub =>
      refine C66_no_ub hP h0 (ls := (ls ++ .rt (.setFile t true) :: ls') ++ [l']) i1 i2 i3 ?_ ?_
      · intro x hx
        rcases List.mem_append.1 hx with hx | hx
        · exact i4 x hx
        · rw [List.mem_singleton.1 hx]; exact l1
      · exact cr_run_then i5 ha
    | ok c3 =>
      rw [ha] at hu
      cases l' with
      | rt l' =>
        simp only [Cd.next, DPhase.step] at hu
        cases l' with
        | join u jk k => simp [Lbl.joins, l2 u jk k rfl] at hu
        | _ => simp [Lbl.joins] at hu
      | _ => simp [Cd.next] at hu

end

/-! ## Concrete executions -/

/-- The main thread logs `x=-5` and leaves `main`; its thread-local objects are destroyed. -/
def exCdMain : List CLbl := exCr1 ++ exCrDrain 1 22 ++ [.exit 1, .store 1]

/-- While the destructor waits, the message is encoded and written and the buffer of the main thread is deleted; then the
background thread ends. -/
def exCdEnd : List CLbl :=
  exRt [.top, .dict false] ++ exRead 20 ++ exRt [.scanned none, .aio, .write, .top, .dict false] ++
  [.peek, .follow, .check, .check] ++ exRt [.scanned none, .top, .dict false] ++ [.peek] ++
  exRt [.scanned none, .disk 79, .aio, .aioDone (some 3), .write, .ret 3, .stop 3, .top]

/-- Afterwards another thread, which had allocated no buffer, ends. -/
def exCdAfter : List CLbl := [.exit 4]

/-- Run `ls`, the destructor in thread `t` with `ls'`, then `ls''`, and test the states. -/
def exCdCheck (ls : List CLbl) (t : Nat) (ls' ls'' : List CLbl) (p : Cr → Cd → Cd → Bool) : Bool :=
  match Cr.init exCfg 0 exCk with
  | some c0 =>
    match c0.run exCfg exSites ls with
    | .ok c =>
      match (Cd.mk c .alive).act exCfg exSites (.destroy t) with
      | .ok d1 =>
        match d1.run exCfg exSites (ls'.map .cr) with
        | .ok d2 =>
          match d2.act exCfg exSites .finish with
          | .ok d3 =>
            match d3.run exCfg exSites (ls''.map .cr) with
            | .ok d4 => p c d3 d4
            | _ => false
          | _ => false
        | _ => false
      | _ => false
    | _ => false
  | none => false

theorem exCdCheck_ok {ls ls' ls'' : List CLbl} {t : Nat} {p : Cr → Cd → Cd → Bool} (hl : ls.all exCLbl = true)
    (hl' : ls'.all exCLbl = true) (h : exCdCheck ls t ls' ls'' p = true) :
    ∃ c d1 d2 d3 d4, CrExec exCfg exSites ls c ∧ (Cd.mk c .alive).act exCfg exSites (.destroy t) = .ok d1 ∧
      d1.run exCfg exSites (ls'.map .cr) = .ok d2 ∧ (∀ l ∈ ls', l.OK exCfg exSites) ∧
      d2.act exCfg exSites .finish = .ok d3 ∧ d3.run exCfg exSites (ls''.map .cr) = .ok d4 ∧ p c d3 d4 = true := by
  have hok : ∀ {ls : List CLbl}, ls.all exCLbl = true → ∀ l ∈ ls, l.OK exCfg exSites := by
    intro ls hl l hm
    have := List.all_eq_true.1 hl l hm
    cases l <;> first | exact exLbl_ok this | trivial
  unfold exCdCheck at h
  split at h <;> try cases h
  rename_i c0 hc0
  split at h <;> try cases h
  rename_i c hc
  split at h <;> try cases h
  rename_i d1 hd1
  split at h <;> try cases h
  rename_i d2 hd2
  split at h <;> try cases h
  rename_i d3 hd3
  split at h <;> try cases h
  rename_i d4 hd4
  exact ⟨c, d1, d2, d3, d4, ⟨0, exCk, c0, exCk_plain, by decide, hc0, hok hl, hc⟩, hd1, hd2, hok hl', hd3, hd4, h⟩

/-- Case for `C77_end_partial`, `C77_complete_partial`, `C77_final` and `C77_no_undefined`: before the destructor there is nothing in the file. -/
example : ∃ c d1 d2 d3 d4, CrExec exCfg exSites exCdMain c ∧ (Cd.mk c .alive).act exCfg exSites (.destroy 3) = .ok d1 ∧
    d1.run exCfg exSites (exCdEnd.map .cr) = .ok d2 ∧ (∀ l ∈ exCdEnd, l.OK exCfg exSites) ∧
    d2.act exCfg exSites .finish = .ok d3 ∧ d3.run exCfg exSites (exCdAfter.map .cr) = .ok d4 ∧
    .rt (.spurious 3) ∉ exCdEnd ∧ allocs (calls (exCdMain ++ exCdEnd)) ≤ 1 ∧ (c.sb 1).buf = [] ∧
    (d3.cr.rt.thr 1).bid = some 0 ∧ (c.rt.thr 1).pc = .exited ∧ (∀ k args, .rt (.call 1 k args) ∉ exCdEnd) ∧
    finished 1 exCdMain = 1 ∧ c.rt.files = [[]] ∧ (d3.cr.rt.thr 1).freed = true ∧
    (d3.cr.rt.files.map (orderedFile 265 (Objs.new 265))).map (Option.map (List.map OutMsg.ts)) = [some [1000]] := by
  obtain ⟨c, d1, d2, d3, d4, h1, h2, h3, h4, h5, h6, hp⟩ := exCdCheck_ok (ls := exCdMain) (ls' := exCdEnd) (ls'' := exCdAfter)
    (t := 3) (p := fun c d3 _ => (c.sb 1).buf = [] && (d3.cr.rt.thr 1).bid = some 0 && (c.rt.thr 1).pc = .exited && c.rt.files = [[]] &&
      (d3.cr.rt.thr 1).freed &&
      (d3.cr.rt.files.map (orderedFile 265 (Objs.new 265))).map (Option.map (List.map OutMsg.ts)) = [some [1000]])
    (by decide +kernel) (by decide +kernel) (by decide +kernel)
  simp only [Bool.and_eq_true, decide_eq_true_eq] at hp
  obtain ⟨⟨⟨⟨⟨p1, p2⟩, p3⟩, p4⟩, p5⟩, p6⟩ := hp
  have hn : exCdEnd.all (fun l => match l with | .rt (.spurious _) | .rt (.call ..) => false | _ => true) = true := by
    decide +kernel
  refine ⟨c, d1, d2, d3, d4, h1, h2, h3, h4, h5, h6, fun h => ?_, by decide +kernel, p1, p2, p3, fun k args h => ?_,
    by decide +kernel, p4, p5, p6⟩
  · have := List.all_eq_true.1 hn _ h
    cases this
  · have := List.all_eq_true.1 hn _ h
    cases this

end NanoLog
