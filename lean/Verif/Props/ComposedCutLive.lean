import Verif.Props.ComposedCut
import Verif.Props.ComposedDestroyLive

/-!
# C80: complete output, and fair executions, when threads have ended
-/

namespace NanoLog

section
variable {cfg : Config} {prog : List Site} {ls ls' : List CLbl} {c c1 c2 : Cr} {d1 d2 d3 : Cd} {t : Nat}

theorem cr_trace_cat {c c' : Cr} {a b : List CLbl} (h : c.run cfg prog a = .ok c') :
    c.trace cfg prog (a ++ b) = c.trace cfg prog a ++ c'.trace cfg prog b := by
  induction a generalizing c with
  | nil => cases h; rfl
  | cons l a ih =>
    simp only [Cr.run] at h
    split at h <;> try cases h
    rename_i s1 ha
    simp only [List.cons_append, Cr.trace, ha, ih h]

theorem record_flat {u : Nat} (xs : List Lbl) (st : Int × List (Nat × List Arg)) (hc : ∀ k args, .call u k args ∉ xs) :
    (xs.foldl (recordStep prog u) st).2 = st.2 := by
  induction xs generalizing st with
  | nil => rfl
  | cons l xs ih =>
    rw [List.foldl_cons, ih _ fun k args hm => hc k args (List.mem_cons_of_mem _ hm)]
    cases l <;> simp only [recordStep]
    rename_i v k args
    by_cases hv : v = u
    · subst hv; exact absurd List.mem_cons_self (hc _ _)
    · cases prog[k]? <;> simp [hv]

/-- A thread outside of log statements, with its stores in memory, has finished all calls it has to record; if it logs nothing
afterwards, no other calls are to be recorded. -/
theorem idle_calls (hP : ProgOK cfg prog) (h0 : 0 < cfg.staging) (h : CrExec cfg prog ls c) {u : Nat}
    (hidle : (c.rt.thr u).pc = .idle ∨ (c.rt.thr u).pc = .exited) (hbuf : (c.sb u).buf = [])
    (hcall : ∀ k args, .rt (.call u k args) ∉ ls') :
    mustRecord prog u (calls (ls ++ ls')) = mustRecord prog u (calls ls) ∧
      finished u ls = (mustRecord prog u (calls ls)).length := by
  constructor
  · rw [show calls (ls ++ ls') = calls ls ++ calls ls' by simp [calls, List.filterMap_append]]
    simp only [mustRecord, List.foldl_append]
    refine record_flat _ _ fun k args hm => ?_
    simp only [calls, List.mem_filterMap] at hm
    obtain ⟨x, hx1, hx2⟩ := hm
    split at hx2
    · cases hx2; exact hcall _ _ hx1
    · cases hx2
  · obtain ⟨s0, als, ⟨G, kls, r, τ, held, hR⟩, -⟩ := h.sim hP h0
    have hk := (hR.thr u).buf.pending hbuf
    have h1 := (hR.obs u).ret
    have h2 := (hR.obs u).rcd
    rw [hk] at h1 h2
    simp only [lagR, List.append_nil, List.length_nil, Nat.add_zero] at h1 h2
    have hpc : ((c.rt.over G).thr u).pc = .idle ∨ ((c.rt.over G).thr u).pc = .exited := by
      show (G.thr u).pc = .idle ∨ (G.thr u).pc = .exited
      rw [(hR.thr u).sync hk, aim]
      split
      · exact .inl rfl
      · exact hidle
    have h3 := ((C33_recorded hR.exec.rt u).1 hpc).length_eq
    rw [returned_log hR.exec.rt u] at h3
    rw [h1, h2]; omega

/-- **C80**, for threads that are outside of log statements (or have ended), with their stores in memory, when the destructor
begins, and log nothing afterwards: exactly their recorded calls are printed.  What is missing: see `C80_end_partial`. -/
theorem C80_complete_partial (hP : ProgOK cfg prog) (h0 : 0 < cfg.staging) (h : CrExec cfg prog ls c)
    (hd : (Cd.mk c .alive).act cfg prog (.destroy t) = .ok d1)
    (hr : d1.run cfg prog (ls'.map .cr) = .ok d2) (hok : ∀ l ∈ ls', l.OK cfg prog)
    (hf : d2.act cfg prog .finish = .ok d3) (hs : .rt (.spurious t) ∉ ls')
    (hnd : ∀ p ∈ d1.cr.trace cfg prog ls', ¬ CutsPass cfg prog p) (hn : allocs (calls (ls ++ ls')) ≤ 2 ^ 32)
    {o : Objs} (hu : Used (cfg.staging + 9) o) :
    ∃ outs : List (List OutMsg), d3.cr.rt.files.map (orderedFile (cfg.staging + 9) o) = outs.map some ∧
      (∀ u b, (d3.cr.rt.thr u).bid = some b → (c.rt.thr u).pc = .idle ∨ (c.rt.thr u).pc = .exited → (c.sb u).buf = [] →
        (∀ k args, .rt (.call u k args) ∉ ls') → ∃ msgs,
        List.Forall₂ (MsgOf prog b) (mustRecord prog u (calls ls)) msgs ∧
        (outs.flatten.filter fun m => m.tid == b).Perm msgs ∧
        ((stamps u (calls (ls ++ ls'))).Pairwise (· < ·) → (outs.flatten.filter fun m => m.tid == b) = msgs)) ∧
      ∀ m ∈ outs.flatten, ∃ u, (d3.cr.rt.thr u).bid = some m.tid := by
  obtain ⟨outs, g1, g2, g3⟩ := C80_end_partial hP h0 h hd hr hok hf hs hnd hn hu
  refine ⟨outs, g1, fun u b hb hidle hbuf hcall => ?_, g3⟩
  obtain ⟨n, msgs, n1, n2, n3, n4, n5⟩ := g2 u b hb
  obtain ⟨he, hlen⟩ := idle_calls hP h0 h hidle hbuf hcall
  have hn := n1 hbuf
  rw [he] at n2 n3
  rw [List.take_of_length_le (by omega)] at n3
  exact ⟨msgs, n3, n4, n5⟩

/-- The steps of the destructor in an infinite execution, with the states in which they happen. -/
theorem CdRun.traced (r : CdRun cfg prog) {K J t : Nat} (hd : r.lbl K = some (.destroy t)) (hJ : K < J)
    (hf : r.lbl J = some .finish) {ls' : List CLbl} (hl : r.labels J = r.labels K ++ ls') :
    ∀ p ∈ (r.σ (K + 1)).cr.trace cfg prog ls', ∃ j > K, r.lbl j = some (.cr p.2) ∧ (r.σ j).cr = p.1 := by
  have hb := r.act_of hd
  have hph : (r.σ (K + 1)).ph = .running t := by
    cases hx : r.σ K with
    | mk c ph =>
      rw [hx] at hb
      cases ph with
      | alive => exact (cd_destroy hb).2.1
      | running u => simp [Cd.act] at hb
      | done => simp [Cd.act] at hb
  have key : ∀ j, K < j → (∀ i, K < i → i < j → r.lbl i ≠ some .finish) → (r.σ j).ph = .running t ∧
      ∃ ls', r.labels j = r.labels K ++ ls' ∧ (r.σ (K + 1)).cr.run cfg prog ls' = .ok (r.σ j).cr ∧
      ∀ p ∈ (r.σ (K + 1)).cr.trace cfg prog ls', ∃ i > K, r.lbl i = some (.cr p.2) ∧ (r.σ i).cr = p.1 := by
    intro j hj
    induction j, hj using Nat.le_induction with
    | base =>
      intro _
      refine ⟨hph, [], ?_, rfl, by simp [Cr.trace]⟩
      rw [r.labels_succ, hd]
      rfl
    | succ j hj ih =>
      intro hn
      obtain ⟨h1, ls', h2, h3, h4⟩ := ih fun i a b => hn i a (by omega)
      have hs := r.step j
      cases hl : r.lbl j with
      | none =>
        rw [hl] at hs; simp only at hs
        refine ⟨by rw [hs]; exact h1, ls', ?_, by rw [hs]; exact h3, h4⟩
        rw [r.labels_succ, hl, h2]
        simp
      | some l =>
        have ha := r.act_of hl
        cases hx : r.σ j with
        | mk cj ph =>
        rw [hx] at ha h1 h3
        simp only at h1 h3
        subst h1
        cases l with
        | finish => exact absurd hl (hn j (by omega) (by omega))
        | destroy u => simp [Cd.act] at ha
        | cr l =>
          obtain ⟨k1, k2, -⟩ := cd_run_running (ls := [l]) (show (Cd.mk cj (.running t)).run cfg prog ([l].map .cr) = .ok (r.σ (j + 1)) by
            simp only [List.map_cons, List.map_nil, Cd.run, ha])
          refine ⟨k2, ls' ++ [l], ?_, ?_, fun p hp => ?_⟩
          · rw [r.labels_succ, hl, h2]
            simp [CdLbl.plain]
          · rw [Cr.run_app h3 k1]
          · rw [cr_trace_cat h3, List.mem_append] at hp
            rcases hp with hp | hp
            · exact h4 p hp
            · have : p = (cj, l) := by
                simp only [Cr.trace] at hp
                split at hp <;> simpa using hp
              subst this
              exact ⟨j, by omega, hl, by rw [hx]⟩
  have huniq : ∀ i, K < i → i < J → r.lbl i ≠ some .finish := by
    intro i h1 h2 hl
    obtain ⟨-, -, -, -, e⟩ := cd_finish (r.act_of hl)
    have hst : ∀ j, i + 1 ≤ j → (r.σ j).ph = .done := by
      intro j hj
      induction j, hj using Nat.le_induction with
      | base => rw [e]
      | succ j hj ih =>
        have hs := r.step j
        cases hl : r.lbl j with
        | none => rw [hl] at hs; simp only at hs; rw [hs]; exact ih
        | some l =>
          have ha := r.act_of hl
          cases hx : r.σ j with
          | mk s ph =>
            rw [hx] at ha ih
            simp only at ih
            subst ih
            exact cd_done ha
    obtain ⟨t', h3, -⟩ := cd_finish (r.act_of hf)
    rw [hst J (by omega)] at h3
    cases h3
  obtain ⟨-, ls2, h1, -, h3⟩ := key J hJ huniq
  obtain rfl : ls2 = ls' := List.append_cancel_left (h1.symm.trans hl)
  exact h3

/-- **C80**, fair executions, whatever threads have ended: as in `C78_returns_partial` the destructor ends, and from then on, for
ever, the ordered decompressor prints for every thread its first calls, among them all that had returned, with their stores in
memory, when the destructor began; and exactly the recorded calls of the threads that were outside of log statements then and
log nothing afterwards.  What is missing: see `C78_returns_partial` and `C80_end_partial`. -/
theorem C80_fair_partial (hP : ProgOK cfg prog) (hL : LiveOK cfg prog) (h0 : 0 < cfg.staging)
    (r : CdRun cfg prog) (hF : r.Fair) {K t : Nat} (hd : r.lbl K = some (.destroy t))
    (hq0 : ∀ j > K, ∀ u, (r.lbl j = some (.cr (.rt (.stop u))) → u = t) ∧
      ∀ jk c, r.lbl j ≠ some (.cr (.rt (.join u jk c))))
    {K' : Nat} (hK : K < K') (hq : ∀ j ≥ K', ∀ l, r.lbl j = some (.cr l) →
      (∀ m, l = .rt m → m.quiet = true ∨ m = .stop t) ∧ ∀ u, l ≠ .finish u)
    (he : (r.σ K).cr.rt.exit = false) (hs : ∀ j > K, r.lbl j ≠ some (.cr (.rt (.spurious t))))
    (hnd : ∀ j > K, ∀ l, r.lbl j = some (.cr l) → ¬ CutsPass cfg prog ((r.σ j).cr, l))
    (hn : ∀ j, allocs (calls (r.labels j)) ≤ 2 ^ 32) :
    ∃ J > K, r.lbl J = some .finish ∧ ∀ j > J, ∀ o, Used (cfg.staging + 9) o →
      ∃ outs : List (List OutMsg), (r.σ j).cr.rt.files.map (orderedFile (cfg.staging + 9) o) = outs.map some ∧
        (∀ u b, ((r.σ J).cr.rt.thr u).bid = some b → ∃ n msgs,
          (((r.σ K).cr.sb u).buf = [] → finished u (r.labels K) ≤ n) ∧
          (((r.σ K).cr.rt.thr u).pc = .idle ∨ ((r.σ K).cr.rt.thr u).pc = .exited → ((r.σ K).cr.sb u).buf = [] →
            (∀ i > K, ∀ k args, r.lbl i ≠ some (.cr (.rt (.call u k args)))) →
            (mustRecord prog u (calls (r.labels J))).take n = mustRecord prog u (calls (r.labels K))) ∧
          n ≤ (mustRecord prog u (calls (r.labels J))).length ∧
          List.Forall₂ (MsgOf prog b) ((mustRecord prog u (calls (r.labels J))).take n) msgs ∧
          (outs.flatten.filter fun m => m.tid == b).Perm msgs ∧
          ((stamps u (calls (r.labels J))).Pairwise (· < ·) → (outs.flatten.filter fun m => m.tid == b) = msgs)) ∧
        ∀ m ∈ outs.flatten, ∃ u, ((r.σ J).cr.rt.thr u).bid = some m.tid := by
  obtain ⟨J, hJ, hf⟩ := C78_returns_partial hP hL h0 r hF hd hq0 hK hq he
  obtain ⟨e1, e2, ls', e3, e4, e5, e6, e7⟩ := r.ended hd hJ hf
  refine ⟨J, hJ, hf, fun j hj o hu => ?_⟩
  obtain ⟨ds, hds⟩ := r.later (show J + 1 ≤ j by omega)
  have hfin := (C77_final hP h0 e1 e2 e4 e5 e7 hds).1
  have := C80_end_partial hP h0 e1 e2 e4 e5 e7
    (fun hm => by obtain ⟨i, h1, h2⟩ := e6 _ hm; exact hs i h1 h2)
    (fun p hp => by
      obtain ⟨i, h1, h2, h3⟩ := r.traced hd hJ hf e3 p hp
      have := hnd i h1 _ h2
      rw [h3] at this
      exact this) (by rw [← e3]; exact hn J) hu
  obtain ⟨t', -, -, -, e8⟩ := cd_finish e7
  rw [← e3, ← hfin] at this
  rw [e8] at this
  obtain ⟨outs, g1, g2, g3⟩ := this
  refine ⟨outs, g1, fun u b hb => ?_, g3⟩
  obtain ⟨n, msgs, n1, n2, n3⟩ := g2 u b hb
  refine ⟨n, msgs, n1, fun hidle hbuf hcall => ?_, n2, n3⟩
  obtain ⟨he, hlen⟩ := idle_calls (ls' := ls') hP h0 e1 hidle hbuf fun k args hm => by
    obtain ⟨i, h1, h2⟩ := e6 _ hm
    exact hcall i h1 k args h2
  have hn := n1 hbuf
  rw [e3, he, List.take_of_length_le (by omega)]

end

/-! ## Concrete execution -/

/-- At most one staging buffer is in the list before each step. -/
def cdFew (d : Cd) : List CdLbl → Bool
  | [] => true
  | l :: ls =>
    decide (d.cr.rt.bufs.length ≤ 1) &&
    match d.act exCfg exSites l with
    | .ok d1 => cdFew d1 ls
    | _ => false

theorem cdFew_at {ds : List CdLbl} {d d1 : Cd} {a : List CdLbl} {l : CdLbl} (h : d.run exCfg exSites a = .ok d1)
    (hn : cdFew d (a ++ l :: ds) = true) : d1.cr.rt.bufs.length ≤ 1 := by
  induction a generalizing d with
  | nil =>
    cases h
    simp only [List.nil_append, cdFew, Bool.and_eq_true, decide_eq_true_eq] at hn
    exact hn.1
  | cons x a ih =>
    simp only [Cd.run] at h
    split at h <;> try cases h
    rename_i d' ha
    simp only [List.cons_append, cdFew, ha, Bool.and_eq_true] at hn
    exact ih h hn.2

/-- Then the main thread, thread 2, leaves `main`. -/
def exGoneMain : List CLbl := exGone ++ [.exit 2, .store 2]

/-- The life of a process: thread 1 logs and ends, its buffer is deleted, the main thread logs and ends, the destructor. -/
def exGoneWhole : List CdLbl := exGoneMain.map .cr ++ .destroy 3 :: exGoneEnd.map .cr ++ [.finish]

/-- Case for `C80_fair_partial` and `C80_complete_partial`. -/
example : ∃ (r : CdRun exCfg exSites) (K K' : Nat), r.Fair ∧ r.lbl K = some (.destroy 3) ∧ K < K' ∧
    (∀ j > K, ∀ u, (r.lbl j = some (.cr (.rt (.stop u))) → u = 3) ∧
      ∀ jk c, r.lbl j ≠ some (.cr (.rt (.join u jk c)))) ∧
    (∀ j ≥ K', ∀ l, r.lbl j = some (.cr l) → (∀ m, l = .rt m → m.quiet = true ∨ m = .stop 3) ∧ ∀ u, l ≠ .finish u) ∧
    (r.σ K).cr.rt.exit = false ∧ (∀ j > K, r.lbl j ≠ some (.cr (.rt (.spurious 3)))) ∧
    (∀ j > K, ∀ l, r.lbl j = some (.cr l) → ¬ CutsPass exCfg exSites ((r.σ j).cr, l)) ∧
    (∀ j, allocs (calls (r.labels j)) ≤ 2) ∧ finished 1 (r.labels K) = 2 ∧ finished 2 (r.labels K) = 1 ∧
    ((r.σ K).cr.rt.thr 1).freed = true ∧ ((r.σ K).cr.rt.thr 2).pc = .exited ∧ ((r.σ K).cr.sb 2).buf = [] ∧
    ∀ i > K, ∀ k args, r.lbl i ≠ some (.cr (.rt (.call 2 k args))) := by
  have hc : (match Cr.init exCfg 0 exCk with
    | some c0 =>
      cdNotifies (Cd.mk c0 .alive) exGoneWhole &&
      (match (Cd.mk c0 .alive).run exCfg exSites exGoneWhole with
       | .ok d => cdEndedB d
       | _ => false) && cdFew (Cd.mk c0 .alive) exGoneWhole &&
      (match (Cd.mk c0 .alive).run exCfg exSites (exGoneWhole.take exGoneMain.length) with
       | .ok d => !d.cr.rt.exit && (d.cr.rt.thr 1).freed && (d.cr.rt.thr 2).pc == .exited && (d.cr.sb 2).buf.isEmpty
       | _ => false)
    | none => false) = true := by decide +kernel
  split at hc
  swap
  · cases hc
  rename_i c0 h0
  simp only [Bool.and_eq_true] at hc
  obtain ⟨⟨⟨c1, c2⟩, c4⟩, c3⟩ := hc
  split at c2 <;> try cases c2
  rename_i d hd
  obtain ⟨r, hF, hl, hσ⟩ := exCdEnded h0 (by decide +kernel) (by decide +kernel) hd c2 c1
  rw [hσ exGoneMain.length (by decide +kernel)] at c3
  simp only [Bool.and_eq_true, Bool.not_eq_true', beq_iff_eq, List.isEmpty_iff] at c3
  have hm : ∀ n j, n ≤ j → ∀ l, r.lbl j = some l → l ∈ exGoneWhole.drop n := by
    intro n j hj l hx
    rw [hl] at hx
    refine List.mem_of_getElem? (i := j - n) ?_
    rw [List.getElem?_drop, show n + (j - n) = j by omega, hx]
  have hlab : ∀ k, r.labels k = (exGoneWhole.take k).filterMap CdLbl.plain := by
    intro k
    induction k with
    | zero => rfl
    | succ k ih =>
      rw [r.labels_succ, ih, hl k, List.take_add_one, List.filterMap_append]
      cases h : exGoneWhole[k]? with
      | none => simp
      | some l => cases h2 : l.plain <;> simp [h2]
  have hq : ((exGoneWhole.drop (exGoneMain.length + 1)).all fun l => match l with
      | .cr (.rt (.stop t)) => t == 3
      | .cr (.rt m) => m.quiet && (match m with | .spurious _ | .call _ _ _ => false | _ => true)
      | .cr (.finish _) => false
      | _ => true) = true := by decide +kernel
  have h7 : r.lbl exGoneMain.length = some (.destroy 3) := by
    rw [hl, exGoneWhole, List.append_assoc, List.getElem?_append_right (by rw [List.length_map]), List.length_map, Nat.sub_self]
    rfl
  have h8 : finished 1 (r.labels exGoneMain.length) = 2 := by rw [hlab]; decide +kernel
  have h9 : finished 2 (r.labels exGoneMain.length) = 1 := by rw [hlab]; decide +kernel
  generalize exGoneMain.length = K at h7 h8 h9 hq c3
  refine ⟨r, K, K + 1, hF, h7, by omega, fun j hj u => ?_,
    fun j hj l hx => ?_, c3.1.1.1, fun j hj hx => ?_, fun j hj l hx hcut => ?_, fun j => ?_, h8, h9, c3.1.1.2, c3.1.2, c3.2,
    fun i hi k args hx => ?_⟩
  · exact ⟨fun hx => by simpa using List.all_eq_true.1 hq _ (hm _ j hj _ hx),
      fun jk c hx => by simpa [Lbl.quiet] using List.all_eq_true.1 hq _ (hm _ j hj _ hx)⟩
  · have h1 := List.all_eq_true.1 hq _ (hm _ j hj _ hx)
    refine ⟨fun m e => ?_, fun u e => ?_⟩
    · subst e
      cases m <;> simp_all
    · subst e; simp at h1
  · simpa [Lbl.quiet] using List.all_eq_true.1 hq _ (hm _ j hj _ hx)
  · rw [hl] at hx
    have hlt := (List.getElem?_eq_some_iff.1 hx).1
    have hcat : exGoneWhole = exGoneWhole.take j ++ .cr l :: exGoneWhole.drop (j + 1) := by
      rw [← (List.getElem?_eq_some_iff.1 hx).2, ← List.drop_eq_getElem_cons hlt, List.take_append_drop]
    rw [hcat] at c4
    have := cdFew_at (hσ j (by omega)) c4
    have h1 := hcut.2.2.1
    simp only at h1
    omega
  · have h1 : allocs (calls (exGoneWhole.filterMap CdLbl.plain)) = 2 := by decide +kernel
    rw [← h1, hlab]
    have h2 : exGoneWhole = exGoneWhole.take j ++ exGoneWhole.drop j := (List.take_append_drop j _).symm
    conv_rhs => rw [h2]
    simp only [List.filterMap_append, calls, allocs, List.filter_append, List.length_append]
    omega
  · simpa [Lbl.quiet] using List.all_eq_true.1 hq _ (hm _ i hi _ hx)

end NanoLog
