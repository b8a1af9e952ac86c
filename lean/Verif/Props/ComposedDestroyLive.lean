import Verif.Props.ComposedDestroy
import Verif.Props.ComposedQuiet

/-!
# C78: the end of the process is reached, and then everything is in the ordered output

Infinite executions with the destructor, over byte-wise staging buffers.
-/

namespace NanoLog

section
variable {cfg : Config} {prog : List Site}

/-! ## Executions -/

/-- An infinite execution with the destructor; `none`: nothing happens at that time
(runtime/RuntimeLogger.cc:109-136, 348-630; runtime/RuntimeLogger.h:214-520). -/
structure CdRun (cfg : Config) (prog : List Site) where
  σ : Nat → Cd
  lbl : Nat → Option CdLbl
  start : (∃ jk k, k.Plain ∧ jk < 2 ^ 62 ∧ Cr.init cfg jk k = some (σ 0).cr) ∧ (σ 0).ph = .alive
  ok : ∀ k l, lbl k = some (.cr l) → l.OK cfg prog
  step : ∀ k, match lbl k with
    | none => σ (k + 1) = σ k
    | some l => (σ k).act cfg prog l = .ok (σ (k + 1))

/-- The step of the runtime, if it is one. -/
def CdLbl.plain : CdLbl → Option CLbl
  | .cr l => some l
  | _ => none

/-- The steps of the runtime up to `k`. -/
def CdRun.labels (r : CdRun cfg prog) (k : Nat) : List CLbl :=
  (List.range k).filterMap fun i => (r.lbl i).bind CdLbl.plain

/-- A step as a step of the runtime: the beginning of the destructor is that of `setLogFile`
(runtime/RuntimeLogger.cc:110-120 and 651-663). -/
def CdLbl.toCr : CdLbl → Option CLbl
  | .cr l => some l
  | .destroy t => some (.rt (.setFile t true))
  | .finish => none

/-- Fairness as in `CrRun.Fair`; in addition the destructor goes on when the background thread has ended
(runtime/RuntimeLogger.cc:119-120). -/
structure CdRun.Fair (r : CdRun cfg prog) : Prop where
  bg : ∀ k, ∃ j ≥ k, (∃ l, r.lbl j = some (.cr l) ∧ l.ofBg = true) ∨ (r.σ j).cr.rt.pc = .dead ∨
    ((r.σ j).cr.rt.pc = .aio ∧ (r.σ j).cr.rt.full = true ∧ ∃ a, (r.σ j).cr.rt.aio = some a ∧ a.done ≠ a.len)
  disk : ∀ k, ∃ j ≥ k, ∀ a, (r.σ j).cr.rt.aio = some a → a.done = a.len
  notify : ∀ k, r.lbl k = some (.cr (.rt (.scanned none))) → (r.σ k).cr.rt.mem (r.σ k).cr.rt.encPtr = [] →
    (r.σ k).cr.rt.status ≠ .requested → (r.σ k).cr.rt.idleStatus = .completed →
    ∀ u sw, ((r.σ k).cr.rt.thr u).pc ≠ .sync sw
  ret : ∀ k t sw, ((r.σ k).cr.rt.thr t).pc = .woken sw → ∃ j ≥ k, r.lbl j = some (.cr (.rt (.ret t)))
  stop : ∀ k t, ((r.σ k).cr.rt.thr t).pc = .stop → ∃ j ≥ k, r.lbl j = some (.cr (.rt (.stop t)))
  join : ∀ k t, (∀ j ≥ k, ((r.σ j).cr.rt.thr t).pc = .join ∧ (r.σ j).cr.rt.pc = .dead ∧ (r.σ j).ph ≠ .running t) →
    (∃ j ≥ k, ∃ jk c, r.lbl j = some (.cr (.rt (.join t jk c)))) ∨ ∃ j, (r.σ j).ph = .done
  finish : ∀ k t, (∀ j ≥ k, ((r.σ j).cr.rt.thr t).pc = .join ∧ (r.σ j).cr.rt.pc = .dead ∧ (r.σ j).ph = .running t) →
    ∃ j ≥ k, r.lbl j = some .finish
  fresh : ∀ k, (∀ j ≥ k, (r.σ j).cr.rt.sites = (r.σ k).cr.rt.sites) →
    ∃ j ≥ k, ∀ i ≥ j, r.lbl i ≠ some (.cr (.rt (.dict true)))
  store : ∀ k t, ((r.σ k).cr.sb t).buf ≠ [] → ∃ j ≥ k, r.lbl j = some (.cr (.store t))

/-! ## Lemmas -/

theorem toCr_step {d d' : Cd} {l : CdLbl} (ha : d.act cfg prog l = .ok d') :
    match l.toCr with
    | none => d'.cr = d.cr
    | some l => d.cr.act cfg prog l = .ok d'.cr := by
  obtain ⟨s, ph⟩ := d
  cases l with
  | finish =>
    obtain ⟨-, -, -, -, rfl⟩ := cd_finish ha
    rfl
  | destroy t =>
    cases ph with
    | alive => exact (cd_destroy ha).1
    | running u => simp [Cd.act] at ha
    | done => simp [Cd.act] at ha
  | cr l =>
    simp only [CdLbl.toCr]
    simp only [Cd.act, Cd.actCr] at ha
    split at ha
    · rename_i s' hs
      rw [hs]
      cases l with
      | rt l =>
        simp only [Cd.next] at ha
        (repeat' split at ha) <;> cases ha
        rfl
      | _ => cases ha; rfl
    · cases ha
    · cases ha

theorem cd_done {c : Cr} {d' : Cd} {l : CdLbl} (ha : (Cd.mk c .done).act cfg prog l = .ok d') : d'.ph = .done := by
  cases l with
  | finish => simp [Cd.act] at ha
  | destroy u => simp [Cd.act] at ha
  | cr l =>
    simp only [Cd.act, Cd.actCr] at ha
    split at ha
    · cases l with
      | rt l =>
        simp only [Cd.next, DPhase.step] at ha
        split at ha
        · rename_i d hd
          split at hd
          · cases hd
          · cases hd; cases ha; rfl
        · cases ha
        · cases ha
      | _ => cases ha; rfl
    · cases ha
    · cases ha

theorem cd_actCr_running {c : Cr} {t : Nat} {d' : Cd} {l : CLbl} (ha : (Cd.mk c (.running t)).act cfg prog (.cr l) = .ok d') :
    d'.ph = .running t := by
  simp only [Cd.act, Cd.actCr] at ha
  split at ha
  · rw [(cd_next_running ha).1]
  · cases ha
  · cases ha

/-- The execution of the runtime. -/
def CdRun.toCr (r : CdRun cfg prog) : CrRun cfg prog where
  σ k := (r.σ k).cr
  lbl k := (r.lbl k).bind CdLbl.toCr
  start := r.start.1
  ok := by
    intro k l hl
    cases h : r.lbl k with
    | none => rw [h] at hl; cases hl
    | some d =>
      rw [h] at hl
      cases d with
      | cr l' => cases hl; exact r.ok k _ h
      | destroy t => cases hl; trivial
      | finish => cases hl
  step := by
    intro k
    have hs := r.step k
    cases h : r.lbl k with
    | none => rw [h] at hs; simp only at hs; simp only [Option.bind_none]; rw [hs]
    | some d =>
      rw [h] at hs
      simp only at hs
      exact toCr_step hs

theorem CdRun.act_of (r : CdRun cfg prog) {j : Nat} {l : CdLbl} (hl : r.lbl j = some l) :
    (r.σ j).act cfg prog l = .ok (r.σ (j + 1)) := by
  have hs := r.step j
  rw [hl] at hs; exact hs

theorem CdRun.labels_succ (r : CdRun cfg prog) (k : Nat) :
    r.labels (k + 1) = r.labels k ++ ((r.lbl k).bind CdLbl.plain).toList := by
  simp only [CdRun.labels, List.range_succ, List.filterMap_append]
  cases h : (r.lbl k).bind CdLbl.plain <;> simp [h]

/-! ## C78 -/

/-- Full claim: the destructor returns in every fair execution (false, as it calls `sync`, see `C52_starved_false`).  Proved here:
it returns if it is called while no thread is in the second part of `setLogFile`, none gets there, and from some time on
no log call returns and neither `sync` nor `setLogFile` is called. -/
theorem C78_returns_partial (hP : ProgOK cfg prog) (hL : LiveOK cfg prog) (h0 : 0 < cfg.staging)
    (r : CdRun cfg prog) (hF : r.Fair) {K t : Nat} (hd : r.lbl K = some (.destroy t))
    (hq0 : ∀ j > K, ∀ u, (r.lbl j = some (.cr (.rt (.stop u))) → u = t) ∧
      ∀ jk c, r.lbl j ≠ some (.cr (.rt (.join u jk c))))
    {K' : Nat} (hK : K < K') (hq : ∀ j ≥ K', ∀ l, r.lbl j = some (.cr l) →
      (∀ m, l = .rt m → m.quiet = true ∨ m = .stop t) ∧ ∀ u, l ≠ .finish u)
    (he : (r.σ K).cr.rt.exit = false) : ∃ j > K, r.lbl j = some .finish := by
  by_contra hno
  have hno' : ∀ j > K, r.lbl j ≠ some .finish := fun j hj h => hno ⟨j, hj, h⟩
  have hact : ∀ {j : Nat} {l : CdLbl}, r.lbl j = some l → (r.σ j).act cfg prog l = .ok (r.σ (j + 1)) := r.act_of
  -- the first step
  have hb := hact hd
  have hal : (r.σ K).ph = .alive ∧ ((r.σ (K + 1)).cr.rt.thr t).pc = .sync true ∧
      (r.σ (K + 1)).ph = .running t ∧ (r.σ (K + 1)).cr.rt.exit = false := by
    simp only [Cd.act] at hb
    split at hb
    · rename_i h1 h2
      split at hb
      · rw [← CdOut.ok.inj hb]
        exact ⟨h1, by simp [Rt.setThr], rfl, he⟩
      · cases hb
    · cases hb
  -- the destructor goes on running
  have hrun : ∀ j ≥ K + 1, (r.σ j).ph = .running t := by
    intro j hj
    induction j, hj using Nat.le_induction with
    | base => exact hal.2.2.1
    | succ j hj ih =>
      have hs := r.step j
      cases hl : r.lbl j with
      | none => rw [hl] at hs; simp only at hs; rw [hs]; exact ih
      | some l =>
        have ha := hact hl
        cases hx : r.σ j with
        | mk s ph =>
          rw [hx] at ha ih
          simp only at ih
          subst ih
          cases l with
          | finish => exact absurd hl (hno' j (by omega))
          | destroy u => simp [Cd.act] at ha
          | cr l => exact cd_actCr_running ha
  have hnd : ∀ j, (r.σ j).ph ≠ .done := by
    intro j hj
    have hst : ∀ i, j ≤ i → (r.σ i).ph = .done := by
      intro i hi
      induction i, hi using Nat.le_induction with
      | base => exact hj
      | succ i hi ih =>
        have hs := r.step i
        cases hl : r.lbl i with
        | none => rw [hl] at hs; simp only at hs; rw [hs]; exact ih
        | some l =>
          have ha := hact hl
          cases hx : r.σ i with
          | mk s ph =>
            rw [hx] at ha ih
            simp only at ih
            subst ih
            exact cd_done ha
    have h1 := hst (max j (K + 1)) (by omega)
    rw [hrun _ (by omega)] at h1
    cases h1
  have hlbl : ∀ {k : Nat} {l : CLbl}, r.lbl k = some (.cr l) → r.toCr.lbl k = some l := by
    intro k l hl
    simp [CdRun.toCr, hl, CdLbl.toCr]
  have hlbl' : ∀ {k : Nat} {l : CLbl}, r.toCr.lbl k = some l →
      r.lbl k = some (.cr l) ∨ ∃ u, r.lbl k = some (.destroy u) ∧ l = .rt (.setFile u true) := by
    intro k l hl
    simp only [CdRun.toCr] at hl
    cases h : r.lbl k with
    | none => rw [h] at hl; cases hl
    | some d =>
      rw [h] at hl
      cases d with
      | cr l' => cases hl; exact .inl rfl
      | destroy u => cases hl; exact .inr ⟨u, rfl, rfl⟩
      | finish => cases hl
  -- fairness of the execution of the runtime
  have hFr : r.toCr.Fair := by
    refine ⟨?_, hF.disk, ?_, ?_, ?_, ?_, ?_, ?_⟩
    · intro k
      obtain ⟨j, hj, h⟩ := hF.bg k
      refine ⟨j, hj, h.imp ?_ id⟩
      rintro ⟨l, h1, h2⟩
      exact ⟨l, hlbl h1, h2⟩
    · intro k hl
      rcases hlbl' hl with h | ⟨u, -, h⟩
      · exact hF.notify k h
      · cases h
    · intro k u sw h
      obtain ⟨j, hj, h⟩ := hF.ret k u sw h
      exact ⟨j, hj, hlbl h⟩
    · intro k u h
      obtain ⟨j, hj, h⟩ := hF.stop k u h
      exact ⟨j, hj, hlbl h⟩
    · intro k u h
      by_cases hu : u = t
      · subst hu
        exfalso
        obtain ⟨j, hj, h⟩ := hF.finish (max k (K + 1)) u fun j hj =>
          ⟨(h j (by omega)).1, (h j (by omega)).2, hrun j (by omega)⟩
        exact hno' j (by omega) h
      · rcases hF.join (max k (K + 1)) u fun j hj =>
          ⟨(h j (by omega)).1, (h j (by omega)).2, by
            rw [hrun j (by omega)]; intro hx; cases hx; exact hu rfl⟩ with ⟨j, hj, jk, c, h⟩ | ⟨j, h⟩
        · exact ⟨j, by omega, jk, c, hlbl h⟩
        · exact absurd h (hnd j)
    · intro k h
      obtain ⟨j, hj, h⟩ := hF.fresh k h
      refine ⟨j, hj, fun i hi hl => ?_⟩
      rcases hlbl' hl with h' | ⟨u, -, h'⟩
      · exact h i hi h'
      · cases h'
    · intro k u h
      obtain ⟨j, hj, h⟩ := hF.store k u h
      exact ⟨j, hj, hlbl h⟩
  obtain ⟨j, hj, jk, c, hl⟩ := C69_setLogFile_returns_partial hP hL h0 r.toCr hFr (K0 := K + 1) (K := K') (t := t) (by omega)
    (by
      intro j hj u
      refine ⟨fun hl => ?_, fun jk c hl => ?_⟩
      · rcases hlbl' hl with h | ⟨_, -, h⟩
        · exact (hq0 j (by omega) u).1 h
        · cases h
      · rcases hlbl' hl with h | ⟨_, -, h⟩
        · exact absurd h ((hq0 j (by omega) u).2 jk c)
        · cases h)
    (by
      intro j hj l hl
      rcases hlbl' hl with h | ⟨u, h, rfl⟩
      · obtain ⟨h1, h2⟩ := hq j (by omega) l h
        exact ⟨fun m hm => (h1 m hm).imp id .inl, h2⟩
      · have ha := hact h
        cases hx : r.σ j with
        | mk s ph =>
          have := hrun j (by omega)
          rw [hx] at ha this
          simp only at this
          subst this
          simp [Cd.act] at ha)
    hal.2.2.2 hal.2.1
  rcases hlbl' hl with h | ⟨u, -, h⟩
  · exact (hq0 j (by omega) _).2 jk c h
  · cases h

/-- The execution up to the destructor. -/
theorem CdRun.before (r : CdRun cfg prog) {k : Nat} (hk : (r.σ k).ph = .alive) :
    CrExec cfg prog (r.labels k) (r.σ k).cr := by
  induction k with
  | zero =>
    obtain ⟨⟨jk, kk, h1, h2, h3⟩, -⟩ := r.start
    exact ⟨jk, kk, _, h1, h2, h3, by simp [CdRun.labels], by simp [CdRun.labels, Cr.run]⟩
  | succ k ih =>
    rw [r.labels_succ]
    have hs := r.step k
    cases hl : r.lbl k with
    | none =>
      rw [hl] at hs; simp only at hs
      rw [hs] at hk ⊢
      simpa using ih hk
    | some l =>
      have ha := r.act_of hl
      cases hx : r.σ k with
      | mk c ph =>
      rw [hx] at ha ih
      have hal : ph = .alive ∧ ∃ l', l = .cr l' := by
        cases ph with
        | done => rw [cd_done ha] at hk; cases hk
        | running t =>
          cases l with
          | finish => obtain ⟨-, -, -, -, e⟩ := cd_finish ha; rw [e] at hk; cases hk
          | destroy u => simp [Cd.act] at ha
          | cr l => rw [cd_actCr_running ha] at hk; cases hk
        | alive =>
          refine ⟨rfl, ?_⟩
          cases l with
          | finish => simp [Cd.act] at ha
          | destroy u => rw [(cd_destroy ha).2.1] at hk; cases hk
          | cr l => exact ⟨l, rfl⟩
      obtain ⟨rfl, l', rfl⟩ := hal
      have hc := toCr_step ha
      simp only [CdLbl.toCr] at hc
      obtain ⟨jk, kk, c0, h1, h2, h3, h4, h5⟩ := ih rfl
      refine ⟨jk, kk, c0, h1, h2, h3, ?_, ?_⟩
      · intro x hx
        rcases List.mem_append.1 hx with hx | hx
        · exact h4 x hx
        · simp only [Option.bind_some, CdLbl.plain, Option.toList_some, List.mem_singleton] at hx
          subst hx; exact r.ok k _ hl
      · simp only [Option.bind_some, CdLbl.plain, Option.toList_some]
        exact Cr.run_app h5 (by simp only [Cr.run, hc])

/-- The steps during the destructor. -/
theorem CdRun.during (r : CdRun cfg prog) {K j t : Nat} (hK : (r.σ (K + 1)).ph = .running t) (hd : r.lbl K = some (.destroy t))
    (hj : K < j) (hn : ∀ i, K < i → i < j → r.lbl i ≠ some .finish) :
    ∃ ls', r.labels j = r.labels K ++ ls' ∧ (r.σ (K + 1)).run cfg prog (ls'.map .cr) = .ok (r.σ j) ∧
      (∀ l ∈ ls', l.OK cfg prog) ∧ (r.σ j).ph = .running t ∧ ∀ l ∈ ls', ∃ i > K, r.lbl i = some (.cr l) := by
  induction j, hj using Nat.le_induction with
  | base =>
    refine ⟨[], ?_, rfl, by simp, hK, by simp⟩
    rw [r.labels_succ, hd]
    rfl
  | succ j hj ih =>
    obtain ⟨ls', h1, h2, h3, h4, h5⟩ := ih fun i a b => hn i a (by omega)
    have hs := r.step j
    cases hl : r.lbl j with
    | none =>
      rw [hl] at hs; simp only at hs
      refine ⟨ls', ?_, by rw [hs]; exact h2, h3, by rw [hs]; exact h4, h5⟩
      rw [r.labels_succ, hl, h1]
      simp
    | some l =>
      have ha := r.act_of hl
      have hc : ∃ l', l = .cr l' := by
        cases hx : r.σ j with
        | mk c ph =>
          rw [hx] at ha h4
          simp only at h4
          subst h4
          cases l with
          | finish => exact absurd hl (hn j (by omega) (by omega))
          | destroy u => simp [Cd.act] at ha
          | cr l => exact ⟨l, rfl⟩
      obtain ⟨l', rfl⟩ := hc
      refine ⟨ls' ++ [l'], ?_, ?_, ?_, ?_, ?_⟩
      · rw [r.labels_succ, hl, h1]
        simp [CdLbl.plain]
      · have happ : ∀ (a : List CdLbl) (d0 : Cd), d0.run cfg prog a = .ok (r.σ j) →
            d0.run cfg prog (a ++ [.cr l']) = .ok (r.σ (j + 1)) := by
          intro a
          induction a with
          | nil => intro d0 e1; cases e1; simp [Cd.run, ha]
          | cons x a iha =>
            intro d0 e1
            simp only [Cd.run, List.cons_append] at e1 ⊢
            split at e1 <;> try cases e1
            exact iha _ e1
        rw [List.map_append]
        exact happ _ _ h2
      · intro x hx
        rcases List.mem_append.1 hx with hx | hx
        · exact h3 x hx
        · rw [List.mem_singleton.1 hx]; exact r.ok j _ hl
      · cases hx : r.σ j with
        | mk c ph =>
          rw [hx] at ha h4
          simp only at h4
          subst h4
          exact cd_actCr_running ha
      · intro x hx
        rcases List.mem_append.1 hx with hx | hx
        · exact h5 x hx
        · rw [List.mem_singleton.1 hx]; exact ⟨j, by omega, hl⟩

theorem CdRun.later (r : CdRun cfg prog) {i j : Nat} (h : i ≤ j) : ∃ ds, (r.σ i).run cfg prog ds = .ok (r.σ j) := by
  induction j, h using Nat.le_induction with
  | base => exact ⟨[], rfl⟩
  | succ j _ ih =>
    obtain ⟨ds, hds⟩ := ih
    have hs := r.step j
    cases hl : r.lbl j with
    | none => rw [hl] at hs; simp only at hs; exact ⟨ds, by rw [hs]; exact hds⟩
    | some l =>
      have ha := r.act_of hl
      refine ⟨ds ++ [l], ?_⟩
      have happ : ∀ (a : List CdLbl) (d0 : Cd), d0.run cfg prog a = .ok (r.σ j) →
          d0.run cfg prog (a ++ [l]) = .ok (r.σ (j + 1)) := by
        intro a
        induction a with
        | nil => intro d0 e1; cases e1; simp [Cd.run, ha]
        | cons x a iha =>
          intro d0 e1
          simp only [Cd.run, List.cons_append] at e1 ⊢
          split at e1 <;> try cases e1
          exact iha _ e1
      exact happ _ _ hds

/-- An execution that reaches the end of the destructor, in the form of C77. -/
theorem CdRun.ended (r : CdRun cfg prog) {K t J : Nat} (hd : r.lbl K = some (.destroy t)) (hJ : K < J)
    (hf : r.lbl J = some .finish) :
    CrExec cfg prog (r.labels K) (r.σ K).cr ∧ (Cd.mk (r.σ K).cr .alive).act cfg prog (.destroy t) = .ok (r.σ (K + 1)) ∧
    ∃ ls', r.labels J = r.labels K ++ ls' ∧ (r.σ (K + 1)).run cfg prog (ls'.map .cr) = .ok (r.σ J) ∧
      (∀ l ∈ ls', l.OK cfg prog) ∧ (∀ l ∈ ls', ∃ i > K, r.lbl i = some (.cr l)) ∧
      (r.σ J).act cfg prog .finish = .ok (r.σ (J + 1)) := by
  have hb := r.act_of hd
  have hal : (r.σ K).ph = .alive := by
    simp only [Cd.act] at hb
    split at hb
    · assumption
    · cases hb
  have hmk : r.σ K = ⟨(r.σ K).cr, .alive⟩ := by
    cases hx : r.σ K with
    | mk c ph => rw [hx] at hal; simp only at hal; rw [hal]
  have hb2 : (Cd.mk (r.σ K).cr .alive).act cfg prog (.destroy t) = .ok (r.σ (K + 1)) := by
    rw [← hmk]; exact hb
  have hph := (cd_destroy hb2).2.1
  -- there is only one end
  have huniq : ∀ i, K < i → i < J → r.lbl i ≠ some .finish := by
    intro i h1 h2 hl
    obtain ⟨-, -, -, -, e⟩ := cd_finish (r.act_of hl)
    have hst : ∀ j, i + 1 ≤ j → (r.σ j).ph = .done := by
      intro j hj
      induction j, hj using Nat.le_induction with
      | base => rw [e]
      | succ j hj ih =>
        have hs := r.step j
        cases hl : r.lbl j with
        | none => rw [hl] at hs; simp only at hs; rw [hs]; exact ih
        | some l =>
          have ha := r.act_of hl
          cases hx : r.σ j with
          | mk s ph =>
            rw [hx] at ha ih
            simp only at ih
            subst ih
            exact cd_done ha
    obtain ⟨t', h3, -⟩ := cd_finish (r.act_of hf)
    rw [hst J (by omega)] at h3
    cases h3
  obtain ⟨ls', h1, h2, h3, -, h5⟩ := r.during hph hd hJ huniq
  exact ⟨r.before hal, hb2, ls', h1, h2, h3, h5, r.act_of hf⟩

/-- **C78**: in an execution as in `C78_returns_partial`, without spurious wakeup of the destructor, in which at most one
thread logs or no thread that logs ends, the destructor ends, and from then on, for ever, the ordered decompressor prints
for every thread its first calls, among them all that had returned, with their stores in memory, when the destructor
began. -/
theorem C78_output_partial (hP : ProgOK cfg prog) (hL : LiveOK cfg prog) (h0 : 0 < cfg.staging)
    (r : CdRun cfg prog) (hF : r.Fair) {K t : Nat} (hd : r.lbl K = some (.destroy t))
    (hq0 : ∀ j > K, ∀ u, (r.lbl j = some (.cr (.rt (.stop u))) → u = t) ∧
      ∀ jk c, r.lbl j ≠ some (.cr (.rt (.join u jk c))))
    {K' : Nat} (hK : K < K') (hq : ∀ j ≥ K', ∀ l, r.lbl j = some (.cr l) →
      (∀ m, l = .rt m → m.quiet = true ∨ m = .stop t) ∧ ∀ u, l ≠ .finish u)
    (he : (r.σ K).cr.rt.exit = false) (hs : ∀ j > K, r.lbl j ≠ some (.cr (.rt (.spurious t))))
    (hc : (∀ j, allocs (calls (r.labels j)) ≤ 1) ∨
      (∀ j, allocs (calls (r.labels j)) ≤ 2 ^ 32) ∧ ∀ j u, r.lbl j ≠ some (.cr (.exit u))) :
    ∃ J > K, r.lbl J = some .finish ∧ ∀ j > J, ∀ o, Used (cfg.staging + 9) o →
      ∃ outs : List (List OutMsg), (r.σ j).cr.rt.files.map (orderedFile (cfg.staging + 9) o) = outs.map some ∧
        (∀ u b, ((r.σ J).cr.rt.thr u).bid = some b → ∃ n msgs,
          (((r.σ K).cr.sb u).buf = [] → finished u (r.labels K) ≤ n) ∧
          n ≤ (mustRecord prog u (calls (r.labels J))).length ∧
          List.Forall₂ (MsgOf prog b) ((mustRecord prog u (calls (r.labels J))).take n) msgs ∧
          (outs.flatten.filter fun m => m.tid == b).Perm msgs ∧
          ((stamps u (calls (r.labels J))).Pairwise (· < ·) → (outs.flatten.filter fun m => m.tid == b) = msgs)) ∧
        ∀ m ∈ outs.flatten, ∃ u, ((r.σ J).cr.rt.thr u).bid = some m.tid := by
  obtain ⟨J, hJ, hf⟩ := C78_returns_partial hP hL h0 r hF hd hq0 hK hq he
  obtain ⟨e1, e2, ls', e3, e4, e5, e6, e7⟩ := r.ended hd hJ hf
  refine ⟨J, hJ, hf, fun j hj o hu => ?_⟩
  obtain ⟨ds, hds⟩ := r.later (show J + 1 ≤ j by omega)
  have hfin := (C77_final hP h0 e1 e2 e4 e5 e7 hds).1
  have := C77_end_partial hP h0 e1 e2 e4 e5 e7
    (fun hm => by obtain ⟨i, h1, h2⟩ := e6 _ hm; exact hs i h1 h2)
    (by
      rw [← e3]
      refine hc.imp (fun h => h J) fun h => ⟨h.1 J, fun u hm => ?_⟩
      simp only [CdRun.labels, List.mem_filterMap, Option.bind_eq_some_iff] at hm
      obtain ⟨i, -, l, h1, h2⟩ := hm
      cases l <;> simp only [CdLbl.plain] at h2 <;> cases h2
      exact h.2 i u h1) hu
  obtain ⟨t', -, -, -, e8⟩ := cd_finish e7
  rw [← e3, ← hfin] at this
  rw [e8] at this
  exact this

/-- **C78**, for threads that are outside of log statements, with their stores in memory, when the destructor begins, and log
nothing afterwards: from the end of the destructor on exactly their recorded calls are printed. -/
theorem C78_complete_partial (hP : ProgOK cfg prog) (hL : LiveOK cfg prog) (h0 : 0 < cfg.staging)
    (r : CdRun cfg prog) (hF : r.Fair) {K t : Nat} (hd : r.lbl K = some (.destroy t))
    (hq0 : ∀ j > K, ∀ u, (r.lbl j = some (.cr (.rt (.stop u))) → u = t) ∧
      ∀ jk c, r.lbl j ≠ some (.cr (.rt (.join u jk c))))
    {K' : Nat} (hK : K < K') (hq : ∀ j ≥ K', ∀ l, r.lbl j = some (.cr l) →
      (∀ m, l = .rt m → m.quiet = true ∨ m = .stop t) ∧ ∀ u, l ≠ .finish u)
    (he : (r.σ K).cr.rt.exit = false) (hs : ∀ j > K, r.lbl j ≠ some (.cr (.rt (.spurious t))))
    (hc : (∀ j, allocs (calls (r.labels j)) ≤ 1) ∨
      (∀ j, allocs (calls (r.labels j)) ≤ 2 ^ 32) ∧ ∀ j u, r.lbl j ≠ some (.cr (.exit u))) :
    ∃ J > K, r.lbl J = some .finish ∧ ∀ j > J, ∀ o, Used (cfg.staging + 9) o →
      ∃ outs : List (List OutMsg), (r.σ j).cr.rt.files.map (orderedFile (cfg.staging + 9) o) = outs.map some ∧
        (∀ u b, ((r.σ J).cr.rt.thr u).bid = some b →
          ((r.σ K).cr.rt.thr u).pc = .idle ∨ ((r.σ K).cr.rt.thr u).pc = .exited → ((r.σ K).cr.sb u).buf = [] →
          (∀ i > K, ∀ k args, r.lbl i ≠ some (.cr (.rt (.call u k args)))) → ∃ msgs,
          List.Forall₂ (MsgOf prog b) (mustRecord prog u (calls (r.labels K))) msgs ∧
          (outs.flatten.filter fun m => m.tid == b).Perm msgs ∧
          ((stamps u (calls (r.labels J))).Pairwise (· < ·) → (outs.flatten.filter fun m => m.tid == b) = msgs)) ∧
        ∀ m ∈ outs.flatten, ∃ u, ((r.σ J).cr.rt.thr u).bid = some m.tid := by
  obtain ⟨J, hJ, hf⟩ := C78_returns_partial hP hL h0 r hF hd hq0 hK hq he
  obtain ⟨e1, e2, ls', e3, e4, e5, e6, e7⟩ := r.ended hd hJ hf
  refine ⟨J, hJ, hf, fun j hj o hu => ?_⟩
  obtain ⟨ds, hds⟩ := r.later (show J + 1 ≤ j by omega)
  have hfin := (C77_final hP h0 e1 e2 e4 e5 e7 hds).1
  have := C77_complete_partial hP h0 e1 e2 e4 e5 e7
    (fun hm => by obtain ⟨i, h1, h2⟩ := e6 _ hm; exact hs i h1 h2)
    (by
      rw [← e3]
      refine hc.imp (fun h => h J) fun h => ⟨h.1 J, fun u hm => ?_⟩
      simp only [CdRun.labels, List.mem_filterMap, Option.bind_eq_some_iff] at hm
      obtain ⟨i, -, l, h1, h2⟩ := hm
      cases l <;> simp only [CdLbl.plain] at h2 <;> cases h2
      exact h.2 i u h1) hu
  obtain ⟨t', -, -, -, e8⟩ := cd_finish e7
  rw [← e3, ← hfin] at this
  rw [e8] at this
  obtain ⟨outs, g1, g2, g3⟩ := this
  refine ⟨outs, g1, fun u b hb hi hbuf hcall => g2 u b hb hi hbuf fun k args hm => ?_, g3⟩
  obtain ⟨i, h1, h2⟩ := e6 _ hm
  exact hcall i h1 k args h2

end

/-! ## Concrete executions -/

/-- The states of a finite execution, the last one repeated for ever. -/
def cdState (ds : List CdLbl) (d : Cd) : Nat → Cd
  | 0 => d
  | k + 1 =>
    match ds[k]? with
    | none => cdState ds d k
    | some l =>
      match (cdState ds d k).act exCfg exSites l with
      | .ok d1 => d1
      | _ => cdState ds d k

theorem cdState_run {ds : List CdLbl} {d d' : Cd} (h : d.run exCfg exSites ds = .ok d') (k : Nat) (hk : k ≤ ds.length) :
    d.run exCfg exSites (ds.take k) = .ok (cdState ds d k) ∧ (cdState ds d k).run exCfg exSites (ds.drop k) = .ok d' := by
  induction k with
  | zero => exact ⟨rfl, h⟩
  | succ k ih =>
    have hlt : k < ds.length := by omega
    obtain ⟨h1, h2⟩ := ih (by omega)
    rw [List.drop_eq_getElem_cons hlt] at h2
    simp only [Cd.run] at h2
    split at h2 <;> try cases h2
    rename_i d1 ha
    have he : cdState ds d (k + 1) = d1 := by
      simp only [cdState, List.getElem?_eq_getElem hlt, ha]
    refine ⟨?_, by rw [he]; exact h2⟩
    rw [he, List.take_succ_eq_append_getElem hlt]
    have happ : ∀ (a : List CdLbl) (d0 : Cd) (l : CdLbl), d0.run exCfg exSites a = .ok (cdState ds d k) →
        (cdState ds d k).act exCfg exSites l = .ok d1 → d0.run exCfg exSites (a ++ [l]) = .ok d1 := by
      intro a
      induction a with
      | nil => intro d0 l e1 e2; cases e1; simp [Cd.run, e2]
      | cons x a iha =>
        intro d0 l e1 e2
        simp only [Cd.run, List.cons_append] at e1 ⊢
        split at e1 <;> try cases e1
        exact iha _ l e1 e2
    exact happ _ _ _ h1 ha

theorem cdState_step {ds : List CdLbl} {d d' : Cd} (h : d.run exCfg exSites ds = .ok d') (k : Nat) :
    match ds[k]? with
    | none => cdState ds d (k + 1) = cdState ds d k
    | some l => (cdState ds d k).act exCfg exSites l = .ok (cdState ds d (k + 1)) := by
  by_cases hk : k < ds.length
  · obtain ⟨-, h2⟩ := cdState_run h k (by omega)
    rw [List.getElem?_eq_getElem hk]
    rw [List.drop_eq_getElem_cons hk] at h2
    simp only [Cd.run] at h2
    split at h2 <;> try cases h2
    rename_i d1 ha
    simp only [cdState, List.getElem?_eq_getElem hk, ha]
  · simp only [cdState, List.getElem?_eq_none (Nat.le_of_not_lt hk)]

theorem cdState_end {ds : List CdLbl} {d d' : Cd} (h : d.run exCfg exSites ds = .ok d') {k : Nat}
    (hk : ds.length ≤ k) : cdState ds d k = d' := by
  induction k, hk using Nat.le_induction with
  | base =>
    have := (cdState_run h ds.length (Nat.le_refl _)).2
    rw [List.drop_length] at this
    exact CdOut.ok.inj this
  | succ k hk ih => simp only [cdState, List.getElem?_eq_none hk, ih]

/-- The destructor has ended; threads up to 4 are not in the middle of `sync` or `setLogFile`, except where the destructor
ends, and their stores are in memory. -/
def cdEndedB (d : Cd) : Bool :=
  d.cr.rt.pc == .dead && d.cr.rt.aio == none && d.ph == .done &&
  (List.range 5).all fun u => (d.cr.sb u).buf.isEmpty && match (d.cr.rt.thr u).pc with
    | .woken _ | .stop => false
    | _ => true

/-- Notifications of nobody happen only when nobody has to be notified. -/
def cdNotifies (d : Cd) : List CdLbl → Bool
  | [] => true
  | l :: ls =>
    (match l with
     | .cr (.rt (.scanned none)) =>
       d.cr.rt.mem d.cr.rt.encPtr != [] || d.cr.rt.status == .requested || d.cr.rt.idleStatus != .completed ||
         (List.range 5).all fun u => match (d.cr.rt.thr u).pc with | .sync _ => false | _ => true
     | _ => true) &&
    match d.act exCfg exSites l with
    | .ok d1 => cdNotifies d1 ls
    | _ => false

theorem cdNotifies_at {ds : List CdLbl} {d d' : Cd} (h : d.run exCfg exSites ds = .ok d')
    (hn : cdNotifies d ds = true) (k : Nat) (hk : k ≤ ds.length) :
    cdNotifies (cdState ds d k) (ds.drop k) = true := by
  induction k with
  | zero => exact hn
  | succ k ih =>
    have hlt : k < ds.length := by omega
    have h1 := ih (by omega)
    have hs := cdState_step h k
    rw [List.getElem?_eq_getElem hlt] at hs
    simp only at hs
    rw [List.drop_eq_getElem_cons hlt] at h1
    simp only [cdNotifies, hs, Bool.and_eq_true] at h1
    exact h1.2

def CdLbl.exOK : CdLbl → Bool
  | .cr l => exCLbl l
  | _ => true

/-- A finite execution that ends with the destructor is a fair infinite one. -/
theorem exCdEnded {ds : List CdLbl} {c0 : Cr} {d : Cd} (h0 : Cr.init exCfg 0 exCk = some c0)
    (hl : ds.all CdLbl.exOK = true)
    (hw : (ds.all fun l => match l.toCr.bind CLbl.who with | none => true | some u => decide (u < 5)) = true)
    (h : (Cd.mk c0 .alive).run exCfg exSites ds = .ok d) (he : cdEndedB d = true)
    (hn : cdNotifies (Cd.mk c0 .alive) ds = true) :
    ∃ r : CdRun exCfg exSites, r.Fair ∧ (∀ k, r.lbl k = ds[k]?) ∧
      ∀ k ≤ ds.length, (Cd.mk c0 .alive).run exCfg exSites (ds.take k) = .ok (r.σ k) := by
  let r : CdRun exCfg exSites :=
    { σ := cdState ds ⟨c0, .alive⟩
      lbl := fun k => ds[k]?
      start := ⟨⟨0, exCk, exCk_plain, by decide, h0⟩, rfl⟩
      ok := fun k l hk => by
        have := List.all_eq_true.1 hl _ (List.mem_of_getElem? hk)
        simp only [CdLbl.exOK] at this
        cases l <;> first | exact exLbl_ok this | trivial
      step := cdState_step h }
  refine ⟨r, ?_, fun _ => rfl, fun k hk => (cdState_run h k hk).1⟩
  have hend : ∀ k ≥ ds.length, r.σ k = d := fun k hk => cdState_end h hk
  simp only [cdEndedB, Bool.and_eq_true, beq_iff_eq, List.all_eq_true, List.mem_range, List.isEmpty_iff] at he
  obtain ⟨⟨⟨e1, e2⟩, e3⟩, e4⟩ := he
  have hact : ∀ {k l}, r.toCr.lbl k = some l → (r.σ k).cr.act exCfg exSites l = .ok (r.σ (k + 1)).cr := by
    intro k l h
    have := r.toCr.step k
    rw [h] at this
    exact this
  have hidle : ∀ u, ¬ u < 5 → ∀ k, (r.σ k).cr.Unused u := by
    intro u hu k
    induction k with
    | zero =>
      change c0.Unused u
      simp only [Cr.init, Option.map_eq_some_iff] at h0
      obtain ⟨r, h1, rfl⟩ := h0
      refine ⟨?_, rfl⟩
      unfold Rt.init at h1
      split at h1 <;> cases h1
      rfl
    | succ k ih =>
      have hs := r.toCr.step k
      cases hk : r.toCr.lbl k with
      | none => rw [hk] at hs; simp only at hs; change (r.toCr.σ (k + 1)).Unused u; rw [hs]; exact ih
      | some l =>
        refine cr_unused (hact hk) (fun hx => ?_) ih
        simp only [CdRun.toCr] at hk
        cases hd : r.lbl k with
        | none => rw [hd] at hk; cases hk
        | some dl =>
          rw [hd] at hk
          have hm := List.all_eq_true.1 hw dl (List.mem_of_getElem? hd)
          simp only [Option.bind_some] at hk
          rw [hk, Option.bind_some, hx] at hm
          exact hu (by simpa using hm)
  have hfin : ∀ u sw, (d.cr.rt.thr u).pc ≠ .woken sw ∧ (d.cr.rt.thr u).pc ≠ .stop ∧ (d.cr.sb u).buf = [] := by
    intro u sw
    by_cases hu : u < 5
    · have := e4 u hu
      refine ⟨?_, ?_, this.1⟩ <;> intro hx <;> rw [hx] at this <;> cases this.2
    · have := hidle u hu ds.length
      rw [hend _ (Nat.le_refl _)] at this
      rw [this.1]; exact ⟨by simp, by simp, this.2⟩
  have hstay : ∀ k u (p : TPc), (d.cr.rt.thr u).pc ≠ p → ((r.σ k).cr.rt.thr u).pc = p →
      (∀ j ≥ k, ((r.σ j).cr.rt.thr u).pc = p → ((r.σ (j + 1)).cr.rt.thr u).pc = p) → False := by
    intro k u p hp h1 h2
    have h3 : ∀ j ≥ k, ((r.σ j).cr.rt.thr u).pc = p := by
      intro j hj
      induction j, hj using Nat.le_induction with
      | base => exact h1
      | succ j hj ih => exact h2 j hj ih
    have h4 := h3 (max k ds.length) (by omega)
    rw [hend _ (by omega)] at h4
    exact hp h4
  have hrt : ∀ k l, r.toCr.lbl k = some l → (∀ u b, l ≠ .rt (.setFile u b)) → r.lbl k = some (.cr l) := by
    intro k l hk hne
    simp only [CdRun.toCr] at hk
    cases hd : r.lbl k with
    | none => rw [hd] at hk; cases hk
    | some dl =>
      rw [hd] at hk
      cases dl with
      | cr l' => cases hk; rfl
      | destroy u => cases hk; exact absurd rfl (hne u true)
      | finish => cases hk
  refine ⟨fun k => ?_, fun k => ?_, fun k hs hm hst hid u sw hu => ?_, fun k t sw hw => ?_,
    fun k t hw => ?_, fun k t hw => ?_, fun k t hw => ?_, fun k _ => ?_, fun k t hb => ?_⟩
  · exact ⟨max k ds.length, by omega, .inr (.inl (by rw [hend _ (by omega)]; exact e1))⟩
  · refine ⟨max k ds.length, by omega, fun a ha => ?_⟩
    rw [hend _ (by omega), e2] at ha; cases ha
  · have hlt : k < ds.length := by
      by_contra hx
      have : ds[k]? = none := List.getElem?_eq_none (by omega)
      rw [show r.lbl k = ds[k]? from rfl, this] at hs; cases hs
    have h1 := cdNotifies_at h hn k (by omega)
    rw [List.drop_eq_getElem_cons hlt] at h1
    have h2 : ds[k] = .cr (.rt (.scanned none)) := by
      have : ds[k]? = some (.cr (.rt (.scanned none))) := hs
      rw [List.getElem?_eq_getElem hlt] at this
      exact Option.some.inj this
    rw [h2] at h1
    simp only [cdNotifies, Bool.and_eq_true, Bool.or_eq_true, bne_iff_ne, beq_iff_eq] at h1
    rcases h1.1 with ((h3 | h3) | h3) | h3
    · exact h3 hm
    · exact hst h3
    · exact h3 hid
    · have hu : ((cdState ds ⟨c0, .alive⟩ k).cr.rt.thr u).pc = .sync sw := hu
      by_cases hlt5 : u < 5
      · have := List.all_eq_true.1 h3 u (List.mem_range.2 hlt5)
        rw [hu] at this
        cases this
      · have : ((cdState ds ⟨c0, .alive⟩ k).cr.rt.thr u).pc = .idle := (hidle u hlt5 k).1 ▸ rfl
        rw [hu] at this; cases this
  · by_contra hno
    refine hstay k t (.woken sw) (hfin t sw).1 hw fun j hj hp => ?_
    have hs := r.toCr.step j
    cases hl : r.toCr.lbl j with
    | none => rw [hl] at hs; simp only at hs; change ((r.toCr.σ (j + 1)).rt.thr t).pc = _; rw [hs]; exact hp
    | some l =>
      rw [cr_stays (hact hl) (.inl ⟨⟨_, hp⟩, fun hx => hno ⟨j, hj, by rw [hrt j l hl (by rw [hx]; simp), hx]⟩⟩)]
      exact hp
  · by_contra hno
    refine hstay k t .stop (hfin t true).2.1 hw fun j hj hp => ?_
    have hs := r.toCr.step j
    cases hl : r.toCr.lbl j with
    | none => rw [hl] at hs; simp only at hs; change ((r.toCr.σ (j + 1)).rt.thr t).pc = _; rw [hs]; exact hp
    | some l =>
      rw [cr_stays (hact hl) (.inr ⟨hp, fun hx => hno ⟨j, hj, by rw [hrt j l hl (by rw [hx]; simp), hx]⟩⟩)]
      exact hp
  · exact .inr ⟨ds.length, by rw [hend _ (Nat.le_refl _)]; exact e3⟩
  · have h1 := (hw (max k ds.length) (by omega)).2.2
    rw [hend _ (by omega), e3] at h1
    cases h1
  · refine ⟨max k ds.length, by omega, fun i hi hx => ?_⟩
    have : ds[i]? = none := List.getElem?_eq_none (by omega)
    rw [show r.lbl i = ds[i]? from rfl, this] at hx; cases hx
  · by_contra hno
    have h3 : ∀ j ≥ k, ((r.σ j).cr.sb t).buf ≠ [] := by
      intro j hj
      induction j, hj using Nat.le_induction with
      | base => exact hb
      | succ j hj ih =>
        have hs := r.toCr.step j
        cases hl : r.toCr.lbl j with
        | none => rw [hl] at hs; simp only at hs; change ((r.toCr.σ (j + 1)).sb t).buf ≠ []; rw [hs]; exact ih
        | some l =>
          obtain ⟨⟨x, h1⟩, -⟩ := act_pending (hact hl) (t := t)
            (fun hx => hno ⟨j, hj, by rw [hrt j l hl (by rw [hx]; simp), hx]⟩)
          rw [h1]
          intro e
          exact ih (List.append_eq_nil_iff.1 e).1
    refine h3 (max k ds.length) (by omega) ?_
    rw [hend _ (by omega)]
    exact (hfin t true).2.2

/-- The whole life of a process: the main thread logs one message and leaves `main`, the destructor runs. -/
def exCdWhole : List CdLbl := exCdMain.map .cr ++ .destroy 3 :: exCdEnd.map .cr ++ [.finish]

/-- Case for `C78_returns_partial`, `C78_output_partial` and `C78_complete_partial`. -/
example : ∃ (r : CdRun exCfg exSites) (K K' : Nat), r.Fair ∧ r.lbl K = some (.destroy 3) ∧ K < K' ∧
    (∀ j > K, ∀ u, (r.lbl j = some (.cr (.rt (.stop u))) → u = 3) ∧
      ∀ jk c, r.lbl j ≠ some (.cr (.rt (.join u jk c)))) ∧
    (∀ j ≥ K', ∀ l, r.lbl j = some (.cr l) → (∀ m, l = .rt m → m.quiet = true ∨ m = .stop 3) ∧ ∀ u, l ≠ .finish u) ∧
    (r.σ K).cr.rt.exit = false ∧ (∀ j > K, r.lbl j ≠ some (.cr (.rt (.spurious 3)))) ∧
    (∀ j, allocs (calls (r.labels j)) ≤ 1) ∧ finished 1 (r.labels K) = 1 ∧ (r.σ K).cr.rt.files = [[]] ∧
    ((r.σ K).cr.rt.thr 1).pc = .exited ∧ ((r.σ K).cr.sb 1).buf = [] ∧
    ∀ i > K, ∀ k args, r.lbl i ≠ some (.cr (.rt (.call 1 k args))) := by
  have hc : (match Cr.init exCfg 0 exCk with
    | some c0 =>
      cdNotifies (Cd.mk c0 .alive) exCdWhole &&
      (match (Cd.mk c0 .alive).run exCfg exSites exCdWhole with
       | .ok d => cdEndedB d
       | _ => false) &&
      (match (Cd.mk c0 .alive).run exCfg exSites (exCdWhole.take exCdMain.length) with
       | .ok d => !d.cr.rt.exit && d.cr.rt.files == [[]] && (d.cr.rt.thr 1).pc == .exited && (d.cr.sb 1).buf.isEmpty
       | _ => false)
    | none => false) = true := by decide +kernel
  split at hc
  swap
  · cases hc
  rename_i c0 h0
  simp only [Bool.and_eq_true] at hc
  obtain ⟨⟨c1, c2⟩, c3⟩ := hc
  split at c2 <;> try cases c2
  rename_i d hd
  obtain ⟨r, hF, hl, hσ⟩ := exCdEnded h0 (by decide +kernel) (by decide +kernel) hd c2 c1
  rw [hσ exCdMain.length (by decide +kernel)] at c3
  simp only [Bool.and_eq_true, Bool.not_eq_true', beq_iff_eq, List.isEmpty_iff] at c3
  have hm : ∀ n j, n ≤ j → ∀ l, r.lbl j = some l → l ∈ exCdWhole.drop n := by
    intro n j hj l hx
    rw [hl] at hx
    refine List.mem_of_getElem? (i := j - n) ?_
    rw [List.getElem?_drop, show n + (j - n) = j by omega, hx]
  have hlab : ∀ k, r.labels k = (exCdWhole.take k).filterMap CdLbl.plain := by
    intro k
    induction k with
    | zero => rfl
    | succ k ih =>
      rw [r.labels_succ, ih, hl k, List.take_add_one, List.filterMap_append]
      cases h : exCdWhole[k]? with
      | none => simp
      | some l => cases h2 : l.plain <;> simp [h2]
  have hq : ((exCdWhole.drop (exCdMain.length + 1)).all fun l => match l with
      | .cr (.rt (.stop t)) => t == 3
      | .cr (.rt m) => m.quiet && (match m with | .spurious _ | .call _ _ _ => false | _ => true)
      | .cr (.finish _) => false
      | _ => true) = true := by decide +kernel
  refine ⟨r, exCdMain.length, exCdMain.length + 1, hF, by rw [hl]; rfl, by omega, fun j hj u => ?_,
    fun j hj l hx => ?_, c3.1.1.1, fun j hj hx => ?_, fun j => ?_, ?_, c3.1.1.2, c3.1.2, c3.2, fun i hi k args hx => ?_⟩
  · exact ⟨fun hx => by simpa using List.all_eq_true.1 hq _ (hm _ j hj _ hx),
      fun jk c hx => by simpa [Lbl.quiet] using List.all_eq_true.1 hq _ (hm _ j hj _ hx)⟩
  · have h1 := List.all_eq_true.1 hq _ (hm _ j hj _ hx)
    refine ⟨fun m e => ?_, fun u e => ?_⟩
    · subst e
      cases m <;> simp_all
    · subst e; simp at h1
  · simpa [Lbl.quiet] using List.all_eq_true.1 hq _ (hm _ j hj _ hx)
  · have h1 : allocs (calls (exCdWhole.filterMap CdLbl.plain)) = 1 := by decide +kernel
    rw [← h1, hlab]
    have h2 : exCdWhole = exCdWhole.take j ++ exCdWhole.drop j := (List.take_append_drop j _).symm
    conv_rhs => rw [h2]
    simp only [List.filterMap_append, calls, allocs, List.filter_append, List.length_append]
    omega
  · rw [hlab]; decide +kernel
  · simpa [Lbl.quiet] using List.all_eq_true.1 hq _ (hm _ i hi _ hx)

end NanoLog
