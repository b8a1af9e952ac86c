import Verif.RuntimeSteady

/-!
# Infinite executions of the runtime

Executions in which the threads go on for ever, and what may be expected of the scheduler, the disk and
the memory.
-/

namespace NanoLog

/-- An infinite execution; `none`: nothing happens at that time. -/
structure RtRun (cfg : Config) (prog : List Site) where
  σ : Nat → Rt
  lbl : Nat → Option Lbl
  start : ∃ jk c, c.Plain ∧ jk < 2 ^ 62 ∧ Rt.init cfg jk c = some (σ 0)
  ok : ∀ k l, lbl k = some l → l.OK cfg prog
  step : ∀ k, match lbl k with
    | none => σ (k + 1) = σ k
    | some l => (σ k).act cfg prog l = .ok (σ (k + 1))

/-- Steps of the background thread. -/
def Lbl.ofBg : Lbl → Bool
  | .top | .dict _ | .peek _ | .check | .encode .. | .scanned _ | .aio | .aioDone _ | .write => true
  | _ => false

/-- Fairness.
* `bg`: the background thread goes on unless it has ended or waits for the disk (`aio_suspend`,
  runtime/RuntimeLogger.cc:538-548);
* `disk`: an outstanding write is completed at some time;
* `notify`: `notify_one` (RuntimeLogger.cc:524-529) has no effect only if no thread waits;
* `ret`, `stop`, `join`: a thread that has been woken goes on, also in `setLogFile_internal` (652-672);
  one that waits for the end of the background thread goes on after it;
* `fresh`: if the number of statements does not change any more, the background thread's unlocked read
  of it (401) returns the current value from some time on. -/
structure RtRun.Fair {cfg : Config} {prog : List Site} (r : RtRun cfg prog) : Prop where
  bg : ∀ k, ∃ j ≥ k, (∃ l, r.lbl j = some l ∧ l.ofBg = true) ∨ (r.σ j).pc = .dead ∨
    ((r.σ j).pc = .aio ∧ (r.σ j).full = true ∧ ∃ a, (r.σ j).aio = some a ∧ a.done ≠ a.len)
  disk : ∀ k, ∃ j ≥ k, ∀ a, (r.σ j).aio = some a → a.done = a.len
  notify : ∀ k, r.lbl k = some (.scanned none) → (r.σ k).mem (r.σ k).encPtr = [] →
    (r.σ k).status ≠ .requested → (r.σ k).idleStatus = .completed →
    ∀ u sw, ((r.σ k).thr u).pc ≠ .sync sw
  ret : ∀ k t sw, ((r.σ k).thr t).pc = .woken sw → ∃ j ≥ k, r.lbl j = some (.ret t)
  stop : ∀ k t, ((r.σ k).thr t).pc = .stop → ∃ j ≥ k, r.lbl j = some (.stop t)
  join : ∀ k t, (∀ j ≥ k, ((r.σ j).thr t).pc = .join ∧ (r.σ j).pc = .dead) →
    ∃ j ≥ k, ∃ jk c, r.lbl j = some (.join t jk c)
  fresh : ∀ k, (∀ j ≥ k, (r.σ j).sites = (r.σ k).sites) →
    ∃ j ≥ k, ∀ i ≥ j, r.lbl i ≠ some (.dict true)

/-- From `K` on nothing is logged, no thread starts using NanoLog, and `sync` and `setLogFile` are not
called. -/
def RtRun.QuietFrom {cfg : Config} {prog : List Site} (r : RtRun cfg prog) (K : Nat) : Prop :=
  ∀ j ≥ K, ∀ l, r.lbl j = some l → l.quiet = true

/-- The labels up to `k`. -/
def RtRun.labels {cfg : Config} {prog : List Site} (r : RtRun cfg prog) (k : Nat) : List Lbl :=
  (List.range k).filterMap r.lbl

theorem RtRun.labels_succ {cfg : Config} {prog : List Site} (r : RtRun cfg prog) (k : Nat) :
    r.labels (k + 1) = r.labels k ++ (r.lbl k).toList := by
  rw [RtRun.labels, List.range_succ, List.filterMap_append]
  cases h : r.lbl k <;> simp [h, RtRun.labels]

/-- Each state is reached by an execution in the sense of `RtExec`. -/
theorem RtRun.exec {cfg : Config} {prog : List Site} (r : RtRun cfg prog) (k : Nat) :
    RtExec cfg prog (r.labels k) (r.σ k) := by
  induction k with
  | zero =>
    obtain ⟨jk, c, h1, h2, h3⟩ := r.start
    exact ⟨jk, c, _, h1, h2, h3, by simp [RtRun.labels], rfl⟩
  | succ k ih =>
    rw [r.labels_succ]
    have hs := r.step k
    have hok := r.ok k
    cases hl : r.lbl k with
    | none => rw [hl] at hs; simp only at hs; rw [hs]; simpa using ih
    | some l =>
      rw [hl] at hs
      simp only at hs
      refine ih.append (by simpa using hok l hl) ?_
      simp [Rt.run, hs]

/-! ## Invariants -/

theorem act_thr_one {cfg : Config} {prog : List Site} {s s' : Rt} {l : Lbl}
    (ha : s.act cfg prog l = .ok s') : s'.thr = s.thr ∨ ∃ t th, s'.thr = upd s.thr t th := by
  have hadv : ∀ (s1 : Rt) (j : Nat), s1.advance j = .ok s' → s'.thr = s1.thr :=
    fun s1 j h => (advance_thr h).1
  have hnot : ∀ (s1 : Rt) (w : Option Nat), s1.notify w = .ok s' →
      s'.thr = s1.thr ∨ ∃ t th, s'.thr = upd s1.thr t th := by
    intro s1 w h
    unfold Rt.notify at h
    split at h
    · cases h; exact .inl rfl
    · split at h <;> cases h
      exact .inr ⟨_, _, rfl⟩
  cases l
  case check =>
    simp only [Rt.act, Rt.actScan] at ha
    split at ha
    · cases ha
    split at ha
    · split at ha
      · cases ha; exact .inr ⟨_, _, rfl⟩
      · exact .inr ⟨_, _, hadv _ _ ha⟩
    · exact .inl (hadv _ _ ha)
  case encode junk more =>
    simp only [Rt.act, Rt.actScan] at ha
    split at ha
    · cases ha
    split at ha
    · cases ha
    split at ha
    · cases ha
    split at ha
    · split at ha
      · have := hadv _ _ ha; exact .inl this
      · split at ha
        · cases ha
        split at ha
        · exact .inr ⟨_, _, hadv _ _ ha⟩
        · cases ha; exact .inr ⟨_, _, rfl⟩
    · cases ha
  case scanned w =>
    simp only [Rt.act, Rt.actIo] at ha
    split at ha
    · cases ha
    split at ha
    · cases ha; exact .inl rfl
    split at ha
    · cases ha; exact .inl rfl
    split at ha
    · have := hnot _ _ ha; exact this
    · cases ha; exact .inl rfl
  case aioDone w =>
    simp only [Rt.act, Rt.actIo] at ha
    split at ha
    · cases ha
    split at ha
    · have := hnot _ _ ha; exact this
    · cases ha; exact .inl rfl
  all_goals
    simp only [Rt.act, Rt.actLog, Rt.actBuf, Rt.actCtl, Rt.actScan, Rt.actIo] at ha
    repeat' split at ha
    all_goals first
      | (cases ha; exact .inl rfl)
      | (cases ha; exact .inr ⟨_, _, rfl⟩)
      | cases ha

/-- Threads that have used NanoLog are finitely many. -/
theorem RtExec.finite {cfg : Config} {prog : List Site} {ls : List Lbl} {s : Rt}
    (h : RtExec cfg prog ls s) : ∃ B, ∀ u ≥ B, s.thr u = Thr.init := by
  refine h.induct (P := fun _ s => ∃ B, ∀ u ≥ B, s.thr u = Thr.init) ?_ ?_
  · intro jk c s h
    unfold Rt.init at h
    split at h <;> cases h
    exact ⟨0, fun _ _ => rfl⟩
  · rintro ls s l s' - ⟨B, hB⟩ - ha
    rcases act_thr_one ha with h1 | ⟨t, th, h1⟩
    · exact ⟨B, by rw [h1]; exact hB⟩
    · refine ⟨max B (t + 1), fun u hu => ?_⟩
      rw [h1, upd_other _ _ (by omega)]
      exact hB u (by omega)

/-- A thread that waits goes on waiting until it is woken. -/
theorem act_waits {cfg : Config} {prog : List Site} {s s' : Rt} {l : Lbl}
    (ha : s.act cfg prog l = .ok s') {u : Nat} {sw : Bool} (hu : (s.thr u).pc = .sync sw) :
    (s'.thr u).pc = .sync sw ∨ (s'.thr u).pc = .woken sw := by
  have hset : ∀ (t : Nat) (th : Thr), ((s.thr t).pc = .sync sw → th.pc = .sync sw ∨ th.pc = .woken sw) →
      (upd s.thr t th u).pc = .sync sw ∨ (upd s.thr t th u).pc = .woken sw := by
    intro t th h
    by_cases ht : u = t
    · subst ht; rw [upd_same]; exact h hu
    · rw [upd_other _ _ ht]; exact .inl hu
  have hbg : BgStep s s' → (s'.thr u).pc = .sync sw ∨ (s'.thr u).pc = .woken sw := by
    intro h
    rcases h.pc u with h1 | ⟨sw', h1, h2⟩
    · rw [h1]; exact .inl hu
    · rw [hu] at h1; cases h1; exact .inr h2
  cases l
  case top | dict | peek | check | encode => simp only [Rt.act] at ha; exact hbg (actScan_bg ha)
  case scanned | aio | aioDone | write | disk => simp only [Rt.act] at ha; exact hbg (actIo_bg ha)
  all_goals
    simp only [Rt.act, Rt.actLog, Rt.actBuf, Rt.actCtl] at ha
    repeat' split at ha
    all_goals first
      | (cases ha; exact .inl hu)
      | (cases ha; exact hset _ _ fun hx => by simp_all)
      | cases ha

/-- The background thread ends only when told to, and waits for an operation only if there is one. -/
structure Ctl (s : Rt) : Prop where
  dead : s.pc = .dead → s.exit = true
  wait : s.status = .waitAio → s.aio ≠ none ∨ s.pc = .aioDone

theorem RtExec.ctl {cfg : Config} {prog : List Site} (hP : ProgOK cfg prog) {ls : List Lbl} {s : Rt}
    (h : RtExec cfg prog ls s) : Ctl s := by
  refine h.induct (P := fun _ s => Ctl s) ?_ ?_
  · intro jk c s h
    unfold Rt.init at h
    split at h <;> cases h
    exact ⟨by simp, by simp⟩
  · intro ls s l s' hx ih hl ha
    have hpa := (hx.inv hP).1.pcAio
    obtain ⟨i1, i2⟩ := ih
    have same : s'.pc = s.pc → s'.exit = s.exit → s'.status = s.status ∨ s'.status = .requested →
        s'.aio = s.aio → Ctl s' := by
      intro h1 h2 h3 h4
      refine ⟨by rw [h1, h2]; exact i1, ?_⟩
      rcases h3 with h3 | h3
      · rw [h1, h3, h4]; exact i2
      · rw [h3]; intro h; cases h
    have move : s.pc ≠ .aioDone → s'.pc ≠ .dead → s'.status = s.status → s'.aio = s.aio → Ctl s' := by
      intro h1 h2 h3 h4
      refine ⟨fun h => absurd h h2, ?_⟩
      rw [h3, h4]
      intro hw
      rcases i2 hw with h | h
      · exact .inl h
      · exact absurd h h1
    have hadv : ∀ (s1 : Rt) (j : Nat), s1.advance j = .ok s' → s1.status = s.status → s1.aio = s.aio →
        s.pc ≠ .aioDone → Ctl s' := by
      intro s1 j h h1 h2 h3
      have h := advance_eq h
      refine move h3 ?_ (by rw [h, ← h1]) (by rw [h, ← h2])
      rw [h]
      simp only; split <;> simp
    have hnot : ∀ (s1 : Rt) (w : Option Nat), s1.notify w = .ok s' → s1.status ≠ .waitAio →
        s1.pc ≠ .dead → Ctl s' := by
      intro s1 w h h1 h2
      obtain ⟨n1, -, n3, -, -, n6, -⟩ := notify_keeps h
      exact ⟨by rw [n1]; exact fun h => absurd h h2, by rw [n6]; exact fun h => absurd h h1⟩
    cases l
    case check =>
      simp only [Rt.act, Rt.actScan] at ha
      split at ha
      · cases ha
      rename_i hpc; simp only [ne_eq, not_not] at hpc
      split at ha
      · split at ha
        · cases ha; exact move (by simp [hpc]) (by simp) rfl rfl
        · exact hadv _ _ ha rfl rfl (by simp [hpc])
      · exact hadv _ _ ha rfl rfl (by simp [hpc])
    case encode junk more =>
      simp only [Rt.act, Rt.actScan] at ha
      split at ha
      · cases ha
      rename_i hpc; simp only [ne_eq, not_not] at hpc
      split at ha
      · cases ha
      split at ha
      · cases ha
      split at ha
      · split at ha
        · exact hadv _ _ ha rfl rfl (by simp [hpc])
        · split at ha
          · cases ha
          split at ha
          · exact hadv _ _ ha rfl rfl (by simp [hpc])
          · cases ha; exact same rfl rfl (.inl rfl) rfl
      · cases ha
    case top =>
      simp only [Rt.act, Rt.actScan] at ha
      split at ha
      · cases ha
      rename_i hpc; simp only [ne_eq, not_not] at hpc
      split at ha <;> cases ha
      · rename_i hx
        refine ⟨fun _ => hx.1, ?_⟩
        intro hw
        rcases i2 hw with h | h
        · exact absurd hx.2.2 h
        · rw [hpc] at h; cases h
      · exact move (by simp [hpc]) (by simp) rfl rfl
    case dict skip =>
      simp only [Rt.act, Rt.actScan] at ha
      split at ha
      · cases ha
      rename_i hpc; simp only [ne_eq, not_not] at hpc
      split at ha
      · cases ha; exact move (by simp [hpc]) (by simp) rfl rfl
      · split at ha <;> cases ha
        exact move (by simp [hpc]) (by simp) rfl rfl
    case peek n =>
      simp only [Rt.act, Rt.actScan] at ha
      split at ha
      · cases ha
      rename_i hpc; simp only [ne_eq, not_not] at hpc
      repeat' split at ha
      all_goals cases ha
      all_goals exact move (by simp [hpc]) (by simp) rfl rfl
    case scanned w =>
      simp only [Rt.act, Rt.actIo] at ha
      split at ha
      · cases ha
      rename_i hpc; simp only [ne_eq, not_not] at hpc
      split at ha
      · cases ha; exact move (by simp [hpc]) (by simp) rfl rfl
      split at ha
      · cases ha; exact ⟨by simp, by simp⟩
      split at ha
      · rename_i hi
        exact hnot _ _ ha (by simp [hi]) (by simp)
      · cases ha
        refine ⟨by simp, ?_⟩
        simp only [Rt.idleStatus]
        intro hw
        split at hw
        · split at hw
          · rename_i h; left; intro hn; rw [hn] at h; simp at h
          · cases hw
        · rcases i2 hw with h | h
          · exact .inl h
          · rw [hpc] at h; cases h
    case aio =>
      simp only [Rt.act, Rt.actIo] at ha
      split at ha
      · cases ha
      rename_i hpc; simp only [ne_eq, not_not] at hpc
      split at ha
      · cases ha; exact move (by simp [hpc]) (by simp) rfl rfl
      · split at ha
        · cases ha; exact ⟨by simp, by simp⟩
        · split at ha <;> cases ha
          exact move (by simp [hpc]) (by simp) rfl rfl
    case aioDone w =>
      simp only [Rt.act, Rt.actIo] at ha
      split at ha
      · cases ha
      split at ha
      · exact hnot _ _ ha (by simp) (by simp)
      · cases ha
        rename_i hs
        exact ⟨by simp, fun h => absurd h hs⟩
    case write =>
      simp only [Rt.act, Rt.actIo] at ha
      split at ha
      · cases ha
      rename_i hpc; simp only [ne_eq, not_not] at hpc
      split at ha <;> cases ha
      · exact move (by simp [hpc]) (by simp) rfl rfl
      · exact ⟨by simp, by simp⟩
    case disk n =>
      simp only [Rt.act, Rt.actIo] at ha
      split at ha
      · cases ha
      split at ha <;> try cases ha
      split at ha <;> cases ha
      exact ⟨i1, by simp⟩
    case stop t =>
      simp only [Rt.act, Rt.actCtl] at ha
      split at ha <;> cases ha
      exact ⟨fun _ => rfl, i2⟩
    case join t jk c =>
      simp only [Rt.act, Rt.actCtl] at ha
      split at ha <;> try cases ha
      rename_i hdead
      split at ha <;> cases ha
      refine ⟨by simp, ?_⟩
      intro hw
      rcases i2 hw with h | h
      · exact absurd (hpa (.inr (.inr hdead))) h
      · rw [hdead] at h; cases h
    all_goals
      simp only [Rt.act, Rt.actLog, Rt.actBuf, Rt.actCtl] at ha
      repeat' split at ha
      all_goals first
        | (cases ha; exact same rfl rfl (.inl rfl) rfl)
        | (cases ha; exact same rfl rfl (.inr rfl) rfl)
        | cases ha

/-- Only `register` changes the list of statements. -/
theorem act_sites_eq {cfg : Config} {prog : List Site} {s s' : Rt} {l : Lbl}
    (ha : s.act cfg prog l = .ok s') (hl : ∀ t, l ≠ .register t) : s'.sites = s.sites := by
  cases l
  case register t => exact absurd rfl (hl t)
  case top | dict | peek | check | encode => simp only [Rt.act] at ha; exact (actScan_bg ha).sites
  case scanned | aio | aioDone | write | disk => simp only [Rt.act] at ha; exact (actIo_bg ha).sites
  all_goals
    simp only [Rt.act, Rt.actLog, Rt.actBuf, Rt.actCtl] at ha
    repeat' split at ha
    all_goals first
      | (cases ha; rfl)
      | cases ha

/-! ## The steady phase -/

theorem eventually_const {f : Nat → Nat} {K : Nat} (h : ∀ k ≥ K, f (k + 1) ≤ f k) :
    ∃ K' ≥ K, ∀ k ≥ K', f (k + 1) = f k := by
  induction hn : f K using Nat.strongRecOn generalizing K with
  | ind n ih =>
    subst hn
    have hle : ∀ k ≥ K, f k ≤ f K := by
      intro k hk
      induction k, hk using Nat.le_induction with
      | base => exact Nat.le_refl _
      | succ k hk ih' => exact (h k hk).trans ih'
    by_cases hx : ∃ k ≥ K, f (k + 1) < f k
    · obtain ⟨k, hk, hlt⟩ := hx
      have := hle k hk
      obtain ⟨K', hK', h2⟩ := ih (f (k + 1)) (by omega) (K := k + 1) (fun j hj => h j (by omega)) rfl
      exact ⟨K', by omega, h2⟩
    · refine ⟨K, Nat.le_refl _, fun k hk => ?_⟩
      have h1 := h k hk
      have h2 : ¬ f (k + 1) < f k := fun hlt => hx ⟨k, hk, hlt⟩
      omega

theorem ofBg_isBg {l : Lbl} (h : l.ofBg = true) : l.isBg = true ∧ l.quiet = true := by
  cases l <;> simp_all [Lbl.ofBg, Lbl.isBg, Lbl.quiet]

theorem isBg_ofBg {l : Lbl} (h : l.isBg = true) (hq : l.quiet = true) : l.ofBg = true := by
  cases l <;> simp_all [Lbl.ofBg, Lbl.isBg, Lbl.quiet]

theorem Still.work {s s' : Rt} (h : Still s s') : s'.work = s.work :=
  work_same h.bufs h.sites h.pos fun t => by rw [h.q t]

variable {cfg : Config} {prog : List Site}

/-- From some time on the work does not change. -/
theorem RtRun.steady (hP : ProgOK cfg prog) (hL : LiveOK cfg prog) (r : RtRun cfg prog) (hF : r.Fair)
    {K : Nat} (hq : r.QuietFrom K) :
    ∃ K' ≥ K, Steady (fun k => r.σ (K' + k)) (fun k => r.lbl (K' + k)) := by
  obtain ⟨K1, hK1, hfresh⟩ := hF.fresh K fun j hj => by
    induction j, hj using Nat.le_induction with
    | base => rfl
    | succ j hj ih =>
      rw [← ih]
      have hs := r.step j
      cases hl : r.lbl j with
      | none => rw [hl] at hs; simp only at hs; rw [hs]
      | some l =>
        rw [hl] at hs
        refine act_sites_eq hs ?_
        rintro t rfl
        have := hq j hj _ hl
        simp [Lbl.quiet] at this
  have hstep : ∀ k ≥ K1, Still (r.σ k) (r.σ (k + 1)) ∨ ∃ l, r.lbl k = some l ∧ l.ofBg = true ∧
      ((r.σ (k + 1)).work < (r.σ k).work ∨
        (r.σ (k + 1)).work = (r.σ k).work ∧ Next l (r.σ k) (r.σ (k + 1))) := by
    intro k hk
    have hs := r.step k
    obtain ⟨hC, hI⟩ := (r.exec k).inv hP
    cases hl : r.lbl k with
    | none => rw [hl] at hs; simp only at hs; rw [hs]; exact .inl (Still.refl _)
    | some l =>
      rw [hl] at hs
      simp only at hs
      have hql := hq k (by omega) l hl
      cases hb : l.isBg with
      | false => exact .inl (quiet_still hb hql hs)
      | true =>
        refine .inr ⟨l, rfl, isBg_ofBg hb hql, bg_next hP hL hC hI hb ?_ ?_ hs⟩
        · rintro t jk c rfl; simp [Lbl.quiet] at hql
        · rintro rfl; exact hfresh k hk hl
  obtain ⟨K2, hK2, hconst⟩ := eventually_const (f := fun k => (r.σ k).work) (K := K1) fun k hk => by
    rcases hstep k hk with h | ⟨l, -, -, h | ⟨h, -⟩⟩
    · exact Nat.le_of_eq h.work
    · exact Nat.le_of_lt h
    · exact Nat.le_of_eq h
  have hnext : ∀ k ≥ K2, Still (r.σ k) (r.σ (k + 1)) ∨
      ∃ l, r.lbl k = some l ∧ l.ofBg = true ∧ Next l (r.σ k) (r.σ (k + 1)) := by
    intro k hk
    rcases hstep k (by omega) with h | ⟨l, h1, h2, h | ⟨-, h⟩⟩
    · exact .inl h
    · have := hconst k hk; omega
    · exact .inr ⟨l, h1, h2, h⟩
  refine ⟨K2, by omega, ?_⟩
  constructor
  · intro k; exact ((r.exec _).inv hP).1
  · intro k
    rcases hnext (K2 + k) (by omega) with h | ⟨l, h1, -, h2⟩
    · exact .inl h
    · exact .inr ⟨l, h1, h2⟩
  · intro k
    obtain ⟨j, hj, h⟩ := hF.bg (K2 + k)
    refine ⟨j - K2, by omega, ?_⟩
    simp only [show K2 + (j - K2) = j by omega, show K2 + (j - K2 + 1) = j + 1 by omega]
    rcases h with ⟨l, h1, h2⟩ | h | ⟨h1, h2, a, h3, h4⟩
    · left
      refine ⟨l, h1, ?_⟩
      have hs := r.step j
      obtain ⟨hC, hI⟩ := (r.exec j).inv hP
      rw [h1] at hs
      simp only at hs
      have hb := ofBg_isBg h2
      rcases bg_next hP hL hC hI hb.1 (by rintro t jk c rfl; simp [Lbl.ofBg] at h2)
        (by rintro rfl; exact hfresh j (by omega) h1) hs with h | h
      · have := hconst j (by omega); omega
      · exact h.2
    · exact .inr (.inl h)
    · exact .inr (.inr ⟨h1, h2, fun hd => h4 (hd a h3)⟩)
  · intro k
    obtain ⟨j, hj, h⟩ := hF.disk (K2 + k)
    refine ⟨j - K2, by omega, ?_⟩
    simp only [show K2 + (j - K2) = j by omega]
    exact h
  · rintro k h1 h2 h3 h4 u ⟨sw, hu⟩
    exact hF.notify (K2 + k) h1 h2 h3 h4 u sw hu
  · intro k
    exact ((r.exec (K2 + k)).ctl hP).wait

theorem RtRun.exit_const (r : RtRun cfg prog) {K : Nat} (hq : r.QuietFrom K) (k : Nat) (hk : K ≤ k) :
    (r.σ k).exit = (r.σ K).exit := by
  induction k, hk using Nat.le_induction with
  | base => rfl
  | succ k hk ih =>
    rw [← ih]
    have hs := r.step k
    cases hl : r.lbl k with
    | none => rw [hl] at hs; simp only at hs; rw [hs]
    | some l =>
      rw [hl] at hs
      simp only at hs
      have hql := hq k (by omega) l hl
      cases hb : l.isBg with
      | false => exact (quiet_still hb hql hs).exit
      | true =>
        cases l <;> simp only [Lbl.isBg, Lbl.quiet, Bool.false_eq_true] at hb hql <;>
          simp only [Rt.act] at hs <;> first
          | exact (actScan_bg hs).exit
          | exact (actIo_bg hs).exit

end NanoLog
