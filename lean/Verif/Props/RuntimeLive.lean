import Verif.RuntimeStarve
import Verif.Props.RuntimeSync

/-!
# Liveness of the runtime (C52, C53)

`sync` and `setLogFile` return, and messages reach the file, in every fair infinite execution in which the
application stops logging.
-/

namespace NanoLog

variable {cfg : Config} {prog : List Site}

/-! ## C52 `sync` and `setLogFile` return -/

/-- A thread that waits is woken before it does anything else. -/
theorem RtRun.woken_of (r : RtRun cfg prog) {k j t : Nat} {sw : Bool} (hk : ((r.σ k).thr t).pc = .sync sw)
    (hj : k ≤ j) (hn : ¬ (r.σ j).waits t) : ∃ i ≥ k, ((r.σ i).thr t).pc = .woken sw := by
  induction j, hj using Nat.le_induction with
  | base => exact absurd ⟨sw, hk⟩ hn
  | succ j hj ih =>
    by_cases hw : (r.σ j).waits t
    swap
    · exact ih hw
    by_cases hx : ∃ i ≥ k, i ≤ j ∧ ((r.σ i).thr t).pc = .woken sw
    · obtain ⟨i, h1, -, h2⟩ := hx; exact ⟨i, h1, h2⟩
    have hall : ∀ i, k ≤ i → i ≤ j → ((r.σ i).thr t).pc = .sync sw := by
      intro i hi
      induction i, hi using Nat.le_induction with
      | base => exact fun _ => hk
      | succ i hi ih' =>
        intro hij
        have h1 := ih' (by omega)
        have hs := r.step i
        cases hl : r.lbl i with
        | none => rw [hl] at hs; simp only at hs; rw [hs]; exact h1
        | some l =>
          rw [hl] at hs
          rcases act_waits hs h1 with h2 | h2
          · exact h2
          · exact absurd ⟨i + 1, by omega, hij, h2⟩ hx
    have h1 := hall j hj (Nat.le_refl _)
    have hs := r.step j
    cases hl : r.lbl j with
    | none => rw [hl] at hs; simp only at hs; rw [hs] at hn; exact absurd hw hn
    | some l =>
      rw [hl] at hs
      rcases act_waits hs h1 with h2 | h2
      · exact absurd ⟨sw, h2⟩ hn
      · exact ⟨j + 1, by omega, h2⟩

/-- Full claim: in every fair execution every call of `sync` returns.  That is false of the code
(`C52_starved_false`).  Proved here: `sync` returns if thread `t` waits in `sync` (or in the `sync` called by `setLogFile`) and from then
on nothing is logged, and no thread is in the middle of `setLogFile`, then the call of `sync` returns in
every fair execution. -/
theorem C52_sync_returns_partial (hP : ProgOK cfg prog) (hL : LiveOK cfg prog) (r : RtRun cfg prog) (hF : r.Fair)
    {K : Nat} (hq : r.QuietFrom K) (he : (r.σ K).exit = false) {t : Nat} {sw : Bool}
    (ht : ((r.σ K).thr t).pc = .sync sw) : ∃ j ≥ K, r.lbl j = some (.ret t) := by
  obtain ⟨K', hK', hS⟩ := r.steady hP hL hF hq
  obtain ⟨B, hB⟩ := (r.exec K').finite
  obtain ⟨j, -, hj⟩ := hS.woken (B := B) (t := t) (fun u ⟨sw, hu⟩ => by
    by_contra hn
    have := hB u (by omega)
    simp only [Nat.add_zero] at hu
    rw [this] at hu; simp [Thr.init] at hu) 0
  have hnd : (r.σ (K' + j)).pc ≠ .dead := by
    intro hd
    have h1 := ((r.exec (K' + j)).ctl hP).dead hd
    rw [r.exit_const hq _ (by omega), he] at h1
    cases h1
  rcases hj with hj | hj
  · exact absurd hj hnd
  · obtain ⟨i, hi, hw⟩ := r.woken_of ht (j := K' + j) (by omega) hj
    obtain ⟨i', hi', hr⟩ := hF.ret i t sw hw
    exact ⟨i', by omega, hr⟩

/-- Until `sync` returns the thread is in it. -/
theorem RtRun.in_sync (r : RtRun cfg prog) {K t : Nat} {sw : Bool} (ht : ((r.σ K).thr t).pc = .sync sw) {j : Nat}
    (hj : K ≤ j) (hm : ∀ m, K ≤ m → m < j → r.lbl m ≠ some (.ret t)) :
    ((r.σ j).thr t).pc = .sync sw ∨ ((r.σ j).thr t).pc = .woken sw := by
  induction j, hj using Nat.le_induction with
  | base => exact .inl ht
  | succ j hj ih =>
    have h := ih fun m h1 h2 => hm m h1 (by omega)
    have hs := r.step j
    cases hl : r.lbl j with
    | none => rw [hl] at hs; simp only at hs; rw [hs]; exact h
    | some l =>
      have hs := r.act_of hl
      rcases h with h | h
      · exact act_waits hs h
      · right
        rw [act_stays hs (.inl ⟨⟨_, h⟩, fun hx => hm j hj (by omega) (by rw [hl, hx])⟩), h]

/-- The same if only finitely much is logged: other threads may go on logging, calling `sync`, starting and ending
after the call, as long as that comes to an end at some time `K`. -/
theorem C52_sync_returns_later_partial (hP : ProgOK cfg prog) (hL : LiveOK cfg prog) (r : RtRun cfg prog) (hF : r.Fair)
    {K0 K : Nat} (hK : K0 ≤ K) (hq : r.QuietFrom K) (he : (r.σ K).exit = false) {t : Nat} {sw : Bool}
    (ht : ((r.σ K0).thr t).pc = .sync sw) : ∃ j ≥ K0, r.lbl j = some (.ret t) := by
  by_contra hno
  have h := r.in_sync ht hK fun m hm _ hl => hno ⟨m, hm, hl⟩
  rcases h with h | h
  · obtain ⟨j, hj, hl⟩ := C52_sync_returns_partial hP hL r hF hq he h
    exact hno ⟨j, by omega, hl⟩
  · obtain ⟨j, hj, hl⟩ := hF.ret K t sw h
    exact hno ⟨j, by omega, hl⟩

/-- The first time something happens. -/
theorem first_time {p : Nat → Prop} {K : Nat} (h : ∃ j ≥ K, p j) :
    ∃ i ≥ K, p i ∧ ∀ m, K ≤ m → m < i → ¬ p m := by
  obtain ⟨j, hj, hp⟩ := h
  have hx : ∃ n, p (K + n) := ⟨j - K, by rwa [Nat.add_sub_cancel' hj]⟩
  classical
  refine ⟨K + Nat.find hx, by omega, Nat.find_spec hx, fun m h1 h2 hm => ?_⟩
  refine Nat.find_min hx (m := m - K) (by omega) ?_
  rwa [Nat.add_sub_cancel' h1]

/-- `compressionThreadShouldExit` changes only inside `setLogFile`. -/
theorem act_exit {s s' : Rt} {l : Lbl} (h : s.act cfg prog l = .ok s') (h1 : ∀ u, l ≠ .stop u)
    (h2 : ∀ u jk c, l ≠ .join u jk c) : s'.exit = s.exit := by
  cases l
  case stop u => exact absurd rfl (h1 u)
  case join u jk c => exact absurd rfl (h2 u jk c)
  case top | dict | peek | check | encode => simp only [Rt.act] at h; exact (actScan_bg h).exit
  case scanned | aio | aioDone | write | disk => simp only [Rt.act] at h; exact (actIo_bg h).exit
  all_goals
    simp only [Rt.act, Rt.actLog, Rt.actBuf, Rt.actCtl] at h
    repeat' split at h
    all_goals first
      | (cases h; rfl)
      | cases h

/-- Full claim: in every fair execution every call of `setLogFile` returns (false, as it calls `sync`).
Proved here: if thread `t` has called it (at `K0` it waits in `sync`), no other thread is in the second part of
`setLogFile` meanwhile, and from some time `K` on, apart from its steps, nothing is logged and neither `sync` nor
`setLogFile` is called, the call completes in every fair execution. -/
theorem C52_setLogFile_returns_partial (hP : ProgOK cfg prog) (hL : LiveOK cfg prog) (r : RtRun cfg prog)
    (hF : r.Fair) {K0 K t : Nat} (hK : K0 ≤ K)
    (hq0 : ∀ j ≥ K0, ∀ u, (r.lbl j = some (.stop u) → u = t) ∧ ∀ jk c, r.lbl j = some (.join u jk c) → u = t)
    (hq : ∀ j ≥ K, ∀ l, r.lbl j = some l → l.quiet = true ∨ l = .stop t ∨ ∃ jk c, l = .join t jk c)
    (he : (r.σ K0).exit = false) (ht : ((r.σ K0).thr t).pc = .sync true) :
    ∃ j ≥ K0, ∃ jk c, r.lbl j = some (.join t jk c) := by
  by_contra hno
  have hno' : ∀ j ≥ K0, ∀ jk c, r.lbl j ≠ some (.join t jk c) := fun j hj jk c h => hno ⟨j, hj, jk, c, h⟩
  -- the flag stays as it is unless `t` sets it
  have hex : ∀ a ≥ K0, ∀ b ≥ a, (∀ m, a ≤ m → m < b → r.lbl m ≠ some (.stop t)) → (r.σ b).exit = (r.σ a).exit := by
    intro a ha b hb
    induction b, hb using Nat.le_induction with
    | base => exact fun _ => rfl
    | succ b hb ih =>
      intro hm
      have h := ih fun m h1 h2 => hm m h1 (by omega)
      have hs := r.step b
      cases hl : r.lbl b with
      | none => rw [hl] at hs; simp only at hs; rw [hs]; exact h
      | some l =>
        rw [act_exit (r.act_of hl) ?_ ?_, h]
        · rintro u rfl
          have := (hq0 b (by omega) u).1 hl
          subst this
          exact hm b hb (by omega) hl
        · rintro u jk c rfl
          have := (hq0 b (by omega) u).2 jk c hl
          subst this
          exact hno' b (by omega) jk c hl
  -- in `sync`
  have h1 : ∀ j, K0 ≤ j → (∀ m, K0 ≤ m → m < j → r.lbl m ≠ some (.ret t)) →
      ((r.σ j).thr t).pc = .sync true ∨ ((r.σ j).thr t).pc = .woken true := fun j hj hm => r.in_sync ht hj hm
  have hret : ∃ j ≥ K0, r.lbl j = some (.ret t) := by
    by_contra hnr
    have h2 := fun j hj => h1 j hj fun m hm _ hl => hnr ⟨m, hm, hl⟩
    have hns : ∀ j ≥ K0, r.lbl j ≠ some (.stop t) := by
      intro j hj hl
      have hs := r.act_of hl
      simp only [Rt.act, Rt.actCtl] at hs
      rcases h2 j hj with h | h <;> rw [h] at hs <;> cases hs
    refine hnr (C52_sync_returns_later_partial hP hL r hF hK ?_ ?_ ht)
    · intro j hj l hl
      rcases hq j hj l hl with h | rfl | ⟨jk, c, rfl⟩
      · exact h
      · exact absurd hl (hns j (by omega))
      · exact absurd hl (hno' j (by omega) jk c)
    · rw [hex K0 (Nat.le_refl _) K hK fun m hm _ => hns m hm, he]
  obtain ⟨j1, hj1, hl1, hmin1⟩ := first_time hret
  have hst : ((r.σ (j1 + 1)).thr t).pc = .stop := by
    have hs := r.act_of hl1
    simp only [Rt.act, Rt.actCtl] at hs
    rcases h1 j1 hj1 hmin1 with h | h <;> rw [h] at hs <;> simp only at hs
    · cases hs
    · rw [← Out.ok.inj hs]
      simp [Rt.setThr]
  -- `compressionThreadShouldExit`
  obtain ⟨j2, hj2, hl2, hmin2⟩ := first_time (hF.stop (j1 + 1) t hst)
  have hst2 : ∀ j, j1 + 1 ≤ j → j ≤ j2 → ((r.σ j).thr t).pc = .stop := by
    intro j hj
    induction j, hj using Nat.le_induction with
    | base => exact fun _ => hst
    | succ j hj ih =>
      intro hle
      have h := ih (by omega)
      have hs := r.step j
      cases hl : r.lbl j with
      | none => rw [hl] at hs; simp only at hs; rw [hs]; exact h
      | some l =>
        rw [act_stays (r.act_of hl)
          (.inr (.inl ⟨h, fun hx => hmin2 j hj (by omega) (by rw [hl, hx])⟩)), h]
  have hjo : ((r.σ (j2 + 1)).thr t).pc = .join ∧ (r.σ (j2 + 1)).exit = true := by
    have hs := r.act_of hl2
    simp only [Rt.act, Rt.actCtl, hst2 j2 hj2 (Nat.le_refl _)] at hs
    rw [← Out.ok.inj hs]
    simp [Rt.setThr]
  have hjoin : ∀ j ≥ j2 + 1, ((r.σ j).thr t).pc = .join := by
    intro j hj
    induction j, hj using Nat.le_induction with
    | base => exact hjo.1
    | succ j hj ih =>
      have hs := r.step j
      cases hl : r.lbl j with
      | none => rw [hl] at hs; simp only at hs; rw [hs]; exact ih
      | some l =>
        rw [act_stays (r.act_of hl)
          (.inr (.inr ⟨ih, fun jk c hx => hno' j (by omega) jk c (by rw [hl, hx])⟩)), ih]
  have hns : ∀ j ≥ j2 + 1, r.lbl j ≠ some (.stop t) := by
    intro j hj hl
    have hs := r.act_of hl
    simp only [Rt.act, Rt.actCtl, hjoin j hj] at hs
    cases hs
  have hq3 : r.QuietFrom (max (j2 + 1) K) := by
    intro j hj l hl
    rcases hq j (by omega) l hl with h | rfl | ⟨jk, c, rfl⟩
    · exact h
    · exact absurd hl (hns j (by omega))
    · exact absurd hl (hno' j (by omega) jk c)
  obtain ⟨K', hK', hS⟩ := r.steady hP hL hF hq3
  obtain ⟨j, -, hd⟩ := hS.reach_dead (k := 0) (by
    simp only [Nat.add_zero]
    rw [hex (j2 + 1) (by omega) K' (by omega) fun m hm _ => hns m hm, hjo.2])
  obtain ⟨i, hi, jk, c, hl⟩ := hF.join (K' + j) t fun i hi => ⟨hjoin i (by omega), by
    have := hS.dead_stable hd (i - K') (by omega)
    simp only [show K' + (i - K') = i by omega] at this
    exact this⟩
  exact hno' i (by omega) jk c hl

theorem exLive : LiveOK exCfg exSites := ⟨by decide, by decide, by decide⟩

/-- Thread 1 calls `sync` after three messages have been logged; the call returns. -/
def exLiveSync : List Lbl := exThreads ++ [.sync 1] ++ exSynced ++ [.write, .ret 1]

theorem quiet_from {r : RtRun cfg prog} {ls : List Lbl} {K : Nat} (h1 : ∀ k < ls.length, r.lbl k = ls[k]?)
    (h2 : ∀ k ≥ ls.length, ∀ l, r.lbl k = some l → l.quiet = true) (p : Lbl → Bool)
    (hp : ∀ l, l.quiet = true → p l = true) (hq : ((ls.drop K).all p) = true) :
    ∀ j ≥ K, ∀ l, r.lbl j = some l → p l = true := by
  intro j hj l hl
  by_cases h : j < ls.length
  · rw [h1 j h] at hl
    refine List.all_eq_true.1 hq l (List.mem_of_getElem? (i := j - K) ?_)
    rw [List.getElem?_drop, Nat.add_sub_cancel' hj, hl]
  · exact hp _ (h2 j (by omega) l hl)

/-- Case for `C52_sync_returns_partial`. -/
theorem exLiveSync_run : ∃ (r : RtRun exCfg exSites) (K : Nat), r.Fair ∧ r.QuietFrom K ∧
    (r.σ K).exit = false ∧ ((r.σ K).thr 1).pc = .sync false ∧ ((r.σ K).thr 2).q.length = 2 ∧
    ∀ j, allocs (r.labels j) ≤ 2 ^ 32 := by
  obtain ⟨r, s0, h0, hF, h1, h2, h3, h4⟩ := exLasso (ls := exLiveSync) (by decide +kernel) (by decide +kernel)
    (by decide +kernel) (by decide +kernel)
  have hlen : exLiveSync.length = 52 := by decide +kernel
  have hc : exCheck (exLiveSync.take 24) (fun s => !s.exit && (s.thr 1).pc == .sync false &&
      (s.thr 2).q.length == 2) = true := by decide +kernel
  unfold exCheck at hc
  rw [h0] at hc
  simp only [h2 24 (by omega), Bool.and_eq_true, beq_iff_eq, Bool.not_eq_true'] at hc
  refine ⟨r, 24, hF, quiet_from h1 h3 _ (fun _ h => h) (by decide +kernel), hc.1.1, hc.1.2, hc.2, fun j => ?_⟩
  exact Nat.le_trans (h4 j) (by rw [hlen]; decide)

example : ∃ (r : RtRun exCfg exSites) (j : Nat), r.lbl j = some (.ret 1) := by
  obtain ⟨r, K, hF, hq, he, ht, -⟩ := exLiveSync_run
  obtain ⟨j, -, hj⟩ := C52_sync_returns_partial exProgOK exLive r hF hq he ht
  exact ⟨r, j, hj⟩

/-- Thread 1 calls `sync` while thread 2 has two more messages to log. -/
def exLiveLate : List Lbl := exFirst 1 0 1000 [.int .i32 (-5)] ++ [.sync 1] ++ exFirst 2 1 1010 [.cstr 4096 [104, 105]] ++
  exNext 2 0 1020 [.int .i32 70000] ++ exSynced ++ [.write, .ret 1]

/-- Case for `C52_sync_returns_later_partial`. -/
example : ∃ (r : RtRun exCfg exSites) (K0 K : Nat), r.Fair ∧ K0 ≤ K ∧ r.QuietFrom K ∧ (r.σ K).exit = false ∧
    ((r.σ K0).thr 1).pc = .sync false ∧ ((r.σ K0).thr 2).q = [] ∧ ((r.σ K).thr 2).q.length = 2 := by
  obtain ⟨r, s0, h0, hF, h1, h2, h3, -⟩ := exLasso (ls := exLiveLate) (by decide +kernel) (by decide +kernel)
    (by decide +kernel) (by decide +kernel)
  have hc : exCheck (exLiveLate.take 9) (fun s => (s.thr 1).pc == .sync false && (s.thr 2).q == []) = true := by
    decide +kernel
  have hd : exCheck (exLiveLate.take 22) (fun s => !s.exit && (s.thr 2).q.length == 2) = true := by
    decide +kernel
  unfold exCheck at hc hd
  rw [h0] at hc hd
  simp only [h2 9 (by decide +kernel), h2 22 (by decide +kernel), Bool.and_eq_true, beq_iff_eq, Bool.not_eq_true'] at hc hd
  exact ⟨r, 9, 22, hF, by omega, quiet_from h1 h3 _ (fun _ h => h) (by decide +kernel), hd.1, hc.1, hc.2, hd.2⟩

/-- No other thread than 1 is in the second part of `setLogFile`. -/
def ofOne : Lbl → Bool
  | .stop t | .join t _ _ => t == 1
  | _ => true

/-- The second part of `setLogFile` by thread 1. -/
def ofOne' : Lbl → Bool
  | .stop t | .join t _ _ => t == 1
  | _ => false

theorem ofOne_quiet (l : Lbl) (h : l.quiet = true) : ofOne l = true := by
  cases l <;> first | rfl | cases h

theorem only_one {r : RtRun cfg prog} {K : Nat} (h : ∀ j ≥ K, ∀ l, r.lbl j = some l → ofOne l = true) :
    ∀ j ≥ K, ∀ u, (r.lbl j = some (.stop u) → u = 1) ∧ ∀ jk c, r.lbl j = some (.join u jk c) → u = 1 := by
  intro j hj u
  exact ⟨fun hl => by simpa [ofOne] using h j hj _ hl, fun jk c hl => by simpa [ofOne] using h j hj _ hl⟩

theorem quiet_one {r : RtRun cfg prog} {K : Nat}
    (h : ∀ j ≥ K, ∀ l, r.lbl j = some l → (l.quiet || ofOne' l) = true) :
    ∀ j ≥ K, ∀ l, r.lbl j = some l → l.quiet = true ∨ l = .stop 1 ∨ ∃ jk c, l = .join 1 jk c := by
  intro j hj l hl
  have := h j hj l hl
  simp only [Bool.or_eq_true] at this
  refine this.imp id fun h => ?_
  cases l <;> simp [ofOne'] at h
  · left; rw [h]
  · right; rw [h]; exact ⟨_, _, rfl⟩

/-- Thread 1 calls `setLogFile`; afterwards the new file gets its checkpoint and dictionary. -/
def exLiveSwitch : List Lbl := exThreads ++ [.setFile 1 true] ++ exSynced ++
  [.write, .ret 1, .stop 1, .top, .join 1 0 exCk, .top, .dict false, .peek 0, .check, .peek 0, .check,
   .scanned none, .aio, .write, .disk 85]

/-- Thread 1 calls `setLogFile` while thread 2 has two more messages to log. -/
def exLiveLateSwitch : List Lbl := exFirst 1 0 1000 [.int .i32 (-5)] ++ [.setFile 1 true] ++
  exFirst 2 1 1010 [.cstr 4096 [104, 105]] ++ exNext 2 0 1020 [.int .i32 70000] ++ exSynced ++
  [.write, .ret 1, .stop 1, .top, .join 1 0 exCk, .top, .dict false, .peek 0, .check, .peek 0, .check,
   .scanned none, .aio, .write, .disk 85]

/-- Case for `C52_setLogFile_returns_partial`, with `K0 = K`. -/
example : ∃ (r : RtRun exCfg exSites) (K : Nat), r.Fair ∧
    (∀ j ≥ K, ∀ u, (r.lbl j = some (.stop u) → u = 1) ∧ ∀ jk c, r.lbl j = some (.join u jk c) → u = 1) ∧
    (∀ j ≥ K, ∀ l, r.lbl j = some l → l.quiet = true ∨ l = .stop 1 ∨ ∃ jk c, l = .join 1 jk c) ∧
    (r.σ K).exit = false ∧ ((r.σ K).thr 1).pc = .sync true := by
  obtain ⟨r, s0, h0, hF, h1, h2, h3, -⟩ := exLasso (ls := exLiveSwitch) (by decide +kernel) (by decide +kernel)
    (by decide +kernel) (by decide +kernel)
  have hc : exCheck (exLiveSwitch.take 24) (fun s => !s.exit && (s.thr 1).pc == .sync true) = true := by
    decide +kernel
  unfold exCheck at hc
  rw [h0] at hc
  simp only [h2 24 (by decide +kernel), Bool.and_eq_true, beq_iff_eq, Bool.not_eq_true'] at hc
  exact ⟨r, 24, hF, only_one (quiet_from h1 h3 (K := 24) ofOne ofOne_quiet (by decide +kernel)),
    quiet_one (quiet_from h1 h3 (K := 24) (fun l => l.quiet || ofOne' l) (fun _ h => by simp [h]) (by decide +kernel)),
    hc.1, hc.2⟩

/-- Case for `C52_setLogFile_returns_partial`, with messages logged after the call. -/
example : ∃ (r : RtRun exCfg exSites) (K0 K : Nat), r.Fair ∧ K0 ≤ K ∧
    (∀ j ≥ K0, ∀ u, (r.lbl j = some (.stop u) → u = 1) ∧ ∀ jk c, r.lbl j = some (.join u jk c) → u = 1) ∧
    (∀ j ≥ K, ∀ l, r.lbl j = some l → l.quiet = true ∨ l = .stop 1 ∨ ∃ jk c, l = .join 1 jk c) ∧
    (r.σ K0).exit = false ∧ ((r.σ K0).thr 1).pc = .sync true ∧ ((r.σ K0).thr 2).q = [] ∧
    ((r.σ K).thr 2).q.length = 2 := by
  obtain ⟨r, s0, h0, hF, h1, h2, h3, -⟩ := exLasso (ls := exLiveLateSwitch) (by decide +kernel) (by decide +kernel)
    (by decide +kernel) (by decide +kernel)
  have hc : exCheck (exLiveLateSwitch.take 9) (fun s => !s.exit && (s.thr 1).pc == .sync true &&
      (s.thr 2).q == []) = true := by decide +kernel
  have hd : exCheck (exLiveLateSwitch.take 22) (fun s => (s.thr 2).q.length == 2) = true := by decide +kernel
  unfold exCheck at hc hd
  rw [h0] at hc hd
  simp only [h2 9 (by decide +kernel), h2 22 (by decide +kernel), Bool.and_eq_true, beq_iff_eq, Bool.not_eq_true'] at hc hd
  exact ⟨r, 9, 22, hF, by omega, only_one (quiet_from h1 h3 (K := 9) ofOne ofOne_quiet (by decide +kernel)),
    quiet_one (quiet_from h1 h3 (K := 22) (fun l => l.quiet || ofOne' l) (fun _ h => by simp [h]) (by decide +kernel)),
    hc.1.1, hc.1.2, hc.2, hd⟩

/-- The execution of `RuntimeStarve.lean`. -/
theorem sv_run : ∃ (r : RtRun exCfg exSites), r.Fair ∧ (∀ k, r.lbl k = some (svLbl k)) ∧
    (∀ m, ((r.σ (17 + 14 * m)).thr 2).q = []) ∧
    (∀ j ≥ 9, ((r.σ j).thr 1).pc = .sync false ∧ (r.σ j).exit = false) ∧
    ∀ k, ∃ j ≥ k, r.lbl j = some (.commit 2) ∧ ∃ i ≥ j, ((r.σ i).thr 2).q = [] := by
  have hi : (Rt.init exCfg 0 exCk).isSome = true := by decide +kernel
  obtain ⟨s0, h0⟩ := Option.isSome_iff_exists.1 hi
  obtain ⟨s1, hr1, ht1⟩ := sv_init h0
  have hl1 : svStart.length = 17 := by decide +kernel
  have hl2 : svRound.length = 14 := by decide +kernel
  obtain ⟨hp1, hp2⟩ := stream_run (f := svLbl) (s0 := s0) (k := 0) hr1 fun i hi => by
    rw [Nat.zero_add]; exact svLbl_start (by omega)
  rw [hl1, Nat.zero_add] at hp1
  have hrounds : ∀ m, SvTop (stream svLbl s0 (17 + 14 * m)) := by
    intro m
    induction m with
    | zero => rw [Nat.mul_zero, Nat.add_zero, hp1]; exact ht1
    | succ m ih =>
      obtain ⟨s9, s', -, -, h3, h4⟩ := sv_round ih
      have := (stream_run h3 fun i hi => svLbl_round (by omega)).1
      rw [hl2] at this
      rw [show 17 + 14 * (m + 1) = 17 + 14 * m + 14 by omega, this]
      exact h4
  have hstep : ∀ k, (stream svLbl s0 k).act exCfg exSites (svLbl k) = .ok (stream svLbl s0 (k + 1)) := by
    intro k
    by_cases hk : k < 17
    · have := hp2 k (by omega)
      rwa [Nat.zero_add] at this
    · obtain ⟨s9, s', -, -, h3, -⟩ := sv_round (hrounds ((k - 17) / 14))
      have := (stream_run h3 fun i hi => svLbl_round (by omega)).2 ((k - 17) % 14) (by omega)
      rwa [show 17 + 14 * ((k - 17) / 14) + (k - 17) % 14 = k by omega] at this
  have hall : ∀ (p : Lbl → Bool), ((svStart ++ svRound).all p = true) → ∀ k, p (svLbl k) = true :=
    fun p hp k => List.all_eq_true.1 hp _ (svLbl_mem k)
  have hmild := hall Lbl.mild (by decide +kernel)
  have hnw : ∀ k, NoWake (stream svLbl s0 k) := by
    intro k
    induction k with
    | zero =>
      unfold Rt.init at h0
      split at h0 <;> cases h0
      intro u
      simp [stream, Thr.init]
    | succ k ih => exact act_mild (hmild k) (hstep k) ih
  let r : RtRun exCfg exSites := {
    σ := stream svLbl s0
    lbl := fun k => some (svLbl k)
    start := ⟨0, exCk, exCk_plain, by decide, h0⟩
    ok := fun k l hl => by
      cases hl
      exact exLbl_ok (hall exLbl (by decide +kernel) k)
    step := hstep }
  have hround : ∀ m i, i < 14 → r.lbl (17 + 14 * m + i) = svRound[i]? := fun m i hi => (svLbl_round hi).symm
  refine ⟨r, ⟨fun k => ?_, fun k => ?_, fun k hs hm hst hid u sw hu => ?_, fun k t sw hw => ?_,
    fun k t hw => ?_, fun k t hw => ?_, fun k _ => ?_⟩, fun _ => rfl, fun m => (hrounds m).1.q, ?_, fun k => ?_⟩
  · exact ⟨17 + 14 * k + 5, by omega, .inl ⟨.top, hround k 5 (by decide), rfl⟩⟩
  · obtain ⟨-, a, ha, hd⟩ := hrounds k
    refine ⟨17 + 14 * k, by omega, fun b hb => ?_⟩
    have : some a = some b := by rw [← ha, ← hb]
    cases this; exact hd
  · have hs : svLbl k = .scanned none := Option.some.inj hs
    by_cases hk : k < 17
    · have h1 := svLbl_start hk
      rw [hs] at h1
      have h13 : k = 13 := by
        have hnot : ∀ i < 17, i ≠ 13 → (match svStart[i]? with | some (.scanned none) => false | _ => true) = true := by
          decide +kernel
        by_contra hne
        have := hnot k hk hne
        rw [h1] at this
        cases this
      subst h13
      have hc : exCheck (svStart.take 13) (fun s => s.mem s.encPtr != []) = true := by decide +kernel
      unfold exCheck at hc
      rw [h0] at hc
      obtain ⟨a, b, h3, -, -⟩ := run_take hr1 13 (by omega)
      have h4 := (stream_run (f := svLbl) (s0 := s0) (k := 0) h3 fun i hi => by
        rw [List.length_take] at hi
        rw [List.getElem?_take, if_pos (by omega), Nat.zero_add]
        exact svLbl_start (by omega)).1
      rw [List.length_take, hl1] at h4
      simp only [h3, bne_iff_ne, ne_eq] at hc
      rw [← h4] at hc
      exact hc hm
    · obtain ⟨s9, s', h1, h2, -, -⟩ := sv_round (hrounds ((k - 17) / 14))
      have h5 := svLbl_round (m := (k - 17) / 14) (i := (k - 17) % 14) (by omega)
      rw [show 17 + 14 * ((k - 17) / 14) + (k - 17) % 14 = k by omega, hs] at h5
      have h9 : (k - 17) % 14 = 9 := by
        have hnot : ∀ i < 14, i ≠ 9 → (match svRound[i]? with | some (.scanned none) => false | _ => true) = true := by
          decide +kernel
        by_contra hne
        have := hnot _ (Nat.mod_lt _ (by decide)) hne
        rw [h5] at this
        cases this
      have h4 := (stream_run (f := svLbl) (s0 := s0) h1 fun i hi => by
        rw [List.length_take] at hi
        rw [List.getElem?_take, if_pos (by omega)]
        exact svLbl_round (by omega)).1
      rw [List.length_take, hl2, show 17 + 14 * ((k - 17) / 14) + min 9 14 = k by omega] at h4
      rw [← h4] at h2
      exact h2 hm
  · exact absurd hw ((hnw k t).1 sw)
  · exact absurd hw (hnw k t).2.1
  · exact absurd (hw k (Nat.le_refl _)).1 (hnw k t).2.2
  · refine ⟨k, Nat.le_refl _, fun i _ hx => ?_⟩
    have := hall (fun l => match l with | .dict true => false | _ => true) (by decide +kernel) i
    rw [Option.some.inj hx] at this
    cases this
  · have hc : exCheck (svStart.take 9) (fun s => (s.thr 1).pc == .sync false && !s.exit) = true := by
      decide +kernel
    unfold exCheck at hc
    rw [h0] at hc
    obtain ⟨a, b, h3, -, -⟩ := run_take hr1 9 (by omega)
    have h4 := (stream_run (f := svLbl) (s0 := s0) (k := 0) h3 fun i hi => by
      rw [List.length_take] at hi
      rw [List.getElem?_take, if_pos (by omega), Nat.zero_add]
      exact svLbl_start (by omega)).1
    rw [List.length_take, hl1] at h4
    simp only [h3, Bool.and_eq_true, beq_iff_eq, Bool.not_eq_true'] at hc
    rw [← h4] at hc
    intro j hj
    induction j, hj using Nat.le_induction with
    | base => exact hc
    | succ j hj ih =>
      refine ⟨(act_waits (hstep j) ih.1).resolve_right ((hnw (j + 1) 1).1 false), ?_⟩
      have he : ∀ {s s' : Rt} {l : Lbl}, l.mild = true → s.act exCfg exSites l = .ok s' → s'.exit = s.exit := by
        intro s s' l hm ha
        cases l
        case top | dict | peek | check | encode => simp only [Rt.act] at ha; exact (actScan_bg ha).exit
        case scanned | aio | aioDone | write | disk => simp only [Rt.act] at ha; exact (actIo_bg ha).exit
        case spurious | ret | setFile | stop | join => cases hm
        all_goals
          simp only [Rt.act, Rt.actLog, Rt.actBuf, Rt.actCtl] at ha
          repeat' split at ha
          all_goals first
            | (cases ha; rfl)
            | cases ha
      exact (he (hmild j) (hstep j)).trans ih.2
  · refine ⟨17 + 14 * k + 4, by omega, hround k 4 (by decide), 17 + 14 * (k + 1), by omega, ?_⟩
    exact (hrounds (k + 1)).1.q

/-- In general `sync` need not return, although everything else makes progress: in this fair execution
thread 1 waits from `K` on for ever, while thread 2 logs a message before each pass of the background
thread (which restarts the search for two passes without output, runtime/RuntimeLogger.cc:511-524), and
its messages are taken from its buffer.  So the restriction on logging in `C52_sync_returns_partial` is needed. -/
theorem C52_starved_false : ∃ (r : RtRun exCfg exSites) (K : Nat), r.Fair ∧
    (∀ j ≥ K, ((r.σ j).thr 1).pc = .sync false ∧ (r.σ j).exit = false) ∧
    ∀ k, ∃ j ≥ k, r.lbl j = some (.commit 2) ∧ ∃ i ≥ j, ((r.σ i).thr 2).q = [] := by
  obtain ⟨r, hF, -, -, h1, h2⟩ := sv_run
  exact ⟨r, 9, hF, h1, h2⟩

/-! ## C53 Messages reach the file -/

/-- Full claim: every message is written to the file at some time, whatever else happens.  Proved here for
executions in which logging stops: if from `K` on nothing is logged (and `sync` and `setLogFile` are not used), there is a time from which
on nothing is left in the staging buffers, in the output buffers, or being written. -/
theorem C53_drained_partial (hP : ProgOK cfg prog) (hL : LiveOK cfg prog) (r : RtRun cfg prog) (hF : r.Fair)
    {K : Nat} (hq : r.QuietFrom K) (he : (r.σ K).exit = false) :
    ∃ J ≥ K, ∀ j ≥ J, (r.σ j).mem (r.σ j).encPtr = [] ∧ (r.σ j).aio = none ∧ ∀ t, ((r.σ j).thr t).q = [] := by
  obtain ⟨K', hK', hS⟩ := r.steady hP hL hF hq
  have hnd : ∀ j, (r.σ (K' + j)).pc ≠ .dead := by
    intro j hd
    have h1 := ((r.exec (K' + j)).ctl hP).dead hd
    rw [r.exit_const hq _ (by omega), he] at h1
    cases h1
  obtain ⟨J, -, hd | ⟨h1, h2⟩⟩ := hS.reach_none 0
  · exact absurd hd (hnd J)
  refine ⟨K' + J, by omega, fun j hj => ?_⟩
  have e : K' + (j - K') = j := by omega
  have hc := hS.calm_stable h1 (j - K') (by omega)
  have ha := hS.none_stable h1 h2 (j - K') (by omega)
  have hqs := fun t ht hne => hS.queues (k := j - K') hc.1 (t := t) ht hne
  simp only [e] at hc ha hqs
  refine ⟨hc.1.1, ha, fun t => ?_⟩
  by_contra hne
  by_cases ht : t ∈ (r.σ j).bufs
  · obtain ⟨i, -, hd⟩ := hqs t ht hne
    exact hnd i hd
  · exact hne ((((r.exec j).inv hP).1.thr t).out ht)

/-- In the situation of `C53_drained_partial`, all messages that had to be recorded are decoded from the files
from some time on, without any call of `sync`. -/
theorem C53_persisted_partial (hP : ProgOK cfg prog) (hL : LiveOK cfg prog) (r : RtRun cfg prog) (hF : r.Fair)
    {K : Nat} (hq : r.QuietFrom K) (he : (r.σ K).exit = false) (hn : ∀ j, allocs (r.labels j) ≤ 2 ^ 32) :
    ∃ J ≥ K, ∀ j ≥ J, ∃ outs : List (List OutMsg),
      (r.σ j).files.map (decodeFile (cfg.staging + 9)) = outs.map some ∧
      ∀ t b, ((r.σ j).thr t).bid = some b →
        (((r.σ j).thr t).pc = .idle ∨ ((r.σ j).thr t).pc = .exited) →
        List.Forall₂ (MsgOf prog b) (mustRecord prog t (r.labels j))
          (outs.flatten.filter fun m => m.tid == b) := by
  obtain ⟨J, hJ, h⟩ := C53_drained_partial hP hL r hF hq he
  refine ⟨J, hJ, fun j hj => ?_⟩
  obtain ⟨h1, h2, h3⟩ := h j hj
  obtain ⟨outs, h4, h5⟩ := C30_complete hP (r.exec j) (hn j) h1 h2
  exact ⟨outs, h4, fun t b hb hpc => h5 t b hb (h3 t) hpc⟩

/-- Case for `C53_drained_partial` and `C53_persisted_partial`: messages of two threads are decoded. -/
example : ∃ (r : RtRun exCfg exSites) (K : Nat), r.Fair ∧ r.QuietFrom K ∧ (r.σ K).exit = false ∧
    ((r.σ K).thr 2).q.length = 2 ∧ (∀ j, allocs (r.labels j) ≤ 2 ^ 32) ∧
    ∃ J ≥ K, ∀ j ≥ J, ∃ outs : List (List OutMsg),
      (r.σ j).files.map (decodeFile 265) = outs.map some ∧
      ∀ t b, ((r.σ j).thr t).bid = some b →
        (((r.σ j).thr t).pc = .idle ∨ ((r.σ j).thr t).pc = .exited) →
        List.Forall₂ (MsgOf exSites b) (mustRecord exSites t (r.labels j))
          (outs.flatten.filter fun m => m.tid == b) := by
  obtain ⟨r, K, hF, hq, he, -, hl, ha⟩ := exLiveSync_run
  exact ⟨r, K, hF, hq, he, hl, ha, C53_persisted_partial exProgOK exLive r hF hq he ha⟩

end NanoLog
