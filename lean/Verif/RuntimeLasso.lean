import Verif.RuntimeRun
import Verif.RuntimeExample

/-!
# Infinite executions for examples

A finite execution that ends with everything written is continued for ever by the background thread's
passes over empty buffers.  (Used to show that hypotheses of theorems about infinite executions can be
met; nothing here models code.)
-/

namespace NanoLog

/-- The next step of the background thread when there is nothing to do. -/
def Rt.idleLbl (s : Rt) : Lbl :=
  match s.pc with
  | .top => .top
  | .dict => .dict false
  | .scan => .peek 0
  | .check => .check
  | .scanned => .scanned none
  | .aio => .aio
  | .aioDone => .aioDone none
  | .write => .write
  | _ => .setLevel 0

/-- Nothing to do. -/
structure Rt.Idle (s : Rt) : Prop where
  exit : s.exit = false
  mem : s.mem s.encPtr = []
  aio : ∀ a, s.aio = some a → a.done = a.len
  status : s.status = .completed
  full : s.full = false
  pos : s.pos = s.sites.length
  bufs : s.bufs ≠ []
  last : s.last < s.bufs.length
  i : s.pc = .dict ∨ s.pc = .scan ∨ s.pc = .check → s.i < s.bufs.length
  cur : s.pc = .check → s.cur ∈ s.bufs
  thr : ∀ t ∈ s.bufs, (s.thr t).q = [] ∧ (s.thr t).dealloc = false ∧ (s.thr t).freed = false
  pcs : ∀ u, (s.thr u).pc = .idle
  pc : s.pc ≠ .dead ∧ s.pc ≠ .encode

theorem Rt.Idle.lbl {s : Rt} (h : s.Idle) : s.idleLbl.ofBg = true ∧ s.idleLbl.quiet = true ∧
    s.idleLbl ≠ .dict true ∧ (∀ cfg prog, s.idleLbl.OK cfg prog) ∧ (∀ t, s.idleLbl ≠ .takeId t) := by
  have h1 := h.pc
  unfold Rt.idleLbl
  cases hp : s.pc <;> simp_all [Lbl.ofBg, Lbl.quiet, Lbl.OK]

theorem Rt.Idle.step {cfg : Config} {prog : List Site} {s : Rt} (h : s.Idle) :
    ∃ s', s.act cfg prog s.idleLbl = .ok s' ∧ s'.Idle := by
  obtain ⟨h1, h2, h3, h4, h5, h6, h7, h8, h9, h10, h11, h12, h13⟩ := h
  unfold Rt.idleLbl
  cases hp : s.pc
  case dead => exact absurd hp h13.1
  case encode => exact absurd hp h13.2
  case top =>
    simp only [Rt.act, Rt.actScan, hp, h1]
    exact ⟨_, rfl, rfl, h2, h3, h4, h5, h6, h7, h8, fun _ => h8, (fun hx => by cases hx), h11, h12, ⟨by simp, by simp⟩⟩
  case dict =>
    have he : s.enc.step cfg (.dict s.sites.length) = some (s.enc, none) := by
      simp [EncSt.step, Rt.enc, h6]
    have hset : s.setEnc s.enc = s := by
      unfold Rt.setEnc Rt.enc
      have : upd s.mem s.encPtr (s.mem s.encPtr) = s.mem := by
        funext b; simp only [upd]; split <;> simp_all
      simp only [this]
    simp only [Rt.act, Rt.actScan, hp, he, hset]
    exact ⟨_, rfl, h1, h2, h3, h4, h5, h6, h7, h8, fun _ => h9 (.inl hp), (fun hx => by cases hx), h11, h12,
      ⟨by simp, by simp⟩⟩
  case scan =>
    have hi := h9 (.inr (.inl hp))
    have hb : s.bufs[s.i]? = some s.bufs[s.i] := List.getElem?_eq_getElem hi
    obtain ⟨t1, t2, t3⟩ := h11 s.bufs[s.i] (List.getElem_mem hi)
    simp only [Rt.act, Rt.actScan, hp, h5, h7, hb, t1, t3]
    exact ⟨_, rfl, h1, h2, h3, h4, rfl, h6, h7, h8, fun _ => hi, fun _ => List.getElem_mem hi, h11, h12,
      ⟨by simp, by simp⟩⟩
  case check =>
    obtain ⟨t1, t2, t3⟩ := h11 s.cur (h10 hp)
    have hl : s.bufs.length ≠ 0 := by omega
    have hm : (s.i + 1) % s.bufs.length < s.bufs.length := Nat.mod_lt _ (by omega)
    simp only [Rt.act, Rt.actScan, hp, t1, t2, Rt.advance, hl]
    refine ⟨_, rfl, h1, h2, h3, h4, h5, h6, h7, h8, fun _ => hm, fun hx => ?_, h11, h12, ?_⟩
    · simp only at hx; split at hx <;> cases hx
    · simp only; split <;> exact ⟨by simp, by simp⟩
  case scanned =>
    simp only [Rt.act, Rt.actIo, hp, h2, h4, Rt.idleStatus, Rt.notify]
    exact ⟨_, rfl, h1, h2, h3, rfl, h5, h6, h7, h8, (fun hx => by simp at hx), (fun hx => by cases hx), h11, h12,
      ⟨by simp, by simp⟩⟩
  case aio =>
    simp only [Rt.act, Rt.actIo, hp]
    cases ha : s.aio with
    | none =>
      exact ⟨_, rfl, h1, h2, (fun a hx => by cases hx), h4, h5, h6, h7, h8, (fun hx => by simp at hx), (fun hx => by cases hx), h11, h12,
        ⟨by simp, by simp⟩⟩
    | some a =>
      simp only [h3 a ha]
      exact ⟨_, rfl, h1, h2, (fun a hx => by cases hx), h4, h5, h6, h7, h8, (fun hx => by simp at hx),
        (fun hx => by cases hx), h11, h12, ⟨by simp, by simp⟩⟩
  case aioDone =>
    simp only [Rt.act, Rt.actIo, hp, h4]
    exact ⟨_, rfl, h1, h2, h3, rfl, h5, h6, h7, h8, (fun hx => by simp at hx), (fun hx => by cases hx), h11, h12,
      ⟨by simp, by simp⟩⟩
  case write =>
    simp only [Rt.act, Rt.actIo, hp, h2]
    exact ⟨_, rfl, h1, h2, h3, h4, h5, h6, h7, h8, (fun hx => by simp at hx), (fun hx => by cases hx), h11, h12,
      ⟨by simp, by simp⟩⟩

/-- The labels `ls`, then nothing to do. -/
def lassoLbl (ls : List Lbl) (k : Nat) (s : Rt) : Lbl := ls[k]?.getD s.idleLbl

/-- The states of the execution. -/
def lasso (ls : List Lbl) (s0 : Rt) : Nat → Rt
  | 0 => s0
  | k + 1 =>
    match (lasso ls s0 k).act exCfg exSites (lassoLbl ls k (lasso ls s0 k)) with
    | .ok s => s
    | _ => lasso ls s0 k

theorem run_take {cfg : Config} {prog : List Site} {ls : List Lbl} {s0 s : Rt}
    (h : s0.run cfg prog ls = .ok s) (k : Nat) (hk : k < ls.length) :
    ∃ s1 s2, s0.run cfg prog (ls.take k) = .ok s1 ∧ s1.act cfg prog ls[k] = .ok s2 ∧
      s0.run cfg prog (ls.take (k + 1)) = .ok s2 := by
  induction ls generalizing s0 k with
  | nil => simp at hk
  | cons l ls ih =>
    simp only [Rt.run] at h
    cases ha : s0.act cfg prog l with
    | off => rw [ha] at h; cases h
    | ub => rw [ha] at h; cases h
    | ok s1 =>
      rw [ha] at h
      cases k with
      | zero => exact ⟨s0, s1, rfl, ha, by simp [Rt.run, ha]⟩
      | succ k =>
        obtain ⟨a, b, h1, h2, h3⟩ := ih h k (by simpa using hk)
        exact ⟨a, b, by simp [Rt.run, ha, h1], h2, by simpa [Rt.run, ha] using h3⟩

theorem lasso_prefix {ls : List Lbl} {s0 s : Rt} (h : s0.run exCfg exSites ls = .ok s) (k : Nat)
    (hk : k ≤ ls.length) : s0.run exCfg exSites (ls.take k) = .ok (lasso ls s0 k) := by
  induction k with
  | zero => rfl
  | succ k ih =>
    obtain ⟨s1, s2, h1, h2, h3⟩ := run_take h k hk
    have h4 := ih (by omega)
    rw [h1] at h4
    rw [h3]
    simp only [lasso, lassoLbl, List.getElem?_eq_getElem (show k < ls.length by omega), Option.getD_some]
    rw [← Out.ok.inj h4, h2]

theorem lasso_tail {ls : List Lbl} {s0 s : Rt} (h : s0.run exCfg exSites ls = .ok s) (hi : s.Idle) (k : Nat)
    (hk : ls.length ≤ k) : (lasso ls s0 k).Idle := by
  induction k, hk using Nat.le_induction with
  | base =>
    have := lasso_prefix h ls.length (Nat.le_refl _)
    rw [List.take_length, h] at this
    rw [← Out.ok.inj this]; exact hi
  | succ k hk ih =>
    obtain ⟨s', h1, h2⟩ := ih.step (cfg := exCfg) (prog := exSites)
    simp only [lasso, lassoLbl, List.getElem?_eq_none hk, Option.getD_none, h1]
    exact h2

theorem lasso_step {ls : List Lbl} {s0 s : Rt} (h : s0.run exCfg exSites ls = .ok s) (hi : s.Idle) (k : Nat) :
    (lasso ls s0 k).act exCfg exSites (lassoLbl ls k (lasso ls s0 k)) = .ok (lasso ls s0 (k + 1)) := by
  by_cases hk : k < ls.length
  · obtain ⟨s1, s2, h1, h2, h3⟩ := run_take h k hk
    have h4 := lasso_prefix h k (by omega)
    have h5 := lasso_prefix h (k + 1) hk
    rw [h1] at h4
    rw [h3] at h5
    rw [← Out.ok.inj h4, ← Out.ok.inj h5, lassoLbl, List.getElem?_eq_getElem hk]
    exact h2
  · obtain ⟨s', h1, h2⟩ := (lasso_tail h hi k (by omega)).step (cfg := exCfg) (prog := exSites)
    have : lassoLbl ls k (lasso ls s0 k) = (lasso ls s0 k).idleLbl := by
      simp [lassoLbl, List.getElem?_eq_none (show ls.length ≤ k by omega)]
    simp only [lasso]
    rw [this, h1]

/-- The infinite execution. -/
def lassoRun (ls : List Lbl) (s0 s : Rt) (h0 : Rt.init exCfg 0 exCk = some s0)
    (hl : ls.all exLbl = true) (h : s0.run exCfg exSites ls = .ok s) (hi : s.Idle) : RtRun exCfg exSites where
  σ := lasso ls s0
  lbl k := some (lassoLbl ls k (lasso ls s0 k))
  start := ⟨0, exCk, exCk_plain, by decide, h0⟩
  ok k l hk := by
    cases hk
    by_cases hk : k < ls.length
    · rw [lassoLbl, List.getElem?_eq_getElem hk]
      exact exLbl_ok (List.all_eq_true.1 hl _ (List.getElem_mem hk))
    · rw [lassoLbl, List.getElem?_eq_none (by omega)]
      exact (lasso_tail h hi k (by omega)).lbl.2.2.2.1 _ _
  step k := lasso_step h hi k

/-- No `scanned none` among the labels is a notification. -/
def notifies : Rt → List Lbl → Bool
  | _, [] => true
  | s, l :: ls =>
    (match l with
     | .scanned none => !(decide (s.mem s.encPtr = [] ∧ s.status ≠ .requested ∧ s.idleStatus = .completed))
     | _ => true) &&
    match s.act exCfg exSites l with
    | .ok s' => notifies s' ls
    | _ => false

theorem notifies_at {ls : List Lbl} {s0 s : Rt} (h : s0.run exCfg exSites ls = .ok s)
    (hn : notifies s0 ls = true) (k : Nat) (hk : k < ls.length) (hl : ls[k] = .scanned none) :
    ∃ s1, s0.run exCfg exSites (ls.take k) = .ok s1 ∧
      ¬ (s1.mem s1.encPtr = [] ∧ s1.status ≠ .requested ∧ s1.idleStatus = .completed) := by
  induction ls generalizing s0 k with
  | nil => simp at hk
  | cons l ls ih =>
    simp only [Rt.run] at h
    simp only [notifies, Bool.and_eq_true] at hn
    cases ha : s0.act exCfg exSites l with
    | off => rw [ha] at h; cases h
    | ub => rw [ha] at h; cases h
    | ok s1 =>
      rw [ha] at h
      have hn2 := hn.2
      rw [ha] at hn2
      cases k with
      | zero =>
        simp only [List.getElem_cons_zero] at hl
        subst hl
        exact ⟨s0, rfl, by simpa only [Bool.not_eq_true', decide_eq_false_iff_not] using hn.1⟩
      | succ k =>
        obtain ⟨a, h1, h2⟩ := ih h hn2 k (by simpa using hk) (by simpa using hl)
        exact ⟨a, by simp [Rt.run, ha, h1], h2⟩

/-- Threads that have been woken, and threads in `setLogFile`, do nothing else. -/
theorem act_stays {cfg : Config} {prog : List Site} {s s' : Rt} {l : Lbl}
    (ha : s.act cfg prog l = .ok s') {u : Nat}
    (h : (∃ sw, (s.thr u).pc = .woken sw) ∧ l ≠ .ret u ∨ (s.thr u).pc = .stop ∧ l ≠ .stop u ∨
      (s.thr u).pc = .join ∧ ∀ jk c, l ≠ .join u jk c) : (s'.thr u).pc = (s.thr u).pc := by
  have hset : ∀ (t : Nat) (th : Thr), (t = u → th.pc = (s.thr u).pc) →
      (upd s.thr t th u).pc = (s.thr u).pc := by
    intro t th h
    by_cases ht : u = t
    · subst ht; rw [upd_same]; exact h rfl
    · rw [upd_other _ _ ht]
  have hbg : BgStep s s' → (s'.thr u).pc = (s.thr u).pc := by
    intro hb
    rcases hb.pc u with h1 | ⟨sw', h1, h2⟩
    · exact h1
    · rcases h with ⟨⟨sw, h⟩, -⟩ | ⟨h, -⟩ | ⟨h, -⟩ <;> rw [h1] at h <;> cases h
  cases l
  case top | dict | peek | check | encode => simp only [Rt.act] at ha; exact hbg (actScan_bg ha)
  case scanned | aio | aioDone | write | disk => simp only [Rt.act] at ha; exact hbg (actIo_bg ha)
  all_goals
    simp only [Rt.act, Rt.actLog, Rt.actBuf, Rt.actCtl] at ha
    repeat' split at ha
    all_goals first
      | (cases ha; rfl)
      | (cases ha
         refine hset _ _ fun hx => ?_
         subst hx
         exfalso
         rcases h with ⟨⟨sw, h⟩, h'⟩ | ⟨h, h'⟩ | ⟨h, h'⟩ <;> simp_all)
      | cases ha

theorem RtRun.act_of {cfg : Config} {prog : List Site} (r : RtRun cfg prog) {k : Nat} {l : Lbl}
    (h : r.lbl k = some l) : (r.σ k).act cfg prog l = .ok (r.σ (k + 1)) := by
  have := r.step k
  rw [h] at this
  exact this

theorem lassoRun_fair {ls : List Lbl} {s0 s : Rt} (h0 : Rt.init exCfg 0 exCk = some s0)
    (hl : ls.all exLbl = true) (h : s0.run exCfg exSites ls = .ok s) (hi : s.Idle)
    (hn : notifies s0 ls = true) : (lassoRun ls s0 s h0 hl h hi).Fair := by
  have ht : ∀ k, ls.length ≤ k → ((lassoRun ls s0 s h0 hl h hi).σ k).Idle := lasso_tail h hi
  have htl : ∀ k, ls.length ≤ k → (lassoRun ls s0 s h0 hl h hi).lbl k =
      some ((lassoRun ls s0 s h0 hl h hi).σ k).idleLbl := by
    intro k hk
    simp [lassoRun, lassoLbl, List.getElem?_eq_none hk]
  have hidle : ∀ k u, ls.length ≤ k → (((lassoRun ls s0 s h0 hl h hi).σ k).thr u).pc = .idle :=
    fun k u hk => (ht k hk).pcs u
  have hk : ∀ k l, (lassoRun ls s0 s h0 hl h hi).lbl k = some l → k < ls.length → ls[k]? = some l := by
    intro k l hk1 hk2
    have : lassoLbl ls k (lasso ls s0 k) = l := Option.some.inj hk1
    rw [lassoLbl, List.getElem?_eq_getElem hk2, Option.getD_some] at this
    rw [List.getElem?_eq_getElem hk2, this]
  have hσ : ∀ k, k ≤ ls.length → s0.run exCfg exSites (ls.take k) = .ok ((lassoRun ls s0 s h0 hl h hi).σ k) :=
    lasso_prefix h
  generalize lassoRun ls s0 s h0 hl h hi = r at *
  -- a thread that stays where it is contradicts the end
  have hstay : ∀ k u (p : TPc), p ≠ .idle → ((r.σ k).thr u).pc = p →
      (∀ j ≥ k, ((r.σ j).thr u).pc = p → ((r.σ (j + 1)).thr u).pc = p) → False := by
    intro k u p hp h1 h2
    have h3 : ∀ j ≥ k, ((r.σ j).thr u).pc = p := by
      intro j hj
      induction j, hj using Nat.le_induction with
      | base => exact h1
      | succ j hj ih => exact h2 j hj ih
    have h4 := h3 (max k ls.length) (by omega)
    rw [hidle _ u (by omega)] at h4
    exact hp h4.symm
  refine ⟨fun k => ?_, fun k => ?_, fun k hs hm hst hid u sw hu => ?_, fun k t sw hw => ?_,
    fun k t hw => ?_, fun k t hw => ?_, fun k _ => ?_⟩
  · exact ⟨max k ls.length, by omega, .inl ⟨_, htl _ (by omega), (ht _ (by omega)).lbl.1⟩⟩
  · exact ⟨max k ls.length, by omega, (ht _ (by omega)).aio⟩
  · by_cases hlt : k < ls.length
    · have h1 := hk k _ hs hlt
      rw [List.getElem?_eq_getElem hlt] at h1
      obtain ⟨s1, h2, h3⟩ := notifies_at h hn k hlt (Option.some.inj h1)
      rw [hσ k (by omega)] at h2
      rw [← Out.ok.inj h2] at h3
      exact h3 ⟨hm, hst, hid⟩
    · rw [hidle k u (by omega)] at hu; cases hu
  · by_contra hno
    refine hstay k t (.woken sw) (by simp) hw fun j hj hp => ?_
    have hs := r.step j
    cases hl : r.lbl j with
    | none => rw [hl] at hs; simp only at hs; rw [hs, hp]
    | some l =>
      rw [act_stays (r.act_of hl) (.inl ⟨⟨_, hp⟩, fun hx => hno ⟨j, hj, by rw [hl, hx]⟩⟩), hp]
  · by_contra hno
    refine hstay k t .stop (by simp) hw fun j hj hp => ?_
    have hs := r.step j
    cases hl : r.lbl j with
    | none => rw [hl] at hs; simp only at hs; rw [hs, hp]
    | some l =>
      rw [act_stays (r.act_of hl) (.inr (.inl ⟨hp, fun hx => hno ⟨j, hj, by rw [hl, hx]⟩⟩)), hp]
  · have h1 := (hw (max k ls.length) (by omega)).1
    rw [hidle _ t (by omega)] at h1
    cases h1
  · refine ⟨max k ls.length, by omega, fun i hi => ?_⟩
    rw [htl i (by omega)]
    intro hx
    exact (ht i (by omega)).lbl.2.2.1 (Option.some.inj hx)

/-- The thread that a label of an application thread belongs to. -/
def Lbl.who : Lbl → Option Nat
  | .call t .. | .readId t _ | .register t | .stamp t _ | .reserve t | .preallocate t | .takeId t | .push t
  | .commit t | .exitThread t | .sync t | .spurious t | .ret t | .setFile t _ | .stop t | .join t .. => some t
  | _ => none

theorem act_other {cfg : Config} {prog : List Site} {s s' : Rt} {l : Lbl} {u : Nat}
    (ha : s.act cfg prog l = .ok s') (hw : l.who ≠ some u) (h : (s.thr u).pc = .idle) :
    (s'.thr u).pc = .idle := by
  have hset : ∀ (t : Nat) (th : Thr), t ≠ u → (upd s.thr t th u).pc = .idle := by
    intro t th ht
    rw [upd_other _ _ (Ne.symm ht)]; exact h
  have hbg : BgStep s s' → (s'.thr u).pc = .idle := by
    intro hb
    rcases hb.pc u with h1 | ⟨sw', h1, h2⟩
    · rw [h1, h]
    · rw [h] at h1; cases h1
  cases l
  case top | dict | peek | check | encode => simp only [Rt.act] at ha; exact hbg (actScan_bg ha)
  case scanned | aio | aioDone | write | disk => simp only [Rt.act] at ha; exact hbg (actIo_bg ha)
  all_goals
    simp only [Rt.act, Rt.actLog, Rt.actBuf, Rt.actCtl] at ha
    simp only [Lbl.who, ne_eq, Option.some.injEq] at hw
    repeat' split at ha
    all_goals first
      | (cases ha; exact h)
      | (cases ha; exact hset _ _ hw)
      | cases ha

theorem run_other {cfg : Config} {prog : List Site} {ls : List Lbl} {s s' : Rt} {u : Nat}
    (h : s.run cfg prog ls = .ok s') (hw : ∀ l ∈ ls, l.who ≠ some u) (hs : (s.thr u).pc = .idle) :
    (s'.thr u).pc = .idle := by
  induction ls generalizing s with
  | nil => cases h; exact hs
  | cons l ls ih =>
    simp only [Rt.run] at h
    cases ha : s.act cfg prog l with
    | off => rw [ha] at h; cases h
    | ub => rw [ha] at h; cases h
    | ok s1 =>
      rw [ha] at h
      exact ih h (fun l hl => hw l (by simp [hl])) (act_other ha (hw l (by simp)) hs)

/-- `Rt.Idle` for threads 1 and 2. -/
def idleB (s : Rt) : Bool :=
  !s.exit && s.mem s.encPtr == [] &&
  (match s.aio with | none => true | some a => a.done == a.len) && s.status == .completed && !s.full &&
  s.pos == s.sites.length && s.bufs != [] && decide (s.last < s.bufs.length) && s.pc == .top &&
  (s.bufs.all fun t => (s.thr t).q == [] && !(s.thr t).dealloc && !(s.thr t).freed) &&
  (s.thr 1).pc == .idle && (s.thr 2).pc == .idle

theorem idleB_idle {ls : List Lbl} {s0 s : Rt} (h0 : Rt.init exCfg 0 exCk = some s0)
    (h : s0.run exCfg exSites ls = .ok s)
    (hw : (ls.all fun l => l.who == none || l.who == some 1 || l.who == some 2) = true)
    (hb : idleB s = true) : s.Idle := by
  simp only [idleB, Bool.and_eq_true, beq_iff_eq, bne_iff_ne, ne_eq, decide_eq_true_eq, Bool.not_eq_true',
    List.all_eq_true] at hb
  obtain ⟨⟨⟨⟨⟨⟨⟨⟨⟨⟨⟨h1, h2⟩, h3⟩, h4⟩, h5⟩, h6⟩, h7⟩, h8⟩, h9⟩, h10⟩, h11⟩, h12⟩ := hb
  refine ⟨h1, h2, ?_, h4, h5, h6, h7, h8, fun hx => by simp [h9] at hx, fun hx => by simp [h9] at hx, ?_, ?_,
    by simp [h9]⟩
  · intro a ha; rw [ha] at h3; simpa using h3
  · intro t ht
    have := h10 t ht
    exact ⟨this.1.1, this.1.2, this.2⟩
  · intro u
    by_cases hu1 : u = 1
    · rw [hu1, h11]
    by_cases hu2 : u = 2
    · rw [hu2, h12]
    refine run_other h (fun l hl hx => ?_) ?_
    · have := List.all_eq_true.1 hw l hl
      rw [hx] at this
      simp [hu1, hu2] at this
    · unfold Rt.init at h0
      split at h0 <;> cases h0
      rfl

theorem lassoRun_allocs {ls : List Lbl} {s0 s : Rt} (h0 : Rt.init exCfg 0 exCk = some s0)
    (hl : ls.all exLbl = true) (h : s0.run exCfg exSites ls = .ok s) (hi : s.Idle) (j : Nat) :
    allocs ((lassoRun ls s0 s h0 hl h hi).labels j) ≤ ls.length := by
  suffices hm : allocs ((lassoRun ls s0 s h0 hl h hi).labels j) ≤ min j ls.length by omega
  induction j with
  | zero => simp [RtRun.labels, allocs]
  | succ j ih =>
    rw [RtRun.labels_succ]
    have e : ∀ a b, allocs (a ++ b) = allocs a + allocs b := by
      intro a b; simp [allocs]
    rw [e]
    by_cases hj : j < ls.length
    · have : allocs ((lassoRun ls s0 s h0 hl h hi).lbl j).toList ≤ 1 :=
        Nat.le_trans (List.length_filter_le _ _) (by simp [lassoRun])
      omega
    · have : allocs ((lassoRun ls s0 s h0 hl h hi).lbl j).toList = 0 := by
        have h1 := (lasso_tail h hi j (by omega)).lbl.2.2.2.2
        have h2 : (lassoRun ls s0 s h0 hl h hi).lbl j = some (lasso ls s0 j).idleLbl := by
          simp [lassoRun, lassoLbl, List.getElem?_eq_none (show ls.length ≤ j by omega)]
        rw [h2]
        simp only [Option.toList_some, allocs]
        revert h1
        generalize (lasso ls s0 j).idleLbl = l
        intro h1
        cases l <;> simp_all
      omega

/-- A finite execution with the computed properties is continued to a fair infinite one. -/
theorem exLasso {ls : List Lbl} (hl : ls.all exLbl = true)
    (hw : (ls.all fun l => l.who == none || l.who == some 1 || l.who == some 2) = true)
    (hc : exCheck ls idleB = true)
    (hn : (match Rt.init exCfg 0 exCk with | some s0 => notifies s0 ls | none => false) = true) :
    ∃ (r : RtRun exCfg exSites) (s0 : Rt), Rt.init exCfg 0 exCk = some s0 ∧ r.Fair ∧
      (∀ k < ls.length, r.lbl k = ls[k]?) ∧
      (∀ k ≤ ls.length, s0.run exCfg exSites (ls.take k) = .ok (r.σ k)) ∧
      (∀ k ≥ ls.length, ∀ l, r.lbl k = some l → l.quiet = true) ∧
      ∀ j, allocs (r.labels j) ≤ ls.length := by
  unfold exCheck at hc
  cases h0 : Rt.init exCfg 0 exCk with
  | none => rw [h0] at hc; cases hc
  | some s0 =>
    rw [h0] at hc hn
    simp only at hc hn
    cases hr : s0.run exCfg exSites ls with
    | off => rw [hr] at hc; cases hc
    | ub => rw [hr] at hc; cases hc
    | ok s =>
      rw [hr] at hc
      have hi := idleB_idle h0 hr hw hc
      refine ⟨lassoRun ls s0 s h0 hl hr hi, s0, rfl, lassoRun_fair h0 hl hr hi hn, ?_, ?_, ?_,
        lassoRun_allocs h0 hl hr hi⟩
      · intro k hk
        simp [lassoRun, lassoLbl, List.getElem?_eq_getElem hk]
      · exact lasso_prefix hr
      · intro k hk l hl'
        have h2 : (lassoRun ls s0 s h0 hl hr hi).lbl k = some (lasso ls s0 k).idleLbl := by
          simp [lassoRun, lassoLbl, List.getElem?_eq_none hk]
        rw [h2] at hl'
        rw [← Option.some.inj hl']
        exact (lasso_tail hr hi k hk).lbl.2.1

end NanoLog
