import Verif.RuntimeFile

/-! Helper lemmas about executions of the runtime: recorded calls, thread ids, monotonicity. -/

namespace NanoLog

theorem rtRun_append {cfg : Config} {prog : List Site} (s : Rt) (a b : List Lbl) :
    s.run cfg prog (a ++ b) =
      match s.run cfg prog a with
      | .ok s1 => s1.run cfg prog b
      | .off => .off
      | .ub => .ub := by
  induction a generalizing s with
  | nil => simp [Rt.run]
  | cons l a ih =>
    simp only [List.cons_append, Rt.run]
    cases s.act cfg prog l with
    | ok s1 => simp only; exact ih s1
    | off => rfl
    | ub => rfl

/-- Induction along an execution. -/
theorem RtExec.induct {cfg : Config} {prog : List Site} {P : List Lbl → Rt → Prop}
    (init : ∀ jk c s, Rt.init cfg jk c = some s → P [] s)
    (step : ∀ ls s l s', RtExec cfg prog ls s → P ls s → l.OK cfg prog →
      s.act cfg prog l = .ok s' → P (ls ++ [l]) s')
    {ls : List Lbl} {s : Rt} (h : RtExec cfg prog ls s) : P ls s := by
  obtain ⟨jk, c, s0, h1, h2, h3, h4, h5⟩ := h
  have : ∀ (n : Nat) (ls : List Lbl) (s : Rt), ls.length = n → (∀ l ∈ ls, l.OK cfg prog) →
      s0.run cfg prog ls = .ok s → P ls s := by
    intro n
    induction n with
    | zero =>
      intro ls s hn _ hr
      have := List.length_eq_zero_iff.1 hn
      subst this
      cases hr
      exact init _ _ _ h3
    | succ n ih =>
      intro ls s hn hl hr
      rcases List.eq_nil_or_concat ls with rfl | ⟨a, l, rfl⟩
      · simp at hn
      · rw [List.concat_eq_append] at *
        rw [rtRun_append] at hr
        cases hr1 : s0.run cfg prog a with
        | off => rw [hr1] at hr; cases hr
        | ub => rw [hr1] at hr; cases hr
        | ok s1 =>
          rw [hr1] at hr
          simp only [Rt.run] at hr
          split at hr <;> try cases hr
          rename_i s2 ha
          have hla : ∀ l ∈ a, l.OK cfg prog := fun l h => hl l (by simp [h])
          exact step a s1 l s ⟨jk, c, s0, h1, h2, h3, hla, hr1⟩
            (ih a s1 (by simpa using hn) hla hr1) (hl l (by simp)) ha
  exact this _ ls s rfl h4 h5

theorem RtExec.append {cfg : Config} {prog : List Site} {ls ls' : List Lbl} {s s' : Rt}
    (h : RtExec cfg prog ls s) (hl : ∀ l ∈ ls', l.OK cfg prog)
    (hr : s.run cfg prog ls' = .ok s') : RtExec cfg prog (ls ++ ls') s' := by
  obtain ⟨jk, c, s0, h1, h2, h3, h4, h5⟩ := h
  refine ⟨jk, c, s0, h1, h2, h3, ?_, by rw [rtRun_append, h5]; exact hr⟩
  intro l hl'
  rcases List.mem_append.1 hl' with h | h
  · exact h4 l h
  · exact hl l h

/-! ## What the background thread leaves alone -/

/-- Steps of the background thread and of the system: threads keep log and id; only waiting
threads change their position. -/
structure BgStep (s s' : Rt) : Prop where
  level : s'.level = s.level
  ids : s'.ids = s.ids
  sites : s'.sites = s.sites
  nextId : s'.nextId = s.nextId
  closed : s'.closed = s.closed
  exit : s'.exit = s.exit
  log : ∀ u, (s'.thr u).log = (s.thr u).log
  bid : ∀ u, (s'.thr u).bid = (s.thr u).bid
  pc : ∀ u, (s'.thr u).pc = (s.thr u).pc ∨
    ∃ sw, (s.thr u).pc = .sync sw ∧ (s'.thr u).pc = .woken sw

theorem BgStep.refl (s : Rt) : BgStep s s :=
  ⟨rfl, rfl, rfl, rfl, rfl, rfl, fun _ => rfl, fun _ => rfl, fun _ => .inl rfl⟩

theorem BgStep.advance {s s1 s' : Rt} {j : Nat} (h : BgStep s s1) (ha : s1.advance j = .ok s') :
    BgStep s s' := by
  unfold Rt.advance at ha
  split at ha <;> cases ha
  exact { h with }

theorem BgStep.notify {s s1 s' : Rt} {w : Option Nat} (h : BgStep s s1) (ht : s1.thr = s.thr)
    (ha : s1.notify w = .ok s') : BgStep s s' := by
  unfold Rt.notify at ha
  split at ha
  · cases ha; exact h
  · rename_i w
    split at ha <;> cases ha
    rename_i sw hpc
    rw [ht] at hpc
    refine { h with log := ?_, bid := ?_, pc := ?_ }
    · intro u
      simp only [Rt.setThr]
      by_cases hu : u = w
      · subst hu; rw [upd_same, ht]
      · rw [upd_other _ _ hu, ht]
    · intro u
      simp only [Rt.setThr]
      by_cases hu : u = w
      · subst hu; rw [upd_same, ht]
      · rw [upd_other _ _ hu, ht]
    · intro u
      simp only [Rt.setThr]
      by_cases hu : u = w
      · subst hu; rw [upd_same]; exact .inr ⟨sw, hpc, rfl⟩
      · rw [upd_other _ _ hu, ht]; exact .inl rfl

theorem thr_upd {s : Rt} {t : Nat} {th : Thr} (h1 : th.log = (s.thr t).log)
    (h2 : th.bid = (s.thr t).bid) (h3 : th.pc = (s.thr t).pc) (u : Nat) :
    (upd s.thr t th u).log = (s.thr u).log ∧ (upd s.thr t th u).bid = (s.thr u).bid ∧
    (upd s.thr t th u).pc = (s.thr u).pc := by
  by_cases hu : u = t
  · subst hu; rw [upd_same]; exact ⟨h1, h2, h3⟩
  · rw [upd_other _ _ hu]; exact ⟨rfl, rfl, rfl⟩

theorem actScan_bg {cfg : Config} {s s' : Rt} {l : Lbl} (ha : s.actScan cfg l = .ok s') :
    BgStep s s' := by
  have h0 := BgStep.refl s
  cases l <;> simp only [Rt.actScan] at ha <;> try cases ha
  case top =>
    split at ha
    · cases ha
    split at ha <;> cases ha <;> exact { h0 with }
  case dict skip =>
    split at ha
    · cases ha
    split at ha
    · cases ha; exact { h0 with }
    · split at ha <;> cases ha
      exact { h0 with }
  case peek n =>
    split at ha
    · cases ha
    split at ha
    · cases ha; exact { h0 with }
    split at ha
    · cases ha
    split at ha
    · cases ha
    split at ha
    · split at ha <;> cases ha; exact { h0 with }
    · split at ha <;> cases ha; exact { h0 with }
  case check =>
    split at ha
    · cases ha
    split at ha
    · have hu := thr_upd (s := s) (t := s.cur) (th := { s.thr s.cur with freed := true }) rfl rfl rfl
      split at ha
      · cases ha
        exact { h0 with log := fun u => (hu u).1, bid := fun u => (hu u).2.1
                        pc := fun u => .inl (hu u).2.2 }
      · refine BgStep.advance ?_ ha
        exact { h0 with log := fun u => (hu u).1, bid := fun u => (hu u).2.1
                        pc := fun u => .inl (hu u).2.2 }
    · exact h0.advance ha
  case encode junk more =>
    split at ha
    · cases ha
    split at ha
    · cases ha
    split at ha
    · cases ha
    split at ha
    · split at ha
      · refine BgStep.advance ?_ ha
        exact { h0 with }
      · split at ha
        · cases ha
        rename_i k hk
        have hu := thr_upd (s := s) (t := s.cur)
          (th := { s.thr s.cur with q := (s.thr s.cur).q.drop k }) rfl rfl rfl
        split at ha
        · refine BgStep.advance ?_ ha
          exact { h0 with log := fun u => (hu u).1, bid := fun u => (hu u).2.1
                          pc := fun u => .inl (hu u).2.2 }
        · cases ha
          exact { h0 with log := fun u => (hu u).1, bid := fun u => (hu u).2.1
                          pc := fun u => .inl (hu u).2.2 }
    · cases ha

theorem actIo_bg {s s' : Rt} {l : Lbl} (ha : s.actIo l = .ok s') : BgStep s s' := by
  have h0 := BgStep.refl s
  cases l <;> simp only [Rt.actIo] at ha <;> try cases ha
  case scanned w =>
    split at ha
    · cases ha
    split at ha
    · cases ha; exact { h0 with }
    split at ha
    · cases ha; exact { h0 with }
    split at ha
    · refine BgStep.notify (s := s) (s1 := { s with status := s.idleStatus, pc := .aio }) ?_ rfl ha
      exact { h0 with }
    · cases ha; exact { h0 with }
  case aio =>
    split at ha
    · cases ha
    split at ha
    · cases ha; exact { h0 with }
    · split at ha
      · cases ha; exact { h0 with }
      · split at ha <;> cases ha
        exact { h0 with }
  case aioDone w =>
    split at ha
    · cases ha
    split at ha
    · refine BgStep.notify (s := s) (s1 := { s with status := .completed, pc := .write }) ?_ rfl ha
      exact { h0 with }
    · cases ha; exact { h0 with }
  case write =>
    split at ha
    · cases ha
    split at ha <;> cases ha <;> exact { h0 with }
  case disk n =>
    split at ha
    · cases ha
    split at ha <;> try cases ha
    split at ha <;> cases ha
    exact { h0 with }

/-! ## Recorded calls -/

/-- Call `c` belongs to the recorded call `r`. -/
def RecRel (ids : Nat → Option Nat) (c : LogCall) (r : Nat × List Arg) : Prop :=
  ids r.1 = some c.id ∧ c.args = r.2

/-- The call a thread is working on. -/
def PendOK (ids : Nat → Option Nat) : TPc → List (Nat × List Arg) → Prop
  | .called k args, p | .reg k args, p => p = [(k, args)]
  | .known id args, p => ∃ k, ids k = some id ∧ p = [(k, args)]
  | .stamped c, p | .write c, p | .take (some c), p | .push (some c), p =>
    ∃ k, ids k = some c.id ∧ p = [(k, c.args)]
  | _, p => p = []

/-- Thread `th` has recorded or is recording the calls `sp`. -/
def TRec (ids : Nat → Option Nat) (th : Thr) (sp : List (Nat × List Arg)) : Prop :=
  ∃ done pend, sp = done ++ pend ∧ List.Forall₂ (RecRel ids) th.log done ∧ PendOK ids th.pc pend

theorem PendOK.mono {ids ids' : Nat → Option Nat} (h : ∀ k i, ids k = some i → ids' k = some i)
    {pc : TPc} {p : List (Nat × List Arg)} (hp : PendOK ids pc p) : PendOK ids' pc p := by
  cases pc with
  | known id args => obtain ⟨k, h1, h2⟩ := hp; exact ⟨k, h _ _ h1, h2⟩
  | stamped c => obtain ⟨k, h1, h2⟩ := hp; exact ⟨k, h _ _ h1, h2⟩
  | write c => obtain ⟨k, h1, h2⟩ := hp; exact ⟨k, h _ _ h1, h2⟩
  | take c =>
    cases c with
    | none => exact hp
    | some c => obtain ⟨k, h1, h2⟩ := hp; exact ⟨k, h _ _ h1, h2⟩
  | push c =>
    cases c with
    | none => exact hp
    | some c => obtain ⟨k, h1, h2⟩ := hp; exact ⟨k, h _ _ h1, h2⟩
  | _ => exact hp

theorem TRec.mono {ids ids' : Nat → Option Nat} (h : ∀ k i, ids k = some i → ids' k = some i)
    {th : Thr} {sp : List (Nat × List Arg)} (hp : TRec ids th sp) : TRec ids' th sp := by
  obtain ⟨d, p, h1, h2, h3⟩ := hp
  exact ⟨d, p, h1, h2.imp fun _ _ hr => ⟨h _ _ hr.1, hr.2⟩, h3.mono h⟩

/-- All threads. -/
def RInv (s : Rt) (lv : Int) (sp : Nat → List (Nat × List Arg)) : Prop :=
  s.level = lv ∧ ∀ t, TRec s.ids (s.thr t) (sp t)

theorem RInv.setThr {s : Rt} {lv : Int} {sp : Nat → List (Nat × List Arg)} (h : RInv s lv sp)
    (t : Nat) (th : Thr) (hT : TRec s.ids th (sp t)) : RInv (s.setThr t th) lv sp := by
  refine ⟨h.1, fun u => ?_⟩
  simp only [Rt.setThr]
  by_cases hu : u = t
  · subst hu; rw [upd_same]; exact hT
  · rw [upd_other _ _ hu]; exact h.2 u

/-- A step that only changes the position. -/
theorem RInv.setPc {s : Rt} {lv : Int} {sp : Nat → List (Nat × List Arg)} (h : RInv s lv sp)
    (t : Nat) {pc : TPc} (hp : ∀ p, PendOK s.ids (s.thr t).pc p → PendOK s.ids pc p) :
    RInv (s.setThr t { s.thr t with pc := pc }) lv sp := by
  obtain ⟨d, p, h1, h2, h3⟩ := h.2 t
  exact h.setThr t _ ⟨d, p, h1, h2, hp p h3⟩

theorem RInv.bg {s s' : Rt} {lv : Int} {sp : Nat → List (Nat × List Arg)} (h : RInv s lv sp)
    (hb : BgStep s s') : RInv s' lv sp := by
  refine ⟨hb.level.trans h.1, fun u => ?_⟩
  obtain ⟨d, p, h1, h2, h3⟩ := h.2 u
  rw [hb.ids]
  refine ⟨d, p, h1, by rw [hb.log]; exact h2, ?_⟩
  rcases hb.pc u with he | ⟨sw, he1, he2⟩
  · rw [he]; exact h3
  · rw [he2]; rw [he1] at h3; exact h3

theorem clampLevel_eq (l : Int) : clampLevel l = max 0 (min 4 l) := by
  unfold clampLevel; split <;> [skip; split] <;> omega

/-- The calls required after one more step. -/
def recStep (prog : List Site) (lv : Int) (sp : Nat → List (Nat × List Arg)) (l : Lbl) (t : Nat) :
    List (Nat × List Arg) := (recordStep prog t (lv, sp t) l).2

/-- The level after one more step. -/
def lvStep (lv : Int) (l : Lbl) : Int := match l with | .setLevel l => max 0 (min 4 l) | _ => lv

theorem act_rinv {cfg : Config} {prog : List Site} {s s' : Rt} {l : Lbl} {lv : Int}
    {sp : Nat → List (Nat × List Arg)} (h : RInv s lv sp)
    (ha : s.act cfg prog l = .ok s') : RInv s' (lvStep lv l) (recStep prog lv sp l) := by
  cases l <;> simp only [Rt.act] at ha
  case call t k args =>
    simp only [Rt.actLog] at ha
    split at ha <;> try cases ha
    rename_i site hpc hk
    split at ha <;> cases ha
    · rename_i hsev
      refine ⟨h.1, fun u => ?_⟩
      simp only [recStep, recordStep, hk]
      rw [h.1] at hsev
      rw [if_neg (by omega)]
      exact h.2 u
    · rename_i hsev
      rw [h.1] at hsev
      refine ⟨h.1, fun u => ?_⟩
      simp only [recStep, recordStep, hk, Rt.setThr]
      by_cases hu : u = t
      · subst hu
        rw [upd_same, if_pos ⟨rfl, by omega⟩]
        obtain ⟨d, p, h1, h2, h3⟩ := h.2 u
        rw [hpc] at h3
        have : p = [] := h3
        subst this
        rw [List.append_nil] at h1
        exact ⟨d, [(k, args)], by rw [h1], h2, rfl⟩
      · rw [upd_other _ _ hu, if_neg (by simp [Ne.symm hu])]
        exact h.2 u
  case readId t stale =>
    simp only [Rt.actLog] at ha
    split at ha <;> try cases ha
    rename_i k args hpc
    split at ha <;> cases ha
    · exact h.setPc t (by rw [hpc]; exact fun _ => id)
    · rename_i id hid
      refine h.setPc t ?_
      rw [hpc]
      intro p hp
      split
      · exact hp
      · exact ⟨k, hid, hp⟩
  case register t =>
    simp only [Rt.actLog] at ha
    split at ha <;> try cases ha
    rename_i k args hpc
    split at ha <;> cases ha
    · rename_i id hid
      exact h.setPc t (by rw [hpc]; intro p hp; exact ⟨k, hid, hp⟩)
    · rename_i site hid hk
      have hm : ∀ k' i, s.ids k' = some i → upd s.ids k (some s.sites.length) k' = some i := by
        intro k' i hk'
        rw [upd_other]
        · exact hk'
        · rintro rfl; rw [hid] at hk'; cases hk'
      refine ⟨h.1, fun u => ?_⟩
      simp only [Rt.setThr]
      by_cases hu : u = t
      · subst hu
        rw [upd_same]
        obtain ⟨d, p, h1, h2, h3⟩ := h.2 u
        rw [hpc] at h3
        exact ⟨d, p, h1, h2.imp fun _ _ hr => ⟨hm _ _ hr.1, hr.2⟩, k, by rw [upd_same], h3⟩
      · rw [upd_other _ _ hu]; exact (h.2 u).mono hm
  case stamp t ts =>
    simp only [Rt.actLog] at ha
    split at ha <;> cases ha
    rename_i id args hpc
    exact h.setPc t (by rw [hpc]; exact fun _ => _root_.id)
  case reserve t =>
    simp only [Rt.actLog] at ha
    split at ha <;> cases ha
    rename_i c hpc
    refine h.setPc t ?_
    rw [hpc]
    intro p hp
    split <;> exact hp
  case commit t =>
    simp only [Rt.actLog] at ha
    split at ha <;> try cases ha
    rename_i c hpc
    split at ha <;> cases ha
    refine h.setThr t _ ?_
    obtain ⟨d, p, h1, h2, h3⟩ := h.2 t
    rw [hpc] at h3
    obtain ⟨k, h4, rfl⟩ := h3
    exact ⟨d ++ [(k, c.args)], [], by rw [List.append_nil]; exact h1,
      Forall₂.app h2 (.cons ⟨h4, rfl⟩ .nil), rfl⟩
  case preallocate t =>
    simp only [Rt.actBuf] at ha
    split at ha <;> try cases ha
    rename_i hpc
    split at ha <;> cases ha
    · exact h.setPc t (by rw [hpc]; exact fun _ => id)
    · exact h
  case takeId t =>
    simp only [Rt.actBuf] at ha
    split at ha <;> try cases ha
    rename_i c hpc
    split at ha <;> cases ha
    obtain ⟨d, p, h1, h2, h3⟩ := h.2 t
    rw [hpc] at h3
    exact h.setThr t { s.thr t with pc := .push c, bid := some s.nextId }
      ⟨d, p, h1, h2, by cases c <;> exact h3⟩
  case push t =>
    simp only [Rt.actBuf] at ha
    split at ha <;> try cases ha
    rename_i c hpc
    split at ha <;> cases ha
    exact h.setPc t (pc := afterAlloc c) (by rw [hpc]; cases c <;> exact fun _ => id)
  case exitThread t =>
    simp only [Rt.actBuf] at ha
    split at ha <;> try cases ha
    rename_i hpc
    split at ha
    · cases ha; exact h.setPc t (by rw [hpc]; exact fun _ => id)
    split at ha <;> cases ha
    obtain ⟨d, p, h1, h2, h3⟩ := h.2 t
    rw [hpc] at h3
    exact h.setThr t _ ⟨d, p, h1, h2, h3⟩
  case setLevel l =>
    simp only [Rt.actCtl] at ha
    cases ha
    exact ⟨clampLevel_eq l, h.2⟩
  case sync t =>
    simp only [Rt.actCtl] at ha
    split at ha <;> cases ha
    rename_i hpc
    exact h.setPc t (pc := .sync false) (by rw [hpc]; exact fun _ => id)
  case spurious t =>
    simp only [Rt.actCtl] at ha
    split at ha <;> cases ha
    rename_i hpc
    exact h.setPc t (by rw [hpc]; exact fun _ => id)
  case ret t =>
    simp only [Rt.actCtl] at ha
    split at ha <;> cases ha
    rename_i sw hpc
    exact h.setPc t (by rw [hpc]; cases sw <;> exact fun _ => id)
  case setFile t ok =>
    simp only [Rt.actCtl] at ha
    split at ha <;> try cases ha
    rename_i hpc
    split at ha <;> cases ha
    · exact h.setPc t (pc := .sync true) (by rw [hpc]; exact fun _ => id)
    · exact h
  case stop t =>
    simp only [Rt.actCtl] at ha
    split at ha <;> cases ha
    rename_i hpc
    exact h.setPc t (pc := .join) (by rw [hpc]; exact fun _ => id)
  case join t jk c =>
    simp only [Rt.actCtl] at ha
    split at ha <;> try cases ha
    rename_i hpc _
    split at ha <;> cases ha
    exact h.setPc t (pc := .idle) (by rw [hpc]; exact fun _ => id)
  case top => exact h.bg (actScan_bg ha)
  case dict => exact h.bg (actScan_bg ha)
  case peek => exact h.bg (actScan_bg ha)
  case check => exact h.bg (actScan_bg ha)
  case encode => exact h.bg (actScan_bg ha)
  case scanned => exact h.bg (actIo_bg ha)
  case aio => exact h.bg (actIo_bg ha)
  case aioDone => exact h.bg (actIo_bg ha)
  case write => exact h.bg (actIo_bg ha)
  case disk => exact h.bg (actIo_bg ha)

theorem recordStep_level (prog : List Site) (t : Nat) (st : Int × List (Nat × List Arg)) (l : Lbl) :
    (recordStep prog t st l).1 = lvStep st.1 l := by
  cases l <;> simp only [recordStep, lvStep]
  split
  · split <;> rfl
  · rfl

theorem record_level (prog : List Site) (t : Nat) (ls : List Lbl) (st : Int × List (Nat × List Arg)) :
    (ls.foldl (recordStep prog t) st).1 = ls.foldl lvStep st.1 := by
  induction ls generalizing st with
  | nil => rfl
  | cons l ls ih => simp only [List.foldl_cons]; rw [ih, recordStep_level]

theorem levelAfter_eq (ls : List Lbl) : levelAfter ls = ls.foldl lvStep 3 := rfl

theorem RtExec.rinv {cfg : Config} {prog : List Site} {ls : List Lbl} {s : Rt}
    (h : RtExec cfg prog ls s) : RInv s (levelAfter ls) (fun t => mustRecord prog t ls) := by
  refine h.induct (P := fun ls s => RInv s (levelAfter ls) (fun t => mustRecord prog t ls)) ?_ ?_
  · intro jk c s h
    unfold Rt.init at h
    split at h <;> cases h
    exact ⟨rfl, fun t => ⟨[], [], rfl, .nil, rfl⟩⟩
  · intro ls s l s' hx ih hl ha
    have := act_rinv ih ha
    rw [show levelAfter (ls ++ [l]) = lvStep (levelAfter ls) l by
      simp [levelAfter_eq]]
    have he : (fun t => mustRecord prog t (ls ++ [l])) =
        recStep prog (levelAfter ls) (fun t => mustRecord prog t ls) l := by
      funext t
      simp only [mustRecord, recStep, List.foldl_append, List.foldl_cons, List.foldl_nil]
      congr 2
      refine Prod.ext ?_ rfl
      simp only
      rw [record_level, levelAfter_eq]
    rw [he]
    exact this

/-! ## Time stamps -/

/-- Time stamp of the call a thread is working on. -/
def pendStamp : TPc → List Nat
  | .stamped c | .write c | .take (some c) | .push (some c) => [c.ts]
  | _ => []

def stampOf (t : Nat) : Lbl → List Nat
  | .stamp u ts => if u = t then [ts] else []
  | _ => []

theorem stamps_snoc (t : Nat) (ls : List Lbl) (l : Lbl) :
    stamps t (ls ++ [l]) = stamps t ls ++ stampOf t l := by
  simp only [stamps, List.filterMap_append]
  congr 1
  cases l <;> simp [stampOf]
  split <;> (rename_i h; simp [h])

/-- Stamps taken by a thread: those in its log and the one pending. -/
def Thr.stamps (th : Thr) : List Nat := th.log.map (·.ts) ++ pendStamp th.pc

theorem setThr_stamps {s : Rt} {t : Nat} {th : Thr} {l : List Nat}
    (h : th.stamps = (s.thr t).stamps ++ l) (u : Nat) :
    ((s.setThr t th).thr u).stamps = (s.thr u).stamps ++ if t = u then l else [] := by
  simp only [Rt.setThr]
  by_cases hu : u = t
  · subst hu; rw [upd_same, if_pos rfl]; exact h
  · rw [upd_other _ _ hu, if_neg (Ne.symm hu), List.append_nil]

theorem act_stamps {cfg : Config} {prog : List Site} {s s' : Rt} {l : Lbl}
    (ha : s.act cfg prog l = .ok s') (t : Nat) :
    (s'.thr t).stamps = (s.thr t).stamps ++ stampOf t l := by
  have hbg : BgStep s s' → (s'.thr t).stamps = (s.thr t).stamps ++ [] := by
    intro hb
    rw [List.append_nil, Thr.stamps, Thr.stamps, hb.log]
    rcases hb.pc t with he | ⟨sw, he1, he2⟩
    · rw [he]
    · rw [he1, he2]; rfl
  have hset : ∀ (u : Nat) (th : Thr), th.stamps = (s.thr u).stamps →
      ((s.setThr u th).thr t).stamps = (s.thr t).stamps ++ [] := by
    intro u th h
    rw [setThr_stamps (l := []) (by rw [h, List.append_nil])]
    split <;> rfl
  cases l <;> simp only [Rt.act, stampOf] at ha ⊢
  case call =>
    simp only [Rt.actLog] at ha
    split at ha <;> try cases ha
    rename_i hpc hk
    split at ha <;> cases ha
    · rw [List.append_nil]
    · exact hset _ _ (by simp [Thr.stamps, pendStamp, hpc])
  case readId =>
    simp only [Rt.actLog] at ha
    split at ha <;> try cases ha
    rename_i hpc
    split at ha <;> cases ha
    · exact hset _ _ (by simp [Thr.stamps, pendStamp, hpc])
    · refine hset _ _ ?_
      simp only [Thr.stamps, hpc]
      split <;> rfl
  case register =>
    simp only [Rt.actLog] at ha
    split at ha <;> try cases ha
    rename_i hpc
    split at ha <;> cases ha
    · exact hset _ _ (by simp [Thr.stamps, pendStamp, hpc])
    · exact hset _ _ (by simp [Thr.stamps, pendStamp, hpc])
  case stamp u ts =>
    simp only [Rt.actLog] at ha
    split at ha <;> cases ha
    rename_i hpc
    rw [setThr_stamps (l := [ts])]
    simp [Thr.stamps, pendStamp, hpc]
  case reserve =>
    simp only [Rt.actLog] at ha
    split at ha <;> cases ha
    rename_i hpc
    refine hset _ _ ?_
    simp only [Thr.stamps, hpc]
    split <;> rfl
  case commit =>
    simp only [Rt.actLog] at ha
    split at ha <;> try cases ha
    rename_i hpc
    split at ha <;> cases ha
    exact hset _ _ (by simp [Thr.stamps, pendStamp, hpc])
  case preallocate =>
    simp only [Rt.actBuf] at ha
    split at ha <;> try cases ha
    rename_i hpc
    split at ha <;> cases ha
    · exact hset _ _ (by simp [Thr.stamps, pendStamp, hpc])
    · rw [List.append_nil]
  case takeId =>
    simp only [Rt.actBuf] at ha
    split at ha <;> try cases ha
    rename_i c hpc
    split at ha <;> cases ha
    exact hset _ _ (by cases c <;> simp [Thr.stamps, pendStamp, hpc])
  case push =>
    simp only [Rt.actBuf] at ha
    split at ha <;> try cases ha
    rename_i c hpc
    split at ha <;> cases ha
    exact hset _ _ (by cases c <;> simp [Thr.stamps, pendStamp, hpc, afterAlloc])
  case exitThread =>
    simp only [Rt.actBuf] at ha
    split at ha <;> try cases ha
    rename_i hpc
    split at ha
    · cases ha; exact hset _ _ (by simp [Thr.stamps, pendStamp, hpc])
    split at ha <;> cases ha
    exact hset _ _ (by simp [Thr.stamps, pendStamp, hpc])
  case setLevel =>
    simp only [Rt.actCtl] at ha
    cases ha
    rw [List.append_nil]
  case sync =>
    simp only [Rt.actCtl] at ha
    split at ha <;> cases ha
    rename_i hpc
    exact hset _ _ (by simp [Thr.stamps, pendStamp, hpc])
  case spurious =>
    simp only [Rt.actCtl] at ha
    split at ha <;> cases ha
    rename_i hpc
    exact hset _ _ (by simp [Thr.stamps, pendStamp, hpc])
  case ret =>
    simp only [Rt.actCtl] at ha
    split at ha <;> cases ha
    rename_i sw hpc
    exact hset _ _ (by cases sw <;> simp [Thr.stamps, pendStamp, hpc])
  case setFile =>
    simp only [Rt.actCtl] at ha
    split at ha <;> try cases ha
    rename_i hpc
    split at ha <;> cases ha
    · exact hset _ _ (by simp [Thr.stamps, pendStamp, hpc])
    · rw [List.append_nil]
  case stop =>
    simp only [Rt.actCtl] at ha
    split at ha <;> cases ha
    rename_i hpc
    exact hset _ _ (by simp [Thr.stamps, pendStamp, hpc])
  case join =>
    simp only [Rt.actCtl] at ha
    split at ha <;> try cases ha
    rename_i hpc _
    split at ha <;> cases ha
    exact hset _ _ (by simp [Thr.stamps, pendStamp, hpc])
  case top => exact hbg (actScan_bg ha)
  case dict => exact hbg (actScan_bg ha)
  case peek => exact hbg (actScan_bg ha)
  case check => exact hbg (actScan_bg ha)
  case encode => exact hbg (actScan_bg ha)
  case scanned => exact hbg (actIo_bg ha)
  case aio => exact hbg (actIo_bg ha)
  case aioDone => exact hbg (actIo_bg ha)
  case write => exact hbg (actIo_bg ha)
  case disk => exact hbg (actIo_bg ha)

theorem RtExec.stamps {cfg : Config} {prog : List Site} {ls : List Lbl} {s : Rt}
    (h : RtExec cfg prog ls s) (t : Nat) : stamps t ls = (s.thr t).stamps := by
  refine h.induct (P := fun ls s => NanoLog.stamps t ls = (s.thr t).stamps) ?_ ?_
  · intro jk c s h
    unfold Rt.init at h
    split at h <;> cases h
    rfl
  · intro ls s l s' hx ih hl ha
    rw [stamps_snoc, ih, act_stamps ha]

/-! ## Thread ids -/

/-- After `n` allocations. -/
def BidInv (s : Rt) (n : Nat) : Prop :=
  s.nextId = n % 2 ^ 32 ∧
  (n ≤ 2 ^ 32 → (∀ t b, (s.thr t).bid = some b → b < n) ∧
    ∀ t u b, (s.thr t).bid = some b → (s.thr u).bid = some b → t = u)

/-- Steps other than `takeId`. -/
def isTake : Lbl → Bool
  | .takeId _ => true
  | _ => false

theorem act_bids {cfg : Config} {prog : List Site} {s s' : Rt} {l : Lbl}
    (ha : s.act cfg prog l = .ok s') (hl : isTake l = false) :
    s'.nextId = s.nextId ∧ ∀ u, (s'.thr u).bid = (s.thr u).bid := by
  cases l <;> simp only [Rt.act, Rt.actLog, Rt.actBuf, Rt.actCtl, isTake] at ha hl <;>
    first
    | (have hb := actScan_bg ha; exact ⟨hb.nextId, hb.bid⟩)
    | (have hb := actIo_bg ha; exact ⟨hb.nextId, hb.bid⟩)
    | (cases ha; exact ⟨rfl, fun _ => rfl⟩)
    | (cases hl; done)
    | (repeat' (split at ha)
       all_goals first
        | (cases ha; done)
        | (cases ha; exact ⟨rfl, fun _ => rfl⟩)
        | (cases ha; exact ⟨rfl, fun u => by
            simp only [Rt.setThr, upd]; split
            · rename_i hu; rw [hu]
            · rfl⟩))

theorem takeId_bids {cfg : Config} {prog : List Site} {s s' : Rt} {t : Nat}
    (ha : s.act cfg prog (.takeId t) = .ok s') :
    s'.nextId = (s.nextId + 1) % 2 ^ 32 ∧ (s'.thr t).bid = some s.nextId ∧
      (∀ u, u ≠ t → (s'.thr u).bid = (s.thr u).bid) ∧ ∃ c, (s.thr t).pc = .take c := by
  simp only [Rt.act, Rt.actBuf] at ha
  split at ha <;> try cases ha
  rename_i c hpc
  split at ha <;> cases ha
  refine ⟨rfl, by simp [Rt.setThr], ?_, c, hpc⟩
  intro u hu
  simp only [Rt.setThr]
  rw [upd_other _ _ hu]

theorem allocs_snoc (ls : List Lbl) (l : Lbl) :
    allocs (ls ++ [l]) = allocs ls + if isTake l then 1 else 0 := by
  simp only [allocs, List.filter_append, List.length_append]
  congr 1
  cases l <;> rfl

theorem RtExec.bids {cfg : Config} {prog : List Site} {ls : List Lbl} {s : Rt}
    (h : RtExec cfg prog ls s) : BidInv s (allocs ls) := by
  refine h.induct (P := fun ls s => BidInv s (allocs ls)) ?_ ?_
  · intro jk c s h
    unfold Rt.init at h
    split at h <;> cases h
    exact ⟨rfl, fun _ => ⟨by simp [Thr.init], by simp [Thr.init]⟩⟩
  · intro ls s l s' hx ih hl ha
    rw [allocs_snoc]
    cases ht : isTake l with
    | false =>
      obtain ⟨h1, h2⟩ := act_bids ha ht
      simp only [Bool.false_eq_true, if_false, Nat.add_zero]
      refine ⟨h1.trans ih.1, fun hn => ?_⟩
      simp only [h2]
      exact ih.2 hn
    | true =>
      simp only [if_true]
      obtain ⟨t, rfl⟩ : ∃ t, l = .takeId t := by
        cases l <;> simp [isTake] at ht; exact ⟨_, rfl⟩
      obtain ⟨h1, h2, h3, -⟩ := takeId_bids ha
      refine ⟨?_, fun hn => ?_⟩
      · rw [h1, ih.1]; omega
      · obtain ⟨i1, i2⟩ := ih.2 (by omega)
        have hnext : s.nextId = allocs ls := by rw [ih.1]; exact Nat.mod_eq_of_lt (by omega)
        have hb : ∀ u b, (s'.thr u).bid = some b →
            (u = t ∧ b = allocs ls) ∨ (u ≠ t ∧ (s.thr u).bid = some b) := by
          intro u b hu
          by_cases he : u = t
          · subst he
            rw [h2, hnext] at hu
            exact .inl ⟨rfl, (Option.some.inj hu).symm⟩
          · rw [h3 u he] at hu; exact .inr ⟨he, hu⟩
        refine ⟨?_, ?_⟩
        · intro u b hu
          rcases hb u b hu with ⟨-, h⟩ | ⟨-, h⟩
          · omega
          · have := i1 u b h; omega
        · intro u v b hu hv
          rcases hb u b hu with ⟨a1, a2⟩ | ⟨a1, a2⟩ <;> rcases hb v b hv with ⟨b1, b2⟩ | ⟨b1, b2⟩
          · rw [a1, b1]
          · have := i1 v b b2; omega
          · have := i1 u b a2; omega
          · exact i2 u v b a2 b2

end NanoLog
