import Verif.RuntimeScan
import Verif.Props.RuntimeFiles

/-!
# Theorems about scan passes and `sync`: C46, C31
-/

namespace NanoLog

/-! ## C46 Every scan pass visits every thread -/

/-- The buffer that a step of the background thread inspects. -/
def inspects (p : Rt × Lbl) : Option Nat :=
  match p.2 with
  | .peek _ => if p.1.full = true ∨ p.1.bufs = [] then none else p.1.bufs[p.1.i]?
  | _ => none

/-- The buffers inspected during a run. -/
def inspected (cfg : Config) (prog : List Site) (s : Rt) (ls : List Lbl) : List Nat :=
  (s.trace cfg prog ls).filterMap inspects

/-- What remains of the pass. -/
def pendPc (s : Rt) : List Nat :=
  match s.pc with
  | .dict | .scan => pend s.bufs s.last s.i
  | .check | .encode => (pend s.bufs s.last s.i).tail
  | _ => []

/-- The background thread is in a pass. -/
def inPass : BPc → Bool
  | .dict | .scan | .check | .encode | .scanned => true
  | _ => false

/-- All buffers in `A` are inspected or will be. -/
def PassInv (A vis : List Nat) (s : Rt) : Prop :=
  inPass s.pc = true → s.full = true ∨ ∀ u ∈ A, u ∈ vis ∨ u ∈ pendPc s

theorem act_pass {cfg : Config} {prog : List Site} (hroom : 40 ≤ cfg.output) {A vis : List Nat}
    {s s' : Rt} {l : Lbl} (hC : RtInv s) (h : PassInv A vis s) (ha : s.act cfg prog l = .ok s')
    (hl : l ≠ .top) (hnd : ¬ FirstDeleted (s, l)) :
    PassInv A (vis ++ (inspects (s, l)).toList) s' := by
  have more : ∀ (u : Nat) (x : List Nat) (P : Prop), u ∈ vis ∨ P → u ∈ vis ++ x ∨ P := by
    intro u x P hu
    rcases hu with hu | hu
    · exact .inl (List.mem_append_left _ hu)
    · exact .inr hu
  by_cases hb : l.isBg = true
  swap
  · have hS := act_app ha (by simpa using hb)
    intro hp
    rw [hS.pc] at hp
    rw [hS.full]
    refine (h hp).imp id fun hA u hu => more u _ _ ((hA u hu).imp id ?_)
    simp only [pendPc, hS.pc, hS.last, hS.i]
    rcases hS.bufs with he | ⟨t, he, hlk⟩
    · rw [he]; exact id
    · rw [he]
      intro hm
      cases hpc : s.pc <;> rw [hpc] at hm hp <;> simp only [inPass, Bool.false_eq_true] at hp <;>
        simp [Rt.bufLocked, hpc] at hlk
      · obtain ⟨hi, hl⟩ := hC.idx_lt (hC.curI (.inr hpc))
        exact pend_push_tail hi hl hm
      · exact hm
  · cases l <;> simp only [Lbl.isBg, Bool.false_eq_true] at hb <;> simp only [Rt.act] at ha
    case top => exact absurd rfl hl
    case join t jk c =>
      simp only [Rt.actCtl] at ha
      repeat' split at ha
      all_goals cases ha
      intro hp; simp [inPass] at hp
    case dict skip =>
      intro _
      simp only [Rt.actScan] at ha
      split at ha
      · cases ha
      rename_i hpc
      simp only [ne_eq, Decidable.not_not] at hpc
      have h1 := h (by simp [hpc, inPass])
      simp only [pendPc, hpc] at h1
      split at ha
      · cases ha
        exact h1.imp id fun hA u hu => more u _ _ (hA u hu)
      · split at ha <;> cases ha
        exact h1.imp id fun hA u hu => more u _ _ (hA u hu)
    case peek n =>
      intro _
      simp only [Rt.actScan] at ha
      split at ha
      · cases ha
      rename_i hpc
      simp only [ne_eq, Decidable.not_not] at hpc
      have h1 := h (by simp [hpc, inPass])
      simp only [pendPc, hpc] at h1
      split at ha
      · rename_i hf
        cases ha
        rcases hf with hf | hf
        · exact .inl hf
        · refine h1.imp id fun hA u hu => more u _ _ ((hA u hu).imp id ?_)
          simp [pend, hf]
      rename_i hf
      split at ha
      · cases ha
      rename_i t ht
      have hins : inspects (s, .peek n) = some t := by
        simp only [inspects]
        rw [if_neg (by simpa using hf)]; exact ht
      have key : s.full = true ∨ ∀ u ∈ A, u ∈ vis ++ (inspects (s, .peek n)).toList ∨
          u ∈ (pend s.bufs s.last s.i).tail := by
        refine h1.imp id fun hA u hu => ?_
        rcases hA u hu with hv | hv
        · exact .inl (List.mem_append_left _ hv)
        · rw [pend_head ht] at hv
          rcases List.mem_cons.1 hv with rfl | hv
          · left; rw [hins]; simp
          · exact .inr hv
      split at ha
      · cases ha
      split at ha
      · split at ha <;> cases ha
        exact key
      · split at ha <;> cases ha
        exact key
    case check =>
      intro _
      obtain ⟨hpc, h2, h3, -, -, -, -, h4⟩ := check_pend hC ha hnd
      have h1 := h (by simp [hpc, inPass])
      simp only [pendPc, hpc] at h1
      rw [h3]
      refine h1.imp id fun hA u hu => more u _ _ ((hA u hu).imp id fun hv => ?_)
      obtain ⟨e1, e2⟩ := h4 u hv
      simp only [pendPc, e1]; exact e2
    case encode junk more' =>
      intro _
      obtain ⟨hpc, -, -, h2⟩ := encode_pend hroom hC ha
      have h1 := h (by simp [hpc, inPass])
      simp only [pendPc, hpc] at h1
      rcases h2 with h2 | ⟨h2, h3, h4, h5, h6⟩ | ⟨h2, h3, h4⟩
      · exact .inl h2
      · rw [h2]
        refine h1.imp id fun hA u hu => more u _ _ ((hA u hu).imp id fun hv => ?_)
        simp only [pendPc, h3, h4, h5, h6]; exact hv
      · rw [h2]
        refine h1.imp id fun hA u hu => more u _ _ ((hA u hu).imp id fun hv => ?_)
        obtain ⟨e1, e2⟩ := h4 u hv
        simp only [pendPc, e1]; exact e2
    all_goals
      simp only [Rt.actIo] at ha
      repeat' split at ha
      all_goals first
        | (cases ha; done)
        | (cases ha; intro hp; simp [inPass] at hp; done)
        | (unfold Rt.notify at ha
           repeat' split at ha
           all_goals first
             | (cases ha; done)
             | (cases ha; intro hp; simp [inPass, Rt.setThr] at hp; done))

theorem run_pass {cfg : Config} {prog : List Site} (hroom : 40 ≤ cfg.output) {A vis : List Nat}
    {s s' : Rt} {ls : List Lbl} (hC : RtInv s) (h : PassInv A vis s)
    (hr : s.run cfg prog ls = .ok s') (hl : .top ∉ ls)
    (hnd : ∀ p ∈ s.trace cfg prog ls, ¬ FirstDeleted p) :
    PassInv A (vis ++ inspected cfg prog s ls) s' := by
  induction ls generalizing s vis with
  | nil => cases hr; simpa [inspected, Rt.trace] using h
  | cons l ls ih =>
    simp only [Rt.run] at hr
    simp only [Rt.trace] at hnd
    cases ha : s.act cfg prog l with
    | off => rw [ha] at hr; cases hr
    | ub => rw [ha] at hr; cases hr
    | ok s1 =>
      rw [ha] at hr hnd
      have := ih (act_cinv hroom hC ha)
        (act_pass hroom hC h ha (by rintro rfl; simp at hl) (hnd _ (by simp))) hr
        (fun hm => hl (by simp [hm])) fun p hp => hnd p (by simp [hp])
      have he : vis ++ inspected cfg prog s (l :: ls) =
          vis ++ (inspects (s, l)).toList ++ inspected cfg prog s1 ls := by
        simp only [inspected, Rt.trace, ha, List.filterMap_cons, List.append_assoc]
        cases inspects (s, l) <;> simp
      rw [he]; exact this

/-- A pass that is not cut short because the output buffer is full inspects every buffer that
existed when it began, provided the background thread does not delete the buffer with which the
pass began while there are others.  What is missing: with such a deletion the claim is false, see
`C46_false`. -/
theorem C46_pass_partial {cfg : Config} {prog : List Site} (hP : ProgOK cfg prog)
    {ls ls' : List Lbl} {s s1 s' : Rt} (h : RtExec cfg prog ls s)
    (htop : s.act cfg prog .top = .ok s1) (hr : s1.run cfg prog ls' = .ok s') (hl : .top ∉ ls')
    (hend : s'.pc = .scanned) (hf : s'.full = false)
    (hnd : ∀ p ∈ s1.trace cfg prog ls', ¬ FirstDeleted p) :
    ∀ u ∈ s.bufs, u ∈ inspected cfg prog s1 ls' := by
  obtain ⟨hC, -⟩ := h.inv hP
  have hC1 := act_cinv hP.room hC htop
  have h0 : s1.bufs = s.bufs ∧ PassInv s.bufs [] s1 := by
    simp only [Rt.act, Rt.actScan] at htop
    split at htop
    · cases htop
    split at htop <;> cases htop
    · exact ⟨rfl, fun hp => by simp [inPass] at hp⟩
    · exact ⟨rfl, fun _ => .inr fun u hu => .inr (by simpa [pendPc] using (pend_start ..).2 hu)⟩
  have := run_pass hP.room hC1 h0.2 hr hl hnd
  intro u hu
  rcases this (by simp [hend, inPass]) with h1 | h1
  · rw [hf] at h1; cases h1
  · have h2 := h1 u hu
    simpa [pendPc, hend] using h2

/-- The background thread never uses an index outside the list of buffers, nor a buffer that is
deleted. -/
theorem C46_bounds {cfg : Config} {prog : List Site} (hP : ProgOK cfg prog) {ls : List Lbl} {s : Rt}
    (h : RtExec cfg prog ls s) :
    (s.pc = .scan → s.full = false → s.bufs ≠ [] →
      ∃ t, s.bufs[s.i]? = some t ∧ (s.thr t).freed = false) ∧
    (s.pc = .check ∨ s.pc = .encode →
      s.bufs[s.i]? = some s.cur ∧ (s.thr s.cur).freed = false) ∧
    (s.bufs ≠ [] → s.last < s.bufs.length) := by
  obtain ⟨hC, -⟩ := h.inv hP
  refine ⟨?_, ?_, ?_⟩
  · intro h1 _ h3
    have := hC.scanI (.inr h1) h3
    refine ⟨s.bufs[s.i], List.getElem?_eq_getElem this, ?_⟩
    exact ((hC.thr _).alloc (List.getElem_mem this)).1
  · intro h1
    have := hC.curI h1
    exact ⟨this, ((hC.thr _).alloc (List.mem_of_getElem? this)).1⟩
  · intro h1
    rcases hC.idx with hi | hi
    · exact hi
    · exact absurd hi.1 h1

/-- Thread 2 has ended; its buffer is the second one. -/
def exSecondGone : List Lbl := exWritten ++ [.exitThread 2]

/-- Case for `C46_pass_partial`: a pass over two buffers in which the second one is deleted. -/
example : ∃ s, RtExec exCfg exSites exSecondGone s ∧
    (match s.act exCfg exSites .top with
     | .ok s1 =>
       match s1.run exCfg exSites [.dict false, .peek 0, .check, .peek 0, .check] with
       | .ok s' => s'.pc == .scanned && s'.full == false && s'.bufs == [1] &&
          s.bufs == [1, 2] && (s1.i == s1.last) &&
          (s1.trace exCfg exSites [.dict false, .peek 0, .check, .peek 0, .check]).all fun p => p.1.pc != .check ||
            p.1.i != p.1.last || !(p.1.thr p.1.cur).dealloc
       | _ => false
     | _ => false) = true :=
  exExec (by decide +kernel) (by decide +kernel)

/-- Thread 1 has ended; thread 2 has just logged a message.  The buffer of thread 1 is the first
one. -/
def exFirstGone : List Lbl :=
  exWritten ++ [.exitThread 1, .setLevel 3] ++ exNext 2 0 1030 [.int .i32 6]

/-- Without the restriction of `C46_pass_partial` the property is false: a pass deletes the buffer
it begins with and ends; the buffer of the other thread, which has a message, is not inspected. -/
theorem C46_false : ∃ ls s s1 ls' s' u, RtExec exCfg exSites ls s ∧
    s.act exCfg exSites .top = .ok s1 ∧ s1.run exCfg exSites ls' = .ok s' ∧ .top ∉ ls' ∧
    s'.pc = .scanned ∧ s'.full = false ∧ u ∈ s.bufs ∧ u ∈ s'.bufs ∧ (s'.thr u).q ≠ [] ∧
    u ∉ inspected exCfg exSites s1 ls' := by
  obtain ⟨s, hs, hp⟩ := exExec (ls := exFirstGone) (p := fun s =>
    match s.act exCfg exSites .top with
    | .ok s1 =>
      match s1.run exCfg exSites [.dict false, .peek 0, .check] with
      | .ok s' => s'.pc == .scanned && s'.full == false && s.bufs.contains 2 &&
          s'.bufs.contains 2 && (s'.thr 2).q != [] &&
          !(inspected exCfg exSites s1 [.dict false, .peek 0, .check]).contains 2
      | _ => false
    | _ => false) (by decide +kernel) (by decide +kernel)
  simp only at hp
  split at hp <;> try cases hp
  rename_i s1 h1
  split at hp <;> try cases hp
  rename_i s' h2
  simp only [Bool.and_eq_true, beq_iff_eq, List.contains_iff_mem, bne_iff_ne,
    Bool.not_eq_true', decide_eq_true_eq, decide_eq_false_iff_not] at hp
  obtain ⟨⟨⟨⟨⟨p1, p2⟩, p3⟩, p4⟩, p5⟩, p6⟩ := hp
  refine ⟨_, s, s1, _, s', 2, hs, h1, h2, by simp, p1, p2, p3, p4, p5, ?_⟩
  intro hm
  rw [List.contains_iff_mem.2 hm] at p6
  cases p6

/-! ## C31 `sync` -/

/-- Number of log calls of thread `t` that have returned. -/
def returned (t : Nat) (ls : List Lbl) : Nat :=
  (ls.filter fun l => match l with | .commit u => u == t | _ => false).length

/-- At least `L u` messages of every thread `u` are in the list. -/
def AtLeast (L : Nat → Nat) (l : List (Nat × LogCall)) : Prop := ∀ u, L u ≤ (byThr u l).length

theorem AtLeast.mono {L : Nat → Nat} {a b : List (Nat × LogCall)} (h : AtLeast L a)
    (hp : a <+: b) : AtLeast L b := by
  obtain ⟨z, rfl⟩ := hp
  intro u
  have := h u
  rw [byThr_append, List.length_append]; omega

/-- Thread `u` has messages that were logged before the call of `sync` and are not encoded. -/
def Behind (L : Nat → Nat) (s : Rt) (u : Nat) : Prop := (byThr u s.encoded).length < L u

/-- While the status is `PERFORMING_SECOND_PASS` and nothing was encoded in the pass: the threads
that are behind have still to be inspected. -/
def SecondInv (L : Nat → Nat) (s : Rt) : Prop :=
  match s.pc with
  | .dict | .scan | .encode => ∀ u, Behind L s u → u ∈ pend s.bufs s.last s.i
  | .check => ∀ u, Behind L s u → u ∈ (pend s.bufs s.last s.i).tail
  | .scanned => ∀ u, ¬ Behind L s u
  | .top | .dead => True
  | _ => False

/-- What is known while thread `t` waits in `sync`. -/
def WaitInv (L : Nat → Nat) (s : Rt) : Prop :=
  match s.status with
  | .requested => True
  | .second => s.mem s.encPtr = [] → SecondInv L s
  | .waitAio => AtLeast L (s.persisted ++ s.gO)
  | .completed => AtLeast L s.persisted

/-- Invariant from the call of `sync` by thread `t` on. -/
structure SyncInv (L : Nat → Nat) (t : Nat) (s : Rt) : Prop where
  log : ∀ u, L u ≤ (s.thr u).log.length
  wait : ∀ sw, (s.thr t).pc = .sync sw → WaitInv L s
  woken : ∀ sw, (s.thr t).pc = .woken sw → AtLeast L s.persisted

/-- The step deletes the buffer with which the pass began, in a pass that can complete a `sync`: the
status is `PERFORMING_SECOND_PASS` and nothing is encoded (runtime/RuntimeLogger.cc:473-491,
511-529). -/
def CutsSync (p : Rt × Lbl) : Prop :=
  FirstDeleted p ∧ p.1.status = .second ∧ p.1.mem p.1.encPtr = []

/-- Positions of waiting threads. -/
theorem act_wait {cfg : Config} {prog : List Site} {s s' : Rt} {l : Lbl} {t : Nat}
    (ha : s.act cfg prog l = .ok s') (hb : l.isBg = false ∨ ∃ t' jk c, l = .join t' jk c)
    (hs : l ≠ .spurious t) :
    (∀ sw, (s'.thr t).pc = .woken sw → (s.thr t).pc = .woken sw) ∧
    (∀ sw, (s'.thr t).pc = .sync sw → (s.thr t).pc = .sync sw ∨ s'.status = .requested) ∧
    (s'.status = s.status ∨ s'.status = .requested) := by
  have hsame : ∀ s2 : Rt, s2.thr = s.thr → s2.status = s.status →
      (∀ sw, (s2.thr t).pc = .woken sw → (s.thr t).pc = .woken sw) ∧
      (∀ sw, (s2.thr t).pc = .sync sw → (s.thr t).pc = .sync sw ∨ s2.status = .requested) ∧
      (s2.status = s.status ∨ s2.status = .requested) := by
    intro s2 e1 e2
    rw [e1]
    exact ⟨fun _ h => h, fun _ h => .inl h, .inl e2⟩
  have hset : ∀ (s2 : Rt) (u : Nat) (th : Thr), s2.thr = upd s.thr u th →
      (s2.status = s.status ∨ s2.status = .requested) →
      (∀ sw, th.pc ≠ .woken sw) → ((∀ sw, th.pc ≠ .sync sw) ∨ s2.status = .requested) →
      (∀ sw, (s2.thr t).pc = .woken sw → (s.thr t).pc = .woken sw) ∧
      (∀ sw, (s2.thr t).pc = .sync sw → (s.thr t).pc = .sync sw ∨ s2.status = .requested) ∧
      (s2.status = s.status ∨ s2.status = .requested) := by
    intro s2 u th e1 e2 e3 e4
    rw [e1]
    by_cases hu : t = u
    · subst hu
      rw [upd_same]
      refine ⟨fun sw h => absurd h (e3 sw), fun sw h => ?_, e2⟩
      rcases e4 with e4 | e4
      · exact absurd h (e4 sw)
      · exact .inr e4
    · rw [upd_other _ _ hu]
      exact ⟨fun _ h => h, fun _ h => .inl h, e2⟩
  cases l <;> simp only [Rt.act] at ha
  case spurious u =>
    simp only [Rt.actCtl] at ha
    split at ha <;> cases ha
    have hu : t ≠ u := by rintro rfl; exact hs rfl
    refine ⟨?_, ?_, .inl rfl⟩ <;> intro sw h <;> simp only [Rt.setThr] at h <;>
      rw [upd_other _ _ hu] at h
    · exact h
    · exact .inl h
  case readId u stale =>
    simp only [Rt.actLog] at ha
    repeat' split at ha
    all_goals first
      | (cases ha; done)
      | (cases ha; exact hset _ u _ rfl (.inl rfl) (by simp) (.inl (by simp)))
      | (cases ha; refine hset _ u _ rfl (.inl rfl) ?_ (.inl ?_) <;> simp only <;> split <;> simp)
  case reserve u =>
    simp only [Rt.actLog] at ha
    split at ha <;> cases ha
    refine hset _ u _ rfl (.inl rfl) ?_ (.inl ?_) <;> simp only <;> split <;> simp
  case ret u =>
    simp only [Rt.actCtl] at ha
    split at ha <;> cases ha
    refine hset _ u _ rfl (.inl rfl) ?_ (.inl ?_) <;> simp only <;> split <;> simp
  case push u =>
    simp only [Rt.actBuf] at ha
    split at ha <;> try cases ha
    rename_i c _
    split at ha <;> cases ha
    refine hset _ u _ rfl (.inl rfl) ?_ (.inl ?_) <;> cases c <;> simp [afterAlloc]
  all_goals first
    | (simp [Lbl.isBg] at hb; done)
    | (simp only [Rt.actLog, Rt.actBuf, Rt.actCtl, Rt.actIo] at ha
       repeat' split at ha
       all_goals first
        | (cases ha; done)
        | (cases ha; exact hsame _ rfl rfl)
        | (cases ha; exact hset _ _ _ rfl (.inl rfl) (by simp) (.inl (by simp)))
        | (cases ha; exact hset _ _ _ rfl (.inr rfl) (by simp) (.inr rfl)))

/-- Scanning does not move other threads. -/
theorem actScan_wait {cfg : Config} {s s' : Rt} {l : Lbl} (ha : s.actScan cfg l = .ok s') :
    (∀ u, (s'.thr u).pc = (s.thr u).pc) ∧ s'.status = s.status := by
  have hadv : ∀ (s1 : Rt) (j : Nat), s1.advance j = .ok s' → (∀ u, (s1.thr u).pc = (s.thr u).pc) →
      s1.status = s.status → (∀ u, (s'.thr u).pc = (s.thr u).pc) ∧ s'.status = s.status := by
    intro s1 j hj h1 h2
    have := advance_eq hj
    subst this
    exact ⟨h1, h2⟩
  cases l <;> simp only [Rt.actScan] at ha <;> try cases ha
  case top =>
    repeat' split at ha
    all_goals cases ha
    all_goals exact ⟨fun _ => rfl, rfl⟩
  case dict skip =>
    repeat' split at ha
    all_goals cases ha
    all_goals exact ⟨fun _ => rfl, rfl⟩
  case peek n =>
    repeat' split at ha
    all_goals cases ha
    all_goals exact ⟨fun _ => rfl, rfl⟩
  case check =>
    have hu := thr_upd (s := s) (t := s.cur) (th := { s.thr s.cur with freed := true }) rfl rfl rfl
    split at ha
    · cases ha
    split at ha
    · split at ha
      · cases ha
        exact ⟨fun u => (hu u).2.2, rfl⟩
      · exact hadv _ _ ha (fun u => (hu u).2.2) rfl
    · exact hadv _ _ ha (fun _ => rfl) rfl
  case encode junk more =>
    split at ha
    · cases ha
    split at ha
    · cases ha
    split at ha
    · cases ha
    split at ha <;> try cases ha
    split at ha
    · exact hadv _ _ ha (fun _ => rfl) rfl
    · split at ha
      · cases ha
      rename_i k hk
      have hu := thr_upd (s := s) (t := s.cur)
        (th := { s.thr s.cur with q := (s.thr s.cur).q.drop k }) rfl rfl rfl
      split at ha
      · exact hadv _ _ ha (fun u => (hu u).2.2) rfl
      · cases ha
        exact ⟨fun u => (hu u).2.2, rfl⟩

theorem notify_wait {s s' : Rt} {w : Option Nat} (ha : s.notify w = .ok s') :
    (∀ u sw, (s'.thr u).pc = .sync sw → (s.thr u).pc = .sync sw) ∧
    (∀ u sw, (s'.thr u).pc = .woken sw → (s.thr u).pc = .woken sw ∨ (s.thr u).pc = .sync sw) ∧
    s'.status = s.status ∧ s'.persisted = s.persisted := by
  unfold Rt.notify at ha
  split at ha
  · cases ha
    exact ⟨fun _ _ h => h, fun _ _ h => .inl h, rfl, rfl⟩
  · rename_i w
    split at ha <;> cases ha
    rename_i sw0 hpc
    refine ⟨?_, ?_, rfl, rfl⟩ <;> intro u sw h <;> simp only [Rt.setThr] at h <;>
      by_cases hu : u = w
    · subst hu; rw [upd_same] at h; cases h
    · rw [upd_other _ _ hu] at h; exact h
    · subst hu; rw [upd_same] at h; cases h; exact .inr hpc
    · rw [upd_other _ _ hu] at h; exact .inl h

/-- A thread that is behind has a buffer. -/
theorem behind_mem {L : Nat → Nat} {s : Rt} (hC : RtInv s) (hl : ∀ u, L u ≤ (s.thr u).log.length)
    {u : Nat} (hu : Behind L s u) : (s.thr u).q ≠ [] ∧ u ∈ s.bufs := by
  have hT := hC.thr u
  have h1 : (s.thr u).q ≠ [] := by
    intro hq
    have h2 := hT.log
    rw [hq, List.append_nil] at h2
    have h3 := hl u
    rw [h2] at h3
    simp only [Behind] at hu
    omega
  refine ⟨h1, ?_⟩
  by_contra hn
  exact h1 (hT.out hn)

theorem check_mem {cfg : Config} {s s' : Rt} (ha : s.actScan cfg .check = .ok s') :
    s'.mem s'.encPtr = s.mem s.encPtr := by
  have hadv : ∀ (s1 : Rt) (j : Nat), s1.advance j = .ok s' → s'.mem s'.encPtr = s1.mem s1.encPtr := by
    intro s1 j h
    unfold Rt.advance at h
    split at h <;> cases h
    rfl
  simp only [Rt.actScan] at ha
  split at ha
  · cases ha
  split at ha
  · split at ha
    · cases ha; rfl
    · have := hadv _ _ ha; exact this
  · have := hadv _ _ ha; exact this

theorem act_sync {cfg : Config} {prog : List Site} (hroom : 40 ≤ cfg.output) {L : Nat → Nat}
    {t : Nat} {s s' : Rt} {l : Lbl} (hC : RtInv s) (h : SyncInv L t s)
    (ha : s.act cfg prog l = .ok s') (hs : l ≠ .spurious t) (hnd : ¬ CutsSync (s, l)) :
    SyncInv L t s' := by
  have hlog : ∀ u, L u ≤ (s'.thr u).log.length := fun u =>
    Nat.le_trans (h.log u) (act_log ha u).length_le
  obtain ⟨p1, p2, p3⟩ := act_hist hC ha
  by_cases hb : l.isBg = false ∨ ∃ t' jk c, l = .join t' jk c
  · -- application threads
    obtain ⟨w1, w2, w3⟩ := act_wait ha hb hs
    refine ⟨hlog, ?_, fun sw hw => (h.woken sw (w1 sw hw)).mono p1⟩
    intro sw hw
    unfold WaitInv
    rcases w2 sw hw with hw | hw
    swap
    · rw [hw]; trivial
    have hW := h.wait sw hw
    rcases w3 with w3 | w3
    swap
    · rw [w3]; trivial
    rw [w3]
    unfold WaitInv at hW
    cases hst : s.status with
    | requested => trivial
    | waitAio => rw [hst] at hW; exact AtLeast.mono hW p2
    | completed => rw [hst] at hW; exact AtLeast.mono hW p1
    | second =>
      rw [hst] at hW
      simp only at hW ⊢
      rcases hb with hb | ⟨t', jk, c, rfl⟩
      · have hS := act_app ha hb
        rw [hS.mem, hS.encPtr]
        intro hm
        have h2 := hW hm
        have hbeh : ∀ u, Behind L s' u ↔ Behind L s u := by
          intro u; simp only [Behind, hS.encoded]
        unfold SecondInv at h2 ⊢
        rw [hS.pc]
        simp only [hbeh, hS.last, hS.i]
        rcases hS.bufs with he | ⟨t, he, hlk⟩
        · rw [he]; exact h2
        · rw [he]
          cases hpc : s.pc <;> rw [hpc] at h2 <;> simp only at h2 ⊢ <;>
            simp [Rt.bufLocked, hpc] at hlk
          · intro u hu
            obtain ⟨hi, hl⟩ := hC.idx_lt (hC.curI (.inr hpc))
            exact pend_push hl (h2 u hu)
          · exact h2
      · intro _
        simp only [Rt.act, Rt.actCtl] at ha
        repeat' split at ha
        all_goals cases ha
        simp [SecondInv]
  · -- steps after which other threads are where they were
    have scan : (∀ u, (s'.thr u).pc = (s.thr u).pc) → s'.status = s.status →
        (s.status = .second → (s.mem s.encPtr = [] → SecondInv L s) → s'.mem s'.encPtr = [] →
          SecondInv L s') → SyncInv L t s' := by
      intro e1 e2 e3
      refine ⟨hlog, ?_, fun sw hw => (h.woken sw (by rw [← e1]; exact hw)).mono p1⟩
      intro sw hw
      have hW := h.wait sw (by rw [← e1]; exact hw)
      unfold WaitInv at hW ⊢
      rw [e2]
      cases hst : s.status with
      | requested => trivial
      | waitAio => rw [hst] at hW; exact AtLeast.mono hW p2
      | completed => rw [hst] at hW; exact AtLeast.mono hW p1
      | second => rw [hst] at hW; exact e3 hst hW
    cases l <;> simp [Lbl.isBg] at hb <;> simp only [Rt.act] at ha
    case top =>
      obtain ⟨e1, e2⟩ := actScan_wait ha
      refine scan e1 e2 fun _ _ _ => ?_
      simp only [Rt.actScan] at ha
      repeat' split at ha
      all_goals cases ha
      · trivial
      · simp only [SecondInv]
        intro u hu
        exact (pend_start ..).2 (behind_mem hC h.log hu).2
    case dict skip =>
      obtain ⟨e1, e2⟩ := actScan_wait ha
      refine scan e1 e2 fun _ hW hm => ?_
      simp only [Rt.actScan] at ha
      split at ha
      · cases ha
      rename_i hpc
      simp only [ne_eq, Decidable.not_not] at hpc
      split at ha
      · cases ha
        have := hW hm
        simp only [SecondInv, hpc] at this
        exact this
      · split at ha <;> cases ha
        rename_i e n he
        have hp := (encodeDict_prefix he).1
        simp only [Rt.setEnc, upd_same] at hm
        rw [hm] at hp
        have := hW (List.prefix_nil.1 hp)
        simp only [SecondInv, hpc] at this
        exact this
    case peek n =>
      obtain ⟨e1, e2⟩ := actScan_wait ha
      refine scan e1 e2 fun _ hW hm => ?_
      simp only [Rt.actScan] at ha
      split at ha
      · cases ha
      rename_i hpc
      simp only [ne_eq, Decidable.not_not] at hpc
      split at ha
      · rename_i hf
        cases ha
        have h2 := hW hm
        rcases hf with hf | hf
        · exact absurd hm (hC.full hf)
        · simp only [SecondInv, hpc] at h2 ⊢
          intro u hu
          have := h2 u hu
          simp [pend, hf] at this
      split at ha
      · cases ha
      rename_i c hc
      split at ha
      · cases ha
      split at ha
      · split at ha <;> cases ha
        rename_i hq
        have h2 := hW hm
        simp only [SecondInv, hpc] at h2 ⊢
        intro u hu
        have h3 := h2 u hu
        rw [pend_head hc] at h3
        rcases List.mem_cons.1 h3 with rfl | h3
        · exact absurd hq (behind_mem hC h.log hu).1
        · exact h3
      · split at ha <;> cases ha
        have h2 := hW hm
        simp only [SecondInv, hpc] at h2 ⊢
        exact h2
    case check =>
      obtain ⟨e1, e2⟩ := actScan_wait ha
      refine scan e1 e2 fun hst hW hm => ?_
      rw [check_mem ha] at hm
      obtain ⟨hpc, h2, -, h3, h4, -, h5, h6⟩ := check_pend hC ha fun hd => hnd ⟨hd, hst, hm⟩
      have hS := hW hm
      have hbeh : ∀ u, Behind L s' u ↔ Behind L s u := by
        intro u; simp only [Behind, h5]
      unfold SecondInv at hS ⊢
      simp only [hpc] at hS
      simp only [hbeh]
      rcases h2 with h2 | h2 <;> rw [h2]
      · intro u hu; exact (h6 u (hS u hu)).2
      · intro u hu
        have := (h6 u (hS u hu)).1
        rw [h2] at this; cases this
    case encode junk more =>
      obtain ⟨e1, e2⟩ := actScan_wait ha
      obtain ⟨-, h2, -, -⟩ := encode_pend hroom hC ha
      exact scan e1 e2 fun _ _ hm => absurd hm h2
    case scanned w =>
      simp only [Rt.actIo] at ha
      split at ha
      · cases ha
      rename_i hpc
      simp only [ne_eq, Decidable.not_not] at hpc
      split at ha
      · rename_i hm
        cases ha
        exact scan (fun _ => rfl) rfl fun _ _ hm' => absurd hm' hm
      rename_i hm
      simp only [ne_eq, Decidable.not_not] at hm
      split at ha
      · rename_i hst
        cases ha
        refine ⟨hlog, fun sw hw => ?_, h.woken⟩
        simp [WaitInv, SecondInv]
      rename_i hst
      -- everything logged before is encoded, or persisted already
      have key : ∀ sw, (s.thr t).pc = .sync sw →
          (s.idleStatus = .completed → AtLeast L s.persisted) ∧
          (s.idleStatus = .waitAio → AtLeast L (s.persisted ++ s.gO)) := by
        intro sw hw
        have hW := h.wait sw hw
        unfold WaitInv at hW
        cases hst2 : s.status with
        | requested => exact absurd hst2 hst
        | waitAio =>
          rw [hst2] at hW
          simp [Rt.idleStatus, hst2]; exact hW
        | completed =>
          rw [hst2] at hW
          simp [Rt.idleStatus, hst2]; exact hW
        | second =>
          rw [hst2] at hW
          have h2 := hW hm
          simp only [SecondInv, hpc, Behind, Nat.not_lt] at h2
          have hgB := hC.gB hm
          have h3 : AtLeast L (s.persisted ++ s.gO) := by
            intro u
            have := h2 u
            simpa [Rt.encoded, hgB, Rt.persisted] using this
          refine ⟨fun hi => ?_, fun _ => h3⟩
          have hn : s.aio = none := by
            by_contra hn
            have : s.aio.isSome = true := by
              cases ha : s.aio with
              | none => exact absurd ha hn
              | some a => rfl
            simp [Rt.idleStatus, hst2, this] at hi
          rw [hC.aioNone hn, List.append_nil] at h3
          exact h3
      split at ha
      · rename_i hid
        obtain ⟨n1, n2, n3, n4⟩ := notify_wait ha
        refine ⟨hlog, fun sw hw => ?_, fun sw hw => ?_⟩
        · unfold WaitInv
          rw [n3, n4]
          simp only [hid]
          exact (key sw (n1 t sw hw)).1 hid
        · rw [n4]
          rcases n2 t sw hw with hw | hw
          · exact h.woken sw hw
          · exact (key sw hw).1 hid
      · rename_i hid
        cases ha
        refine ⟨hlog, fun sw hw => ?_, h.woken⟩
        have := key sw hw
        unfold WaitInv
        simp only
        cases hid2 : s.idleStatus with
        | requested => trivial
        | completed => exact absurd hid2 hid
        | waitAio => exact this.2 hid2
        | second =>
          exfalso
          unfold Rt.idleStatus at hid2
          split at hid2
          · split at hid2 <;> cases hid2
          · rename_i hne
            exact hne hid2
    case aio =>
      simp only [Rt.actIo] at ha
      split at ha
      · cases ha
      rename_i hpc
      simp only [ne_eq, Decidable.not_not] at hpc
      split at ha
      · cases ha
        refine scan (fun _ => rfl) rfl fun _ hW hm => ?_
        have := hW hm
        simp [SecondInv, hpc] at this
      split at ha
      · cases ha
        refine scan (fun _ => rfl) rfl fun _ hW hm => ?_
        have := hW hm
        simp [SecondInv, hpc] at this
      split at ha <;> cases ha
      exact scan (fun _ => rfl) rfl fun _ _ _ => trivial
    case aioDone w =>
      simp only [Rt.actIo] at ha
      split at ha
      · cases ha
      rename_i hpc
      simp only [ne_eq, Decidable.not_not] at hpc
      split at ha
      · rename_i hst
        have hgO := hC.aioNone (hC.pcAio (.inl hpc))
        have key : ∀ sw, (s.thr t).pc = .sync sw → AtLeast L s.persisted := by
          intro sw hw
          have hW := h.wait sw hw
          simp only [WaitInv, hst, hgO, List.append_nil] at hW
          exact hW
        obtain ⟨n1, n2, n3, n4⟩ := notify_wait ha
        refine ⟨hlog, fun sw hw => ?_, fun sw hw => ?_⟩
        · unfold WaitInv
          rw [n3, n4]
          exact key sw (n1 t sw hw)
        · rw [n4]
          rcases n2 t sw hw with hw | hw
          · exact h.woken sw hw
          · exact key sw hw
      · cases ha
        refine scan (fun _ => rfl) rfl fun _ hW hm => ?_
        have := hW hm
        simp [SecondInv, hpc] at this
    case write =>
      simp only [Rt.actIo] at ha
      split at ha
      · cases ha
      split at ha <;> cases ha <;> exact scan (fun _ => rfl) rfl fun _ _ _ => trivial

theorem run_sync {cfg : Config} {prog : List Site} (hroom : 40 ≤ cfg.output) {L : Nat → Nat}
    {t : Nat} {s s' : Rt} {ls : List Lbl} (hC : RtInv s) (h : SyncInv L t s)
    (hr : s.run cfg prog ls = .ok s') (hs : .spurious t ∉ ls)
    (hnd : ∀ p ∈ s.trace cfg prog ls, ¬ CutsSync p) : SyncInv L t s' := by
  induction ls generalizing s with
  | nil => cases hr; exact h
  | cons l ls ih =>
    simp only [Rt.run] at hr
    simp only [Rt.trace] at hnd
    cases ha : s.act cfg prog l with
    | off => rw [ha] at hr; cases hr
    | ub => rw [ha] at hr; cases hr
    | ok s1 =>
      rw [ha] at hr hnd
      exact ih (act_cinv hroom hC ha)
        (act_sync hroom hC h ha (by rintro rfl; simp at hs) (hnd _ (by simp))) hr
        (fun hm => hs (by simp [hm])) fun p hp => hnd p (by simp [hp])

theorem act_log_eq {cfg : Config} {prog : List Site} {s s' : Rt} {l : Lbl}
    (ha : s.act cfg prog l = .ok s') (u : Nat) : (s'.thr u).log.length =
      (s.thr u).log.length + match l with | .commit t => if t = u then 1 else 0 | _ => 0 := by
  have hset : ∀ (t : Nat) (th : Thr), th.log = (s.thr t).log →
      (upd s.thr t th u).log.length = (s.thr u).log.length + 0 := by
    intro t th h
    by_cases hu : u = t
    · subst hu; rw [upd_same, h]; rfl
    · rw [upd_other _ _ hu]; rfl
  cases l <;> simp only [Rt.act] at ha
  case commit t =>
    simp only [Rt.actLog] at ha
    repeat' split at ha
    all_goals cases ha
    simp only [Rt.setThr]
    by_cases hu : u = t
    · subst hu; rw [upd_same]; simp
    · rw [upd_other _ _ hu]; simp [Ne.symm hu]
  all_goals first
    | (rw [(actScan_bg ha).log u]; rfl)
    | (rw [(actIo_bg ha).log u]; rfl)
    | (simp only [Rt.actLog, Rt.actBuf, Rt.actCtl] at ha
       repeat' split at ha
       all_goals first
         | (cases ha; done)
         | (cases ha; rfl)
         | (cases ha; exact hset _ _ rfl))

theorem returned_log {cfg : Config} {prog : List Site} {ls : List Lbl} {s : Rt}
    (h : RtExec cfg prog ls s) (t : Nat) : (s.thr t).log.length = returned t ls := by
  refine RtExec.induct (P := fun ls s => (s.thr t).log.length = returned t ls) ?_ ?_ h
  · intro jk c s hi
    unfold Rt.init at hi
    split at hi <;> cases hi
    rfl
  · intro ls s l s' _ ih _ ha
    rw [act_log_eq ha t, ih, returned, returned, List.filter_append, List.length_append]
    congr 1
    cases l <;> try rfl
    case commit u _ => by_cases hu : u = t <;> simp [hu]

/-- Messages known to be written are decoded. -/
theorem atLeast_decoded {cfg : Config} {prog : List Site} (hP : ProgOK cfg prog) {ls : List Lbl} {s : Rt}
    (h : RtExec cfg prog ls s) (hn : allocs ls ≤ 2 ^ 32) {L : Nat → Nat} (hL : AtLeast L s.persisted) :
    ∃ outs : List (List OutMsg), s.files.map (decodeFile (cfg.staging + 9)) = outs.map some ∧
      ∀ u b, (s.thr u).bid = some b → ∃ n, L u ≤ n ∧ n ≤ (mustRecord prog u ls).length ∧
        List.Forall₂ (MsgOf prog b) ((mustRecord prog u ls).take n)
          (outs.flatten.filter fun m => m.tid == b) := by
  obtain ⟨-, hF⟩ := h.inv hP
  obtain ⟨outs, a1, a2, -⟩ := C30_prefix hP h hn
  obtain ⟨outs', j, b1, b2⟩ := files_decode hF
  have : outs' = outs := by
    rw [a1] at b1
    exact (List.map_injective_iff.2 (fun _ _ h => Option.some.inj h) b1).symm
  subst this
  refine ⟨outs', a1, ?_⟩
  intro u b hb
  obtain ⟨n, g1, -⟩ := a2 u b hb
  have h3 := from_thread b2 (fun t u b => (h.bids.2 hn).2 t u b) (t := u) (b := b) hb
  have hlen := h3.length_eq
  have hge := hL u
  rw [byThr_append, List.length_append] at hlen
  have hg := g1.length_eq
  rw [List.length_take] at hg
  simp only [Rt.persisted] at hge
  refine ⟨min n (mustRecord prog u ls).length, by omega, Nat.min_le_right _ _, ?_⟩
  rw [List.take_eq_take_min] at g1
  exact g1

theorem syncInv_start {cfg : Config} {prog : List Site} {ls : List Lbl} {s s1 : Rt} {t : Nat} {l : Lbl}
    (h : RtExec cfg prog ls s) (hl : l = .sync t ∨ l = .setFile t true)
    (ha : s.act cfg prog l = .ok s1) : SyncInv (fun u => returned u ls) t s1 := by
  have hL : ∀ u, (s1.thr u).log.length = returned u ls := by
    intro u
    rw [act_log_eq ha u, returned_log h u]
    rcases hl with rfl | rfl <;> rfl
  have hst : s1.status = .requested ∧ ∀ sw, (s1.thr t).pc ≠ .woken sw := by
    rcases hl with rfl | rfl
    · simp only [Rt.act, Rt.actCtl] at ha
      split at ha <;> cases ha
      exact ⟨rfl, by simp [Rt.setThr]⟩
    · simp only [Rt.act, Rt.actCtl] at ha
      split at ha <;> try cases ha
      exact ⟨rfl, by simp [Rt.setThr]⟩
  exact ⟨fun u => Nat.le_of_eq (hL u).symm, fun sw _ => by simp [WaitInv, hst.1],
    fun sw hw => absurd hw (hst.2 sw)⟩

/-- When `sync` (or the `sync` at the beginning of `setLogFile`) called by thread `t` is about to
return, the messages of all log calls, of all threads, that had returned before the call of `sync`
are in the log files and are decoded, in order per thread; provided `t` was not woken spuriously,
and the background thread did not delete, in a second pass in which it encoded nothing, the buffer
with which the pass began while there were others.  What is missing: without these two conditions the claim is false, see
`C31_delete_false` and `C31_spurious_false`. -/
theorem C31_sync_partial {cfg : Config} {prog : List Site} (hP : ProgOK cfg prog)
    {ls ls' : List Lbl} {s s1 s2 : Rt} {t : Nat} {l : Lbl} {sw : Bool} (h : RtExec cfg prog ls s)
    (hl : l = .sync t ∨ l = .setFile t true) (ha : s.act cfg prog l = .ok s1)
    (hr : s1.run cfg prog ls' = .ok s2) (hok : ∀ l' ∈ l :: ls', l'.OK cfg prog)
    (hw : (s2.thr t).pc = .woken sw) (hs : .spurious t ∉ ls')
    (hnd : ∀ p ∈ s1.trace cfg prog ls', ¬ CutsSync p)
    (hn : allocs (ls ++ l :: ls') ≤ 2 ^ 32) :
    ∃ outs : List (List OutMsg), s2.files.map (decodeFile (cfg.staging + 9)) = outs.map some ∧
      ∀ u b, (s2.thr u).bid = some b → ∃ n, returned u ls ≤ n ∧
        n ≤ (mustRecord prog u (ls ++ l :: ls')).length ∧
        List.Forall₂ (MsgOf prog b) ((mustRecord prog u (ls ++ l :: ls')).take n)
          (outs.flatten.filter fun m => m.tid == b) := by
  obtain ⟨hC, -⟩ := h.inv hP
  have hC1 := act_cinv hP.room hC ha
  have hrun : s.run cfg prog (l :: ls') = .ok s2 := by
    simp only [Rt.run, ha]; exact hr
  have h2 := h.append hok hrun
  have h0 := syncInv_start h hl ha
  have hP2 := (run_sync hP.room hC1 h0 hr hs hnd).woken sw hw
  exact atLeast_decoded hP h2 hn hP2

/-- A write and the two passes after the request. -/
def exSynced : List Lbl :=
  exScan ++ [.top, .dict false, .peek 0, .check, .peek 0, .check, .scanned none, .top, .dict false,
    .peek 0, .check, .peek 0, .check, .scanned none, .disk 115, .aio, .aioDone (some 1)]

/-- Case for `C31_sync_partial`: thread 1 calls `sync` while messages are queued. -/
example : ∃ s, RtExec exCfg exSites exThreads s ∧
    (match s.act exCfg exSites (.sync 1) with
     | .ok s1 =>
       match s1.run exCfg exSites exSynced with
       | .ok s' => (s'.thr 1).pc == .woken false && (s'.persisted.length == 3) &&
          returned 1 exThreads == 1 && returned 2 exThreads == 2 &&
          (s1.trace exCfg exSites exSynced).all fun p => p.1.pc != .check ||
            p.1.i != p.1.last || !(p.1.thr p.1.cur).dealloc
       | _ => false
     | _ => false) = true :=
  exExec (by decide +kernel) (by decide +kernel)

/-- Threads 1 and 3 have ended; thread 2 has logged a message, which is in its buffer. -/
def exTwoGone : List Lbl :=
  exFirst 1 0 1000 [.int .i32 (-5)] ++
  [.call 3 0 [.int .i32 4], .readId 3 false, .stamp 3 1001, .reserve 3, .takeId 3, .push 3,
   .commit 3] ++ exFirst 2 1 1010 [.cstr 4096 [104, 105]] ++
  [.top, .dict false, .peek 1, .encode (fun _ => 0) [], .peek 1, .encode (fun _ => 0) [],
   .peek 1, .encode (fun _ => 0) [], .scanned none, .aio, .write, .disk 119, .top, .dict false,
   .peek 0, .check, .peek 0, .check, .peek 0, .check, .scanned none, .aio, .aioDone none, .write,
   .exitThread 1, .exitThread 3] ++ exNext 2 0 1030 [.int .i32 6]

/-- The two passes after the request each delete the buffer they begin with. -/
def exEarly : List Lbl :=
  [.top, .dict false, .peek 0, .check, .scanned none, .top, .dict false, .peek 0, .check,
   .scanned (some 2), .ret 2]

/-- `sync` may return although a message logged before it by the same thread is neither in the
file nor even encoded: two threads have ended, and each of the two passes ends after the deletion
of a buffer. -/
theorem C31_delete_false : ∃ ls s s1 s2, RtExec exCfg exSites ls s ∧
    s.act exCfg exSites (.sync 2) = .ok s1 ∧ s1.run exCfg exSites exEarly = .ok s2 ∧
    (s2.thr 2).pc = .idle ∧ (s2.thr 2).bid = some 2 ∧
    returned 2 ls = 2 ∧
    ∃ outs, s2.files.map (decodeFile (exCfg.staging + 9)) = [some outs] ∧
      (outs.filter fun m => m.tid == 2).length = 1 := by
  obtain ⟨s, hs, hp⟩ := exExec (ls := exTwoGone) (p := fun s =>
    match s.act exCfg exSites (.sync 2) with
    | .ok s1 =>
      match s1.run exCfg exSites exEarly with
      | .ok s2 => (s2.thr 2).pc == .idle && (s2.thr 2).bid == some 2 && returned 2 exTwoGone == 2 &&
          s2.closed.length == 0 &&
          (match decodeFile (exCfg.staging + 9) s2.disk with
           | some outs => (outs.filter fun m => m.tid == 2).length == 1
           | none => false)
      | _ => false
    | _ => false) (by decide +kernel) (by decide +kernel)
  simp only at hp
  split at hp <;> try cases hp
  rename_i s1 h1
  split at hp <;> try cases hp
  rename_i s2 h2
  simp only [Bool.and_eq_true, beq_iff_eq] at hp
  obtain ⟨⟨⟨⟨p1, p2⟩, p3⟩, p4⟩, p5⟩ := hp
  split at p5 <;> try cases p5
  rename_i outs h3
  refine ⟨_, s, s1, s2, hs, h1, h2, p1, p2, p3, outs, ?_, by simpa using p5⟩
  have := List.length_eq_zero_iff.1 p4
  simp [Rt.files, this, h3]

/-- `sync` waits without a predicate: after a spurious wake-up it returns before anything is
done. -/
theorem C31_spurious_false : ∃ ls s s1 s2, RtExec exCfg exSites ls s ∧
    s.act exCfg exSites (.sync 1) = .ok s1 ∧
    s1.run exCfg exSites [.spurious 1, .ret 1] = .ok s2 ∧
    (s2.thr 1).pc = .idle ∧ returned 1 ls = 1 ∧ s2.files = [[]] := by
  obtain ⟨s, hs, hp⟩ := exExec (ls := exThreads) (p := fun s =>
    match s.act exCfg exSites (.sync 1) with
    | .ok s1 =>
      match s1.run exCfg exSites [.spurious 1, .ret 1] with
      | .ok s2 => (s2.thr 1).pc == .idle && returned 1 exThreads == 1 && s2.files == [[]]
      | _ => false
    | _ => false) (by decide +kernel) (by decide +kernel)
  simp only at hp
  split at hp <;> try cases hp
  rename_i s1 h1
  split at hp <;> try cases hp
  rename_i s2 h2
  simp only [Bool.and_eq_true, beq_iff_eq] at hp
  exact ⟨_, s, s1, s2, hs, h1, h2, hp.1.1, hp.1.2, hp.2⟩

end NanoLog
