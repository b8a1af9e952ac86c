import Verif.RuntimeLasso

/-!
# An execution in which `sync` does not return

Thread 2 logs a message before each pass of the background thread.  (An example execution; nothing here
models code.)
-/

namespace NanoLog

/-- The states when the labels `f` are executed. -/
def stream (f : Nat → Lbl) (s0 : Rt) : Nat → Rt
  | 0 => s0
  | k + 1 =>
    match (stream f s0 k).act exCfg exSites (f k) with
    | .ok s => s
    | _ => stream f s0 k

theorem stream_run {f : Nat → Lbl} {s0 s' : Rt} {ls : List Lbl} {k : Nat}
    (h : (stream f s0 k).run exCfg exSites ls = .ok s') (hf : ∀ i < ls.length, ls[i]? = some (f (k + i))) :
    stream f s0 (k + ls.length) = s' ∧ ∀ i < ls.length,
      (stream f s0 (k + i)).act exCfg exSites (f (k + i)) = .ok (stream f s0 (k + i + 1)) := by
  induction ls generalizing k with
  | nil => cases h; exact ⟨rfl, fun i hi => by simp at hi⟩
  | cons l ls ih =>
    have h0 : l = f k := by simpa using hf 0 (by simp)
    subst h0
    simp only [Rt.run] at h
    cases ha : (stream f s0 k).act exCfg exSites (f k) with
    | off => rw [ha] at h; cases h
    | ub => rw [ha] at h; cases h
    | ok s1 =>
      rw [ha] at h
      have e : stream f s0 (k + 1) = s1 := by simp only [stream, ha]
      simp only [← e] at h
      obtain ⟨h1, h2⟩ := ih h fun i hi => by
        have := hf (i + 1) (by simpa using hi)
        simpa [Nat.add_assoc, Nat.add_comm 1] using this
      refine ⟨?_, fun i hi => ?_⟩
      · rw [← h1]; congr 1; simp only [List.length_cons]; omega
      · cases i with
        | zero => simp only [Nat.add_zero, ha, e]
        | succ i =>
          have := h2 i (by simpa using hi)
          simpa only [Nat.add_assoc, Nat.add_comm 1] using this

/-- The message logged over and over. -/
def svCall : LogCall := ⟨0, 1000, [.int .i32 5]⟩

/-- What it becomes in the output. -/
def svOut : List Byte := [14, 11, 0, 0, 0, 33, 0, 232, 3, 1, 5]

theorem svEncode : encodeLogMsgs exCfg (fun _ => 0) [exSite0] 1024 (entryBytes exSite0 svCall) 20 0 true =
    some (svOut, 20) := by decide +kernel

/-- One round: thread 2 logs, the background thread finds and encodes the message, its previous write is
complete, it starts the next one, the disk completes it. -/
def svRound : List Lbl :=
  [.call 2 0 [.int .i32 5], .readId 2 false, .stamp 2 1000, .reserve 2, .commit 2, .top, .dict false,
   .peek 1, .encode (fun _ => 0) [], .scanned none, .aio, .aioDone none, .write, .disk 11]

/-- Before the rounds. -/
def svStart : List Lbl :=
  exFirst 2 0 1000 [.int .i32 5] ++ [.sync 1, .top, .dict false, .peek 1, .encode (fun _ => 0) [],
    .scanned none, .aio, .write, .disk 79]

/-- What does not change during a round. -/
structure Sv (p : TPc) (q : List LogCall) (pc : BPc) (m : List Byte) (s : Rt) : Prop where
  level : s.level = 3
  ids : s.ids 0 = some 0
  sites : s.sites = [exSite0]
  bid : (s.thr 2).bid = some 0
  freed : (s.thr 2).freed = false
  bufs : s.bufs = [2]
  status : s.status = .requested
  exit : s.exit = false
  last : s.last = 0
  i : s.i = 0
  wrap : s.wrap = true
  full : s.full = false
  pos : s.pos = 1
  shadow : s.shadow = [exSite0]
  comp : s.comp = s.encPtr
  dbl : s.dbl = !s.encPtr
  tpc : (s.thr 2).pc = p
  q : (s.thr 2).q = q
  pc : s.pc = pc
  mem : s.mem s.encPtr = m

/-- Between rounds. -/
def SvTop (s : Rt) : Prop := Sv .idle [] .top [] s ∧ ∃ a, s.aio = some a ∧ a.done = a.len

theorem sv_thr {p p' : TPc} {q q' : List LogCall} {pc : BPc} {m : List Byte} {s : Rt} (h : Sv p q pc m s)
    {th : Thr} (h1 : th.bid = some 0) (h2 : th.freed = false) (h3 : th.pc = p') (h4 : th.q = q') :
    Sv p' q' pc m (s.setThr 2 th) := by
  obtain ⟨a1, a2, a3, a4, a5, a6, a7, a8, a9, a10, a11, a12, a13, a14, a15, a16, a17, a18, a19, a20⟩ := h
  constructor <;> simp only [Rt.setThr, upd_same] <;> assumption

theorem sv_log {s : Rt} (h : SvTop s) : ∃ s', s.run exCfg exSites (svRound.take 5) = .ok s' ∧
    Sv .idle [svCall] .top [] s' ∧ ∃ a, s'.aio = some a ∧ a.done = a.len := by
  obtain ⟨h, ha⟩ := h
  have e1 : s.act exCfg exSites (.call 2 0 [.int .i32 5]) =
      .ok (s.setThr 2 { s.thr 2 with pc := .called 0 [.int .i32 5] }) := by
    simp only [Rt.act, Rt.actLog, h.tpc, exSites, List.getElem?_cons_zero, h.level]
    rfl
  have h1 := sv_thr (p' := .called 0 [.int .i32 5]) (q' := []) h
    (th := { s.thr 2 with pc := .called 0 [.int .i32 5] }) h.bid h.freed rfl h.q
  have ha1 : ∃ a, (s.setThr 2 { s.thr 2 with pc := .called 0 [.int .i32 5] }).aio = some a ∧ a.done = a.len := ha
  revert h1 ha1 e1
  generalize s.setThr 2 { s.thr 2 with pc := .called 0 [.int .i32 5] } = s1
  intro e1 h1 ha1
  have e2 : s1.act exCfg exSites (.readId 2 false) =
      .ok (s1.setThr 2 { s1.thr 2 with pc := .known 0 [.int .i32 5] }) := by
    simp only [Rt.act, Rt.actLog, h1.tpc, h1.ids]
    rfl
  have h2 := sv_thr (p' := .known 0 [.int .i32 5]) (q' := []) h1
    (th := { s1.thr 2 with pc := .known 0 [.int .i32 5] }) h1.bid h1.freed rfl h1.q
  have ha2 : ∃ a, (s1.setThr 2 { s1.thr 2 with pc := .known 0 [.int .i32 5] }).aio = some a ∧ a.done = a.len := ha1
  revert h2 ha2 e2
  generalize s1.setThr 2 { s1.thr 2 with pc := .known 0 [.int .i32 5] } = s2
  intro e2 h2 ha2
  have e3 : s2.act exCfg exSites (.stamp 2 1000) =
      .ok (s2.setThr 2 { s2.thr 2 with pc := .stamped svCall }) := by
    simp only [Rt.act, Rt.actLog, h2.tpc]
    rfl
  have h3 := sv_thr (p' := .stamped svCall) (q' := []) h2
    (th := { s2.thr 2 with pc := .stamped svCall }) h2.bid h2.freed rfl h2.q
  have ha3 : ∃ a, (s2.setThr 2 { s2.thr 2 with pc := .stamped svCall }).aio = some a ∧ a.done = a.len := ha2
  revert h3 ha3 e3
  generalize s2.setThr 2 { s2.thr 2 with pc := .stamped svCall } = s3
  intro e3 h3 ha3
  have e4 : s3.act exCfg exSites (.reserve 2) =
      .ok (s3.setThr 2 { s3.thr 2 with pc := .write svCall }) := by
    simp only [Rt.act, Rt.actLog, h3.tpc, h3.bid]
    simp
  have h4 := sv_thr (p' := .write svCall) (q' := []) h3
    (th := { s3.thr 2 with pc := .write svCall }) h3.bid h3.freed rfl h3.q
  have ha4 : ∃ a, (s3.setThr 2 { s3.thr 2 with pc := .write svCall }).aio = some a ∧ a.done = a.len := ha3
  revert h4 ha4 e4
  generalize s3.setThr 2 { s3.thr 2 with pc := .write svCall } = s4
  intro e4 h4 ha4
  have e5 : s4.act exCfg exSites (.commit 2) =
      .ok (s4.setThr 2 { s4.thr 2 with pc := .idle, q := [svCall], log := (s4.thr 2).log ++ [svCall] }) := by
    simp only [Rt.act, Rt.actLog, h4.tpc, h4.freed, h4.q]
    rfl
  refine ⟨s4.setThr 2 { s4.thr 2 with pc := .idle, q := [svCall], log := (s4.thr 2).log ++ [svCall] }, ?_,
    sv_thr h4 ?_ ?_ ?_ ?_, ha4⟩
  · simp only [svRound, List.take, Rt.run, e1, e2, e3, e4, e5]
  · exact h4.bid
  · exact h4.freed
  · rfl
  · rfl

theorem sv_encode {u : Rt} (h : Sv .idle [svCall] .encode [] u) (hc : u.cur = 2) (hr : u.rem = 1) :
    ∃ u', u.act exCfg exSites (.encode (fun _ => 0) []) = .ok u' ∧ Sv .idle [] .scanned svOut u' ∧
      u'.aio = u.aio := by
  obtain ⟨a1, a2, a3, a4, a5, a6, a7, a8, a9, a10, a11, a12, a13, a14, a15, a16, a17, a18, a19, a20⟩ := h
  have hlen : (entryBytes exSite0 svCall).length = 20 := by decide +kernel
  have hsz : u.msgSize svCall = 20 := by
    simp only [Rt.msgSize, a3, svCall, List.getElem?_cons_zero]
    decide +kernel
  have hcb : countBytes u.msgSize [svCall] 20 = some 1 := by
    simp [countBytes, hsz]
  have hmb : u.msgBytes [svCall] = entryBytes exSite0 svCall := by
    simp [Rt.msgBytes, a3, svCall]
  have hmin : min exCfg.release 20 = 20 := by decide
  have ho : exCfg.output - ([] : List Byte).length = 1024 := by decide
  have hst : u.enc.step exCfg (.batch (fun _ => 0) [svCall] (entryBytes exSite0 svCall ++ []) 20 0 true) =
      some ({ u.enc with buf := svOut }, some 20) := by
    simp only [EncSt.step, Rt.enc, a14, a20, ho, List.append_nil, svEncode, List.nil_append]
  refine ⟨{ u with
        pc := .scanned, i := 0, rem := 0, wrap := true
        mem := upd u.mem u.encPtr svOut, gB := u.gB ++ [(2, svCall)]
        thr := upd u.thr 2 { u.thr 2 with q := [] } }, ?_, ?_, rfl⟩
  · have hb : (u.thr 2).bid = some 0 := a4
    simp only [Rt.act, Rt.actScan, a19, hc, a5, a4, a18, hr, List.take, hmb, hlen, hmin, a11, hst,
      ne_eq, not_true_eq_false, if_false, Bool.false_eq_true, show ((20 : Int) = 0) = False by simp,
      show (20 : Int).toNat = 20 from rfl, hcb]
    simp [Rt.setEnc, Rt.setThr, Rt.advance, a6, a9, Rt.enc, Nat.mod_one, hc]
  · constructor <;> simp only [upd_same] <;> assumption

theorem sv_scan {s : Rt} (h : Sv .idle [svCall] .top [] s) :
    ∃ s', s.run exCfg exSites ((svRound.drop 5).take 4) = .ok s' ∧
    Sv .idle [] .scanned svOut s' ∧ s'.aio = s.aio := by
  obtain ⟨a1, a2, a3, a4, a5, a6, a7, a8, a9, a10, a11, a12, a13, a14, a15, a16, a17, a18, a19, a20⟩ := h
  have e1 : s.act exCfg exSites .top = .ok { s with pc := .dict, i := 0 } := by
    simp [Rt.act, Rt.actScan, a19, a8, a9]
  have e2 : ({ s with pc := .dict, i := 0 } : Rt).act exCfg exSites (.dict false) =
      .ok { s with pc := .scan, i := 0 } := by
    have hset : upd s.mem s.encPtr (s.mem s.encPtr) = s.mem := by
      funext b; simp only [upd]; split <;> simp_all
    simp [Rt.act, Rt.actScan, EncSt.step, Rt.enc, a3, a13, Rt.setEnc, hset]
  have e3 : ({ s with pc := .scan, i := 0 } : Rt).act exCfg exSites (.peek 1) =
      .ok { s with pc := .encode, i := 0, cur := 2, rem := 1 } := by
    simp [Rt.act, Rt.actScan, a12, a6, a5, a18]
  obtain ⟨u', h1, h2, h3⟩ := sv_encode (u := { s with pc := .encode, i := 0, cur := 2, rem := 1 })
    (by constructor <;> first | assumption | rfl) rfl rfl
  refine ⟨u', ?_, h2, h3⟩
  simp only [svRound, List.drop, List.take, Rt.run, e1, e2, e3, h1]

theorem sv_io {s : Rt} (h : Sv .idle [] .scanned svOut s) (ha : ∃ a, s.aio = some a ∧ a.done = a.len) :
    ∃ s', s.run exCfg exSites (svRound.drop 9) = .ok s' ∧ SvTop s' := by
  obtain ⟨a1, a2, a3, a4, a5, a6, a7, a8, a9, a10, a11, a12, a13, a14, a15, a16, a17, a18, a19, a20⟩ := h
  obtain ⟨a, ha, hd⟩ := ha
  have hne : s.mem s.encPtr ≠ [] := by rw [a20]; decide
  have hlen : (s.mem s.encPtr).length = 11 := by rw [a20]; decide
  have hb : ((!s.encPtr) = s.encPtr) = False := by simp
  have e1 : s.act exCfg exSites (.scanned none) = .ok { s with pc := .aio } := by
    simp [Rt.act, Rt.actIo, a19, hne]
  have e2 : ({ s with pc := .aio } : Rt).act exCfg exSites .aio =
      .ok { s with pc := .aioDone, aio := none, gD := s.gD ++ s.gO, gO := [] } := by
    simp [Rt.act, Rt.actIo, ha, hd]
  have e3 : ({ s with pc := .aioDone, aio := none, gD := s.gD ++ s.gO, gO := [] } : Rt).act exCfg exSites
      (.aioDone none) = .ok { s with pc := .write, aio := none, gD := s.gD ++ s.gO, gO := [] } := by
    simp [Rt.act, Rt.actIo, a7]
  have e4 : ({ s with pc := .write, aio := none, gD := s.gD ++ s.gO, gO := [] } : Rt).act exCfg exSites .write =
      .ok { s with
        aio := some ⟨s.encPtr, 11, 0⟩, encPtr := !s.encPtr, mem := upd s.mem (!s.encPtr) [], comp := !s.encPtr
        dbl := s.encPtr, full := false, pc := .top, gD := s.gD ++ s.gO, gO := s.gB, gB := [] } := by
    simp [Rt.act, Rt.actIo, hne, hlen, a15, a16]
  have hm : upd s.mem (!s.encPtr) [] s.encPtr = svOut := by
    rw [upd_other _ _ (by simp), a20]
  have e5 : ({ s with
        aio := some ⟨s.encPtr, 11, 0⟩, encPtr := !s.encPtr, mem := upd s.mem (!s.encPtr) [], comp := !s.encPtr
        dbl := s.encPtr, full := false, pc := .top, gD := s.gD ++ s.gO, gO := s.gB, gB := [] } : Rt).act
        exCfg exSites (.disk 11) = .ok { s with
        aio := some ⟨s.encPtr, 11, 11⟩, encPtr := !s.encPtr, mem := upd s.mem (!s.encPtr) [], comp := !s.encPtr
        dbl := s.encPtr, full := false, pc := .top, gD := s.gD ++ s.gO, gO := s.gB, gB := []
        disk := s.disk ++ svOut } := by
    simp [Rt.act, Rt.actIo, hm]
    rfl
  refine ⟨{ s with
        aio := some ⟨s.encPtr, 11, 11⟩, encPtr := !s.encPtr, mem := upd s.mem (!s.encPtr) [], comp := !s.encPtr
        dbl := s.encPtr, full := false, pc := .top, gD := s.gD ++ s.gO, gO := s.gB, gB := []
        disk := s.disk ++ svOut }, by simp only [svRound, List.drop, Rt.run, e1, e2, e3, e4, e5], ?_, _, rfl, rfl⟩
  constructor <;> simp only [upd_same, Bool.not_not] <;> assumption

/-- A round can be run from `SvTop` and leads to `SvTop`; in its `scanned` step there is output. -/
theorem sv_round {s : Rt} (h : SvTop s) : ∃ s9 s', s.run exCfg exSites (svRound.take 9) = .ok s9 ∧
    s9.mem s9.encPtr ≠ [] ∧ s.run exCfg exSites svRound = .ok s' ∧ SvTop s' := by
  have happ : ∀ (ls ls' : List Lbl) (s s1 : Rt), s.run exCfg exSites ls = .ok s1 →
      s.run exCfg exSites (ls ++ ls') = s1.run exCfg exSites ls' := by
    intro ls
    induction ls with
    | nil => intro ls' s s1 h; cases h; rfl
    | cons l ls ih =>
      intro ls' s s1 h
      simp only [List.cons_append, Rt.run] at h ⊢
      cases ha : s.act exCfg exSites l with
      | off => rw [ha] at h; cases h
      | ub => rw [ha] at h; cases h
      | ok s2 => rw [ha] at h; exact ih ls' s2 s1 h
  obtain ⟨s5, h1, h2, h3⟩ := sv_log h
  obtain ⟨s9, h4, h5, h6⟩ := sv_scan h2
  obtain ⟨s', h7, h8⟩ := sv_io h5 (by rw [h6]; exact h3)
  have e9 : s.run exCfg exSites (svRound.take 9) = .ok s9 := by
    have := happ _ ((svRound.drop 5).take 4) _ _ h1
    rw [h4] at this
    exact this
  refine ⟨s9, s', e9, ?_, ?_, h8⟩
  · rw [h5.mem]; decide
  · have := happ _ (svRound.drop 9) _ _ e9
    rw [h7, List.take_append_drop] at this
    exact this

/-- The labels: `svStart`, then rounds. -/
def svLbl (k : Nat) : Lbl :=
  match svStart[k]? with
  | some l => l
  | none => match svRound[(k - 17) % 14]? with
    | some l => l
    | none => .top

theorem svLbl_start {k : Nat} (h : k < 17) : svStart[k]? = some (svLbl k) := by
  have : svStart.length = 17 := by decide +kernel
  unfold svLbl
  rw [List.getElem?_eq_getElem (by omega)]

theorem svLbl_round {m i : Nat} (h : i < 14) : svRound[i]? = some (svLbl (17 + 14 * m + i)) := by
  have h1 : svStart.length = 17 := by decide +kernel
  have h2 : svRound.length = 14 := by decide +kernel
  unfold svLbl
  rw [List.getElem?_eq_none (l := svStart) (by omega)]
  have : (17 + 14 * m + i - 17) % 14 = i := by omega
  simp only [this]
  rw [List.getElem?_eq_getElem (by omega)]

theorem svLbl_mem (k : Nat) : svLbl k ∈ svStart ++ svRound := by
  by_cases h : k < 17
  · exact List.mem_append_left _ (List.mem_of_getElem? (svLbl_start h))
  · have := svLbl_round (m := (k - 17) / 14) (i := (k - 17) % 14) (by omega)
    rw [show 17 + 14 * ((k - 17) / 14) + (k - 17) % 14 = k by omega] at this
    exact List.mem_append_right _ (List.mem_of_getElem? this)

/-- Steps that wake no thread and are not part of `setLogFile`. -/
def Lbl.mild : Lbl → Bool
  | .spurious _ | .ret _ | .setFile .. | .stop _ | .join .. | .scanned (some _) | .aioDone (some _) => false
  | _ => true

/-- No thread has been woken or is in `setLogFile` after `sync`. -/
def NoWake (s : Rt) : Prop := ∀ u, (∀ sw, (s.thr u).pc ≠ .woken sw) ∧ (s.thr u).pc ≠ .stop ∧ (s.thr u).pc ≠ .join

theorem actIo_mild {s s' : Rt} {l : Lbl} (hm : l.mild = true) (ha : s.actIo l = .ok s') : s'.thr = s.thr := by
  cases l <;> simp only [Rt.actIo] at ha <;> try cases ha
  case scanned w =>
    cases w
    · repeat' split at ha
      all_goals first | (cases ha; rfl) | cases ha
    · cases hm
  case aioDone w =>
    cases w
    · repeat' split at ha
      all_goals first | (cases ha; rfl) | cases ha
    · cases hm
  all_goals
    repeat' split at ha
    all_goals first | (cases ha; rfl) | cases ha

theorem actScan_pc {cfg : Config} {s s' : Rt} {l : Lbl} (ha : s.actScan cfg l = .ok s') (u : Nat) :
    (s'.thr u).pc = (s.thr u).pc := by
  have hset : ∀ (t : Nat) (th : Thr), th.pc = (s.thr t).pc → (upd s.thr t th u).pc = (s.thr u).pc := by
    intro t th h
    by_cases ht : u = t
    · subst ht; rw [upd_same]; exact h
    · rw [upd_other _ _ ht]
  cases l <;> simp only [Rt.actScan] at ha <;> try cases ha
  case top => (repeat' split at ha) <;> cases ha <;> rfl
  case dict => (repeat' split at ha) <;> cases ha <;> rfl
  case peek => (repeat' split at ha) <;> cases ha <;> rfl
  case check =>
    split at ha
    · cases ha
    split at ha
    · split at ha
      · cases ha; exact hset _ _ rfl
      · rw [(advance_thr ha).1]; exact hset _ _ rfl
    · rw [(advance_thr ha).1]
  case encode =>
    split at ha
    · cases ha
    split at ha
    · cases ha
    split at ha
    · cases ha
    split at ha
    · split at ha
      · rw [(advance_thr ha).1]; rfl
      · split at ha
        · cases ha
        · split at ha
          · rw [(advance_thr ha).1]; exact hset _ _ rfl
          · cases ha; exact hset _ _ rfl
    · cases ha

theorem act_mild {cfg : Config} {prog : List Site} {s s' : Rt} {l : Lbl} (hm : l.mild = true)
    (ha : s.act cfg prog l = .ok s') (h : NoWake s) : NoWake s' := by
  intro u
  have hset : ∀ (t : Nat) (th : Thr), ((∀ sw, th.pc ≠ .woken sw) ∧ th.pc ≠ .stop ∧ th.pc ≠ .join) →
      (∀ sw, (upd s.thr t th u).pc ≠ .woken sw) ∧ (upd s.thr t th u).pc ≠ .stop ∧
        (upd s.thr t th u).pc ≠ .join := by
    intro t th h1
    by_cases ht : u = t
    · subst ht; rw [upd_same]; exact h1
    · rw [upd_other _ _ ht]; exact h u
  cases l
  case top | dict | peek | check | encode =>
    simp only [Rt.act] at ha; rw [actScan_pc ha]; exact h u
  case scanned | aio | aioDone | write | disk =>
    simp only [Rt.act] at ha; rw [actIo_mild hm ha]; exact h u
  case spurious | ret | setFile | stop | join => cases hm
  case setLevel => simp only [Rt.act, Rt.actCtl] at ha; cases ha; exact h u
  case push t =>
    simp only [Rt.act, Rt.actBuf] at ha
    repeat' split at ha
    all_goals first | cases ha | skip
    · rename_i c _ _
      refine hset _ _ ?_; cases c <;> simp [afterAlloc]
  all_goals
    simp only [Rt.act, Rt.actLog, Rt.actBuf, Rt.actCtl] at ha
    repeat' split at ha
    all_goals first
      | (cases ha; exact h u)
      | (cases ha; refine hset _ _ ?_; simp)
      | cases ha

theorem sv_init {s0 : Rt} (h0 : Rt.init exCfg 0 exCk = some s0) :
    ∃ s, s0.run exCfg exSites svStart = .ok s ∧ SvTop s := by
  have hc : exCheck svStart (fun s => s.level == 3 && s.ids 0 == some 0 && s.sites == [exSite0] &&
      (s.thr 2).bid == some 0 && !(s.thr 2).freed && s.bufs == [2] && s.status == .requested && !s.exit &&
      s.last == 0 && s.i == 0 && s.wrap && !s.full && s.pos == 1 && s.shadow == [exSite0] &&
      s.comp == s.encPtr && s.dbl == (!s.encPtr) && (s.thr 2).pc == .idle && (s.thr 2).q == [] && s.pc == .top &&
      s.mem s.encPtr == [] && (match s.aio with | some a => a.done == a.len | none => false)) = true := by
    decide +kernel
  unfold exCheck at hc
  rw [h0] at hc
  simp only at hc
  cases hr : s0.run exCfg exSites svStart with
  | off => rw [hr] at hc; cases hc
  | ub => rw [hr] at hc; cases hc
  | ok s =>
    rw [hr] at hc
    simp only [Bool.and_eq_true, beq_iff_eq, Bool.not_eq_true'] at hc
    refine ⟨s, rfl, ?_, ?_⟩
    · constructor <;> simp_all
    · have := hc.2
      split at this
      · rename_i a ha; exact ⟨a, ha, by simpa using this⟩
      · cases this

end NanoLog
