import Verif.RuntimeStarve

/-!
# An execution in which a message is never written because new threads keep starting

Whenever the background thread encodes messages of the last staging buffer in `threadBuffers`, which it
does without holding `bufferMutex` (runtime/RuntimeLogger.cc:436-469), another thread starts and logs a
message; so the scan never gets back to the first buffer.  (An example execution; nothing here models
code.)
-/

namespace NanoLog

/-- The message left behind. -/
def nwMsg : LogCall := ⟨0, 1000, [.int .i32 6]⟩

/-- The beginning: thread 0 logs a message; while the background thread encodes it, thread 0 logs `nwMsg`
and thread 1 logs its first message. -/
def nwStart : List Lbl :=
  exFirst 0 0 1000 [.int .i32 5] ++ [.top, .dict false, .peek 1] ++ exNext 0 0 1000 [.int .i32 6] ++
  [.call 1 0 [.int .i32 5], .readId 1 false, .stamp 1 1000, .reserve 1, .takeId 1, .push 1, .commit 1,
   .encode (fun _ => 0) []]

/-- Bytes the system still has to write. -/
def Rt.toDisk (s : Rt) : Nat :=
  match s.aio with
  | some a => a.len - a.done
  | none => 0

/-- The next step of a thread that logs its first message. -/
def nwThread (n : Nat) : TPc → Lbl
  | .called .. => .readId n false
  | .known .. => .stamp n 1000
  | .stamped _ => .reserve n
  | .take _ => .takeId n
  | .push _ => .push n
  | _ => .call n 0 [.int .i32 5]

/-- The next step: the disk first; then a thread that is writing its first message; then, if the last
buffer is being encoded, a new thread; otherwise the background thread. -/
def nwTurn (s : Rt) : Lbl :=
  if 0 < s.toDisk then .disk s.toDisk
  else if (s.thr (s.bufs.length - 1)).pc ≠ .idle then .commit (s.bufs.length - 1)
  else match s.pc with
    | .encode =>
      if s.i + 1 = s.bufs.length then nwThread s.bufs.length (s.thr s.bufs.length).pc
      else .encode (fun _ => 0) []
    | .scan => .peek (s.thr s.i).q.length
    | .scanned => .scanned none
    | .aio => .aio
    | .aioDone => .aioDone none
    | .write => .write
    | .dict => .dict false
    | _ => .top

/-- How far a new thread is from having its buffer; `none`: not such a thread. -/
def nwStage : TPc → Option Nat
  | .idle => some 7
  | .called 0 _ => some 6
  | .known _ _ => some 5
  | .stamped _ => some 4
  | .take (some _) => some 3
  | .push (some _) => some 2
  | _ => none

/-- The buffer from which on the scan goes on. -/
def Rt.front (s : Rt) : Nat :=
  match s.pc with
  | .scan => if s.full then s.last else s.i
  | .encode => s.i
  | _ => s.last

/-- What holds in all states after the beginning. -/
structure Nw (s : Rt) : Prop where
  bufs : s.bufs = List.range s.bufs.length
  two : 2 ≤ s.bufs.length
  ids : s.ids 0 = some 0
  level : s.level = 3
  exit : s.exit = false
  status : s.status = .completed
  zero : (s.thr 0).q = [nwMsg]
  idle : ∀ t, t + 1 < s.bufs.length → (s.thr t).pc = .idle
  newest : (s.thr (s.bufs.length - 1)).pc = .idle ∨
    s.pc = .encode ∧ s.i + 1 < s.bufs.length ∧ (s.thr (s.bufs.length - 1)).q = [] ∧
    (s.thr s.bufs.length).pc = .idle ∧ ∃ c, (s.thr (s.bufs.length - 1)).pc = .write c
  stage : ∃ m, nwStage (s.thr s.bufs.length).pc = some m
  next : (s.thr s.bufs.length).pc = .idle ∨ s.pc = .encode ∧ s.i + 1 = s.bufs.length
  later : ∀ t, s.bufs.length < t → (s.thr t).pc = .idle
  short : ∀ t, (s.thr t).q.length ≤ 1
  queued : ∀ t, s.front ≤ t → t < s.bufs.length → (s.thr t).q = [] → ∃ c, (s.thr t).pc = .write c
  front : 1 ≤ s.front
  pass : s.pc = .scan ∨ s.pc = .encode → s.last ≤ s.i ∧ s.i < s.bufs.length
  dict : s.pc = .dict → s.i = s.last
  enc : s.pc = .encode → s.full = false
  alive : s.pc ≠ .check ∧ s.pc ≠ .dead

/-- Steps before the next step of the background thread, if the disk is done. -/
def nwRank0 (s : Rt) : Nat :=
  if (s.thr (s.bufs.length - 1)).pc ≠ .idle then 1
  else if s.pc = .encode ∧ s.i + 1 = s.bufs.length then (nwStage (s.thr s.bufs.length).pc).getD 0 else 0

/-- A measure of the steps before the next step of the background thread. -/
def nwRank (s : Rt) : Nat := (if 0 < s.toDisk then 10 else 0) + nwRank0 s

theorem nwRank_done {s : Rt} (h : s.toDisk = 0) : nwRank s = nwRank0 s := by
  simp [nwRank, h]

theorem nwRank0_one {s : Rt} (h : (s.thr (s.bufs.length - 1)).pc ≠ .idle) : nwRank0 s = 1 := by
  unfold nwRank0; rw [if_pos h]

theorem nwRank0_zero {s : Rt} (h : (s.thr (s.bufs.length - 1)).pc = .idle) (hi : s.i + 1 ≠ s.bufs.length) :
    nwRank0 s = 0 := by
  unfold nwRank0; rw [if_neg (by simp [h]), if_neg (fun g => hi g.2)]

theorem nw_mem {s : Rt} (h : Nw s) (t : Nat) : t ∈ s.bufs ↔ t < s.bufs.length := by
  rw [h.bufs, List.mem_range, List.length_range]

/-- The thread that starts takes its next step. -/
theorem nw_next {s : Rt} (h : Nw s) (hp : s.pc = .encode) (hi : s.i + 1 = s.bufs.length) {th : Thr} {m : Nat}
    (hm : nwStage th.pc = some m) (hq : th.q = []) : Nw (s.setThr s.bufs.length th) := by
  have hne : ∀ t, t ≠ s.bufs.length → (s.setThr s.bufs.length th).thr t = s.thr t :=
    fun t ht => upd_other _ _ ht
  have hsame : (s.setThr s.bufs.length th).thr s.bufs.length = th := upd_same _ _ _
  have h2 := h.two
  refine ⟨h.bufs, h.two, h.ids, h.level, h.exit, h.status, ?_, ?_, ?_, ?_, .inr ⟨hp, hi⟩, ?_, ?_, ?_, h.front, h.pass,
    h.dict, h.enc, h.alive⟩
  · rw [hne 0 (by omega)]; exact h.zero
  · intro t ht
    have ht : t + 1 < s.bufs.length := ht
    rw [hne t (by omega)]; exact h.idle t ht
  · left
    show ((s.setThr s.bufs.length th).thr (s.bufs.length - 1)).pc = .idle
    rw [hne _ (by omega)]
    rcases h.newest with h1 | ⟨-, h1, -⟩
    · exact h1
    · omega
  · refine ⟨m, ?_⟩
    show nwStage ((s.setThr s.bufs.length th).thr s.bufs.length).pc = _
    rw [hsame, hm]
  · intro t ht
    have ht : s.bufs.length < t := ht
    rw [hne t (by omega)]; exact h.later t ht
  · intro t
    by_cases ht : t = s.bufs.length
    · subst ht; rw [hsame, hq]; simp
    · rw [hne t ht]; exact h.short t
  · intro t h1 h3 h4
    have h3 : t < s.bufs.length := h3
    rw [hne t (by omega)] at h4 ⊢
    exact h.queued t h1 h3 h4

/-- The steps of the thread that starts. -/
theorem nw_thread {s : Rt} (hC : RtInv s) (h : Nw s) (hp : s.pc = .encode) (hi : s.i + 1 = s.bufs.length)
    (hn : (s.thr (s.bufs.length - 1)).pc = .idle) (hl : ¬ 0 < s.toDisk) :
    ∃ s', s.act exCfg exSites (nwThread s.bufs.length (s.thr s.bufs.length).pc) = .ok s' ∧ Nw s' ∧
      nwRank s' < nwRank s ∧ s'.toDisk = 0 := by
  have hout : s.bufs.length ∉ s.bufs := by rw [nw_mem h]; omega
  have hT := hC.thr s.bufs.length
  have hq : (s.thr s.bufs.length).q = [] := hT.out hout
  have h2 := h.two
  have hl' : s.toDisk = 0 := by omega
  have hrank : nwRank s = (nwStage (s.thr s.bufs.length).pc).getD 0 := by
    rw [nwRank_done hl']; unfold nwRank0
    rw [if_neg (by simp [hn]), if_pos ⟨hp, hi⟩]
  have hrank' : ∀ (th : Thr) (m : Nat), nwStage th.pc = some m → nwRank (s.setThr s.bufs.length th) = m := by
    intro th m hm
    rw [nwRank_done (show (s.setThr s.bufs.length th).toDisk = 0 from hl')]; unfold nwRank0
    have e1 : (s.setThr s.bufs.length th).bufs = s.bufs := rfl
    have e2 : (s.setThr s.bufs.length th).thr (s.bufs.length - 1) = s.thr (s.bufs.length - 1) :=
      upd_other _ _ (by omega)
    have e3 : (s.setThr s.bufs.length th).thr s.bufs.length = th := upd_same _ _ _
    rw [e1, e2, e3, if_neg (by simp [hn]), if_pos ⟨hp, hi⟩, hm]; simp
  have hlock : s.bufLocked = false := by unfold Rt.bufLocked; rw [hp]; rfl
  obtain ⟨m, hm⟩ := h.stage
  cases hpc : (s.thr s.bufs.length).pc with
  | idle =>
    rw [hpc] at hm hrank
    refine ⟨_, ?_, nw_next h hp hi (th := { s.thr s.bufs.length with pc := .called 0 [.int .i32 5] }) rfl hq, ?_, hl'⟩
    · simp only [nwThread, Rt.act, Rt.actLog, hpc, exSites, List.getElem?_cons_zero, h.level]
      rfl
    · rw [hrank' _ _ rfl, hrank]; decide
  | called k args =>
    rw [hpc] at hm hrank
    cases k with
    | succ k => cases hm
    | zero =>
      refine ⟨_, ?_, nw_next h hp hi (th := { s.thr s.bufs.length with pc := .known 0 args }) rfl hq, ?_, hl'⟩
      · simp only [nwThread, Rt.act, Rt.actLog, hpc, h.ids]
        rfl
      · rw [hrank' _ _ rfl, hrank]; simp [nwStage]
  | known id args =>
    rw [hpc] at hm hrank
    refine ⟨_, ?_, nw_next h hp hi (th := { s.thr s.bufs.length with pc := .stamped ⟨id, 1000, args⟩ }) rfl hq, ?_, hl'⟩
    · simp only [nwThread, Rt.act, Rt.actLog, hpc]
    · rw [hrank' _ _ rfl, hrank]; simp [nwStage]
  | stamped c =>
    rw [hpc] at hm hrank
    have hb : (s.thr s.bufs.length).bid = none := by
      by_contra hb
      rcases hT.has hb (hT.alive (by rw [hpc]; simp)).1 with h1 | ⟨c', h1⟩
      · exact hout h1
      · rw [hpc] at h1; cases h1
    refine ⟨_, ?_, nw_next h hp hi (th := { s.thr s.bufs.length with pc := .take (some c) }) rfl hq, ?_, hl'⟩
    · simp only [nwThread, Rt.act, Rt.actLog, hpc, hb, if_true]
    · rw [hrank' _ _ rfl, hrank]; simp [nwStage]
  | take c =>
    rw [hpc] at hm hrank
    cases c with
    | none => cases hm
    | some c =>
      have hN := nw_next h hp hi (th := { s.thr s.bufs.length with pc := .push (some c), bid := some s.nextId }) rfl hq
      refine ⟨{ s.setThr s.bufs.length { s.thr s.bufs.length with pc := .push (some c), bid := some s.nextId } with
        nextId := (s.nextId + 1) % 2 ^ 32 }, ?_, ⟨hN.1, hN.2, hN.3, hN.4, hN.5, hN.6, hN.7, hN.8, hN.9, hN.10, hN.11,
        hN.12, hN.13, hN.14, hN.15, hN.16, hN.17, hN.18, hN.19⟩, ?_, hl'⟩
      · simp only [nwThread, Rt.act, Rt.actBuf, hpc, hlock]; simp
      · have := hrank' { s.thr s.bufs.length with pc := .push (some c), bid := some s.nextId } 2 rfl
        refine Nat.lt_of_le_of_lt (Nat.le_of_eq this) ?_
        rw [hrank]; simp [nwStage]
  | push c =>
    rw [hpc] at hm hrank
    cases c with
    | none => cases hm
    | some c =>
      refine ⟨{ s.setThr s.bufs.length { s.thr s.bufs.length with pc := .write c } with
        bufs := s.bufs ++ [s.bufs.length] }, ?_, ?_, ?_, hl'⟩
      · simp only [nwThread, Rt.act, Rt.actBuf, hpc, hlock, afterAlloc]; simp
      · have hlen : (s.bufs ++ [s.bufs.length]).length = s.bufs.length + 1 := by simp
        have hne : ∀ t, t ≠ s.bufs.length →
            upd s.thr s.bufs.length { s.thr s.bufs.length with pc := .write c } t = s.thr t :=
          fun t ht => upd_other _ _ ht
        have hsame : upd s.thr s.bufs.length { s.thr s.bufs.length with pc := .write c } s.bufs.length =
          { s.thr s.bufs.length with pc := .write c } := upd_same _ _ _
        constructor <;> simp only [hlen, Rt.setThr]
        · rw [List.range_succ, ← h.bufs]
        · omega
        · exact h.ids
        · exact h.level
        · exact h.exit
        · exact h.status
        · rw [hne 0 (by omega)]; exact h.zero
        · intro t ht
          rw [hne t (by omega)]
          by_cases ht' : t + 1 = s.bufs.length
          · rw [show t = s.bufs.length - 1 by omega]; exact hn
          · exact h.idle t (by omega)
        · right
          rw [Nat.add_sub_cancel, hsame, hne _ (by omega)]
          exact ⟨hp, by omega, hq, h.later _ (by omega), c, rfl⟩
        · rw [hne _ (by omega), h.later _ (by omega)]; exact ⟨7, rfl⟩
        · left; rw [hne _ (by omega)]; exact h.later _ (by omega)
        · intro t ht; rw [hne t (by omega)]; exact h.later t (by omega)
        · intro t
          by_cases ht : t = s.bufs.length
          · subst ht; rw [hsame]; exact h.short _
          · rw [hne t ht]; exact h.short t
        · intro t h1 h3 h4
          by_cases ht : t = s.bufs.length
          · subst ht; rw [hsame]; exact ⟨c, rfl⟩
          · rw [hne t ht] at h4 ⊢
            exact h.queued t h1 (by omega) h4
        · exact h.front
        · intro h1; have := h.pass h1; exact ⟨this.1, by omega⟩
        · exact h.dict
        · exact h.enc
        · exact h.alive
      · rw [hrank]
        refine Nat.lt_of_le_of_lt (Nat.le_of_eq ((nwRank_done ?_).trans (nwRank0_one ?_)))
          (by simp [nwStage] : 1 < _)
        · exact hl'
        · simp [Rt.setThr]
  | reg k args => rw [hpc] at hm; cases hm
  | write c => rw [hpc] at hm; cases hm
  | sync sw => rw [hpc] at hm; cases hm
  | woken sw => rw [hpc] at hm; cases hm
  | stop => rw [hpc] at hm; cases hm
  | join => rw [hpc] at hm; cases hm
  | exited => rw [hpc] at hm; cases hm

/-- A new thread completes its first message. -/
theorem nw_commit {s : Rt} (hC : RtInv s) (h : Nw s) (hl : ¬ 0 < s.toDisk)
    (hn : (s.thr (s.bufs.length - 1)).pc ≠ .idle) :
    ∃ s', s.act exCfg exSites (.commit (s.bufs.length - 1)) = .ok s' ∧ Nw s' ∧
      nwRank s' < nwRank s ∧ s'.toDisk = 0 := by
  have h2 := h.two
  rcases h.newest with h1 | ⟨hp, hi, hq, hx, c, hc⟩
  · exact absurd h1 hn
  have hf : (s.thr (s.bufs.length - 1)).freed = false :=
    ((hC.thr _).alloc ((nw_mem h _).2 (by omega))).1
  have hz : s.bufs.length - 1 ≠ 0 := by omega
  let th : Thr := { s.thr (s.bufs.length - 1) with pc := .idle, q := [] ++ [c], log := (s.thr (s.bufs.length - 1)).log ++ [c] }
  have hne : ∀ t, t ≠ s.bufs.length - 1 → upd s.thr (s.bufs.length - 1) th t = s.thr t :=
    fun t ht => upd_other _ _ ht
  have hsame : upd s.thr (s.bufs.length - 1) th (s.bufs.length - 1) = th := upd_same _ _ _
  refine ⟨s.setThr (s.bufs.length - 1) th, ?_, ?_, ?_, show s.toDisk = 0 by omega⟩
  · simp only [Rt.act, Rt.actLog, hc, hf, hq, th]; simp
  · refine ⟨h.bufs, h.two, h.ids, h.level, h.exit, h.status, ?_, ?_, ?_, ?_, ?_, ?_, ?_, ?_, h.front, h.pass,
      h.dict, h.enc, h.alive⟩ <;> simp only [Rt.setThr]
    · rw [hne 0 (by omega)]; exact h.zero
    · intro t ht; rw [hne t (by omega)]; exact h.idle t ht
    · left; rw [hsame]
    · rw [hne _ (by omega)]; exact h.stage
    · rw [hne _ (by omega)]; exact h.next
    · intro t ht; rw [hne t (by omega)]; exact h.later t ht
    · intro t
      by_cases ht : t = s.bufs.length - 1
      · subst ht; rw [hsame]; simp [th]
      · rw [hne t ht]; exact h.short t
    · intro t h1 h3 h4
      by_cases ht : t = s.bufs.length - 1
      · subst ht; rw [hsame] at h4; simp [th] at h4
      · rw [hne t ht] at h4 ⊢
        exact h.queued t h1 h3 h4
  · have hl' : s.toDisk = 0 := by omega
    rw [nwRank_done (show (s.setThr _ th).toDisk = 0 from hl'), nwRank_done hl']
    rw [nwRank0_one hn]
    refine Nat.lt_of_le_of_lt (Nat.le_of_eq (nwRank0_zero ?_ ?_)) Nat.zero_lt_one
    · simp only [Rt.setThr]; rw [hsame]
    · simp only [Rt.setThr]; omega

/-- The system completes a write. -/
theorem nw_disk {s : Rt} (hC : RtInv s) (h : Nw s) (hl : 0 < s.toDisk) :
    ∃ s', s.act exCfg exSites (.disk s.toDisk) = .ok s' ∧ Nw s' ∧ nwRank s' < nwRank s ∧ s'.toDisk = 0 := by
  cases ha : s.aio with
  | none => simp [Rt.toDisk, ha] at hl
  | some a =>
    obtain ⟨h1, h2, h3⟩ := hC.aioOK a ha
    have hu : s.toDisk = a.len - a.done := by simp [Rt.toDisk, ha]
    refine ⟨{ s with disk := s.disk ++ ((s.mem a.buf).drop a.done).take s.toDisk
                     aio := some { a with done := a.done + s.toDisk } }, ?_, ?_, ?_, ?_⟩
    · simp only [Rt.act, Rt.actIo, ha]
      rw [if_pos (by omega), if_neg (by rw [h1, ← h2]; omega)]
    · exact ⟨h.1, h.2, h.3, h.4, h.5, h.6, h.7, h.8, h.9, h.10, h.11, h.12, h.13, h.14, h.15, h.16, h.17, h.18, h.19⟩
    · have e : Rt.toDisk { s with disk := s.disk ++ ((s.mem a.buf).drop a.done).take s.toDisk, aio := some { a with done := a.done + s.toDisk } } = 0 := by
        simp only [Rt.toDisk]
        have : s.toDisk = a.len - a.done := hu
        simp only [Rt.toDisk, ha] at this
        simp only [ha]; omega
      refine Nat.lt_of_le_of_lt (Nat.le_of_eq (nwRank_done e)) ?_
      unfold nwRank
      rw [if_pos hl]
      show nwRank0 s < _
      omega
    · simp only [Rt.toDisk, ha]
      omega

/-- The end of an iteration of the scan loop at a buffer that is not the last. -/
theorem nw_advance {s1 : Rt} (hi : s1.i + 1 < s1.bufs.length) (hl : s1.last ≤ s1.i) :
    s1.advance (s1.i + 1) =
      .ok { s1 with i := s1.i + 1, wrap := s1.wrap || decide (s1.i + 1 = 0), pc := .scan } := by
  have h1 : (s1.i + 1) % s1.bufs.length = s1.i + 1 := Nat.mod_eq_of_lt hi
  unfold Rt.advance
  rw [if_neg (by omega)]
  simp only [h1]
  rw [if_neg (by omega)]

/-- What the steps of the background thread outside the scan need: nothing but its position changes. -/
theorem nw_pos {s s' : Rt} (h : Nw s) (hn : (s.thr (s.bufs.length - 1)).pc = .idle)
    (hx : (s.thr s.bufs.length).pc = .idle)
    (e1 : s'.bufs = s.bufs) (e2 : s'.ids = s.ids) (e3 : s'.level = s.level) (e4 : s'.exit = s.exit)
    (e5 : s'.status = s.status) (e6 : s'.thr = s.thr) (hf : s'.front = s.front)
    (hpass : s'.pc = .scan ∨ s'.pc = .encode → s'.last ≤ s'.i ∧ s'.i < s'.bufs.length)
    (hd : s'.pc = .dict → s'.i = s'.last) (he : s'.pc = .encode → s'.full = false)
    (ha : s'.pc ≠ .check ∧ s'.pc ≠ .dead) : Nw s' := by
  refine ⟨?_, ?_, ?_, ?_, ?_, ?_, ?_, ?_, ?_, ?_, ?_, ?_, ?_, ?_, ?_, hpass, hd, he, ha⟩
  all_goals simp only [e1, e2, e3, e4, e5, e6, hf]
  · exact h.bufs
  · exact h.two
  · exact h.ids
  · exact h.level
  · exact h.exit
  · exact h.status
  · exact h.zero
  · exact h.idle
  · exact .inl hn
  · exact h.stage
  · exact .inl hx
  · exact h.later
  · exact h.short
  · exact h.queued
  · exact h.front

/-- The background thread goes to the next buffer; at most the queue of the buffer it leaves has become
shorter. -/
theorem nw_leave {s s' : Rt} (h : Nw s) (hp : s.pc = .encode) (hi : s.i + 1 < s.bufs.length)
    (hn : (s.thr (s.bufs.length - 1)).pc = .idle)
    (e1 : s'.bufs = s.bufs) (e2 : s'.ids = s.ids) (e3 : s'.level = s.level) (e4 : s'.exit = s.exit)
    (e5 : s'.status = s.status) {k : Nat}
    (e6 : s'.thr = upd s.thr s.i { s.thr s.i with q := (s.thr s.i).q.drop k })
    (hpc : s'.pc = .scan) (hi' : s'.i = s.i + 1)
    (hl : s'.full = false ∧ s'.last = s.last ∨ s'.full = true ∧ s'.last = s.i ∧ k = 0) : Nw s' := by
  have h2 := h.two
  have hfr : s.front = s.i := by simp [Rt.front, hp]
  have h1i : 1 ≤ s.i := by have := h.front; omega
  have hpass := h.pass (.inr hp)
  have hne : ∀ t, t ≠ s.i → s'.thr t = s.thr t := fun t ht => by rw [e6]; exact upd_other _ _ ht
  have hpcs : ∀ t, (s'.thr t).pc = (s.thr t).pc := by
    intro t
    by_cases ht : t = s.i
    · subst ht; rw [e6, upd_same]
    · rw [hne t ht]
  have hx : (s.thr s.bufs.length).pc = .idle := by
    rcases h.next with h1 | ⟨-, h1⟩
    · exact h1
    · omega
  refine ⟨?_, ?_, ?_, ?_, ?_, ?_, ?_, ?_, ?_, ?_, ?_, ?_, ?_, ?_, ?_, ?_, ?_, ?_, ?_⟩
  · rw [e1]; exact h.bufs
  · rw [e1]; exact h.two
  · rw [e2]; exact h.ids
  · rw [e3]; exact h.level
  · rw [e4]; exact h.exit
  · rw [e5]; exact h.status
  · rw [hne 0 (by omega)]; exact h.zero
  · intro t; rw [e1, hpcs]; exact h.idle t
  · rw [e1, hpcs]; exact .inl hn
  · rw [e1, hpcs]; exact h.stage
  · rw [e1, hpcs]; exact .inl hx
  · intro t; rw [e1, hpcs]; exact h.later t
  · intro t
    by_cases ht : t = s.i
    · subst ht
      rw [e6, upd_same]
      have := h.short s.i
      simp only [List.length_drop]; omega
    · rw [hne t ht]; exact h.short t
  · intro t h3 h4 h5
    rw [e1] at h4
    rw [hpcs]
    have hq : (s.thr t).q = [] → ∃ c, (s.thr t).pc = .write c := by
      refine h.queued t ?_ h4
      rw [hfr]
      rcases hl with ⟨h6, -⟩ | ⟨h6, h7, -⟩
      · simp only [Rt.front, hpc, h6, hi'] at h3
        simp at h3; omega
      · simp only [Rt.front, hpc, h6, h7] at h3
        simpa using h3
    refine hq ?_
    by_cases ht : t = s.i
    · rcases hl with ⟨h6, -⟩ | ⟨h6, h7, h8⟩
      · simp only [Rt.front, hpc, h6, hi'] at h3
        simp at h3; omega
      · subst ht
        rw [e6, upd_same, h8] at h5
        simpa using h5
    · rw [hne t ht] at h5; exact h5
  · rcases hl with ⟨h6, -⟩ | ⟨h6, h7, -⟩
    · simp only [Rt.front, hpc, h6, hi']; simp
    · simp only [Rt.front, hpc, h6, h7]; simpa using h1i
  · intro _
    rw [e1, hi']
    rcases hl with ⟨-, h7⟩ | ⟨-, h7, -⟩
    · rw [h7]; omega
    · rw [h7]; omega
  · rw [hpc]; intro h; cases h
  · rw [hpc]; intro h; cases h
  · rw [hpc]; simp

/-- The background thread encodes messages of a buffer that is not the last. -/
theorem nw_encode {s : Rt} (hC : RtInv s) (hub : s.act exCfg exSites (.encode (fun _ => 0) []) ≠ .ub) (h : Nw s)
    (hp : s.pc = .encode) (hi : s.i + 1 < s.bufs.length) (hn : (s.thr (s.bufs.length - 1)).pc = .idle) :
    ∃ s', s.act exCfg exSites (.encode (fun _ => 0) []) = .ok s' ∧ Nw s' := by
  have hcur : s.cur = s.i := by
    have := hC.curI (.inr hp)
    rw [h.bufs, List.getElem?_range (by omega)] at this
    exact (Option.some.inj this).symm
  have hrem := hC.rem hp
  have hshort := h.short s.i
  rw [hcur] at hrem
  have hpass := h.pass (.inr hp)
  have hfull := h.enc hp
  revert hub
  simp only [Rt.act, Rt.actScan]
  rw [if_neg (by simp [hp])]
  split
  · intro h; exact absurd rfl h
  split
  · intro h; exact absurd rfl h
  split
  · rename_i e n _
    split
    · intro _
      refine ⟨_, nw_advance (s1 := { s.setEnc e with last := s.i, full := true }) hi (Nat.le_refl _), ?_⟩
      refine nw_leave h hp hi hn rfl rfl rfl rfl rfl (k := 0) ?_ rfl rfl (.inr ⟨rfl, rfl, rfl⟩)
      funext t
      show s.thr t = _
      by_cases ht : t = s.i
      · subst ht; rw [upd_same]; simp
      · rw [upd_other _ _ ht]
    · split
      · intro h; exact absurd rfl h
      · rename_i k _
        split
        · intro _
          refine ⟨_, nw_advance (s1 := { (s.setEnc e).setThr s.cur { s.thr s.cur with q := (s.thr s.cur).q.drop k } with
            wrap := false, rem := s.rem - k
            gB := s.gB ++ (((s.thr s.cur).q.take s.rem).take k).map fun c => (s.cur, c) }) hi hpass.1, ?_⟩
          refine nw_leave h hp hi hn rfl rfl rfl rfl rfl (k := k) ?_ rfl rfl (.inl ⟨hfull, rfl⟩)
          rw [← hcur]; rfl
        · rename_i hk
          intro _
          have hk0 : k = 0 := by omega
          refine ⟨_, rfl, ?_⟩
          have e6 : upd s.thr s.cur { s.thr s.cur with q := (s.thr s.cur).q.drop k } = s.thr := by
            funext t
            by_cases ht : t = s.cur
            · subst ht; rw [upd_same, hk0]; simp
            · rw [upd_other _ _ ht]
          have hx : (s.thr s.bufs.length).pc = .idle := by
            rcases h.next with h1 | ⟨-, h1⟩
            · exact h1
            · omega
          exact nw_pos h hn hx rfl rfl rfl rfl rfl e6 rfl (fun _ => hpass) (fun hd => h.dict hd) (fun _ => hfull) h.alive
  · intro h; exact absurd rfl h

/-- The other steps of the background thread. -/
theorem nw_bg {s : Rt} (hC : RtInv s) (hub : ∀ l, s.act exCfg exSites l ≠ .ub) (h : Nw s)
    (hl : ¬ 0 < s.toDisk) (hn : (s.thr (s.bufs.length - 1)).pc = .idle) (hp : s.pc ≠ .encode) :
    (nwTurn s).ofBg = true ∧ ∃ s', s.act exCfg exSites (nwTurn s) = .ok s' ∧ Nw s' := by
  have hx : (s.thr s.bufs.length).pc = .idle := by
    rcases h.next with h1 | ⟨h1, -⟩
    · exact h1
    · exact absurd h1 hp
  have h2 := h.two
  have hlast : s.last < s.bufs.length := by
    rcases hC.idx with h1 | ⟨h1, -⟩
    · exact h1
    · rw [h1] at h2; simp at h2
  unfold nwTurn
  rw [if_neg hl, if_neg (by simp [hn])]
  cases hpc : s.pc with
  | encode => exact absurd hpc hp
  | check => exact absurd hpc h.alive.1
  | dead => exact absurd hpc h.alive.2
  | top =>
    refine ⟨rfl, { s with pc := .dict, i := s.last }, ?_, ?_⟩
    · simp [Rt.act, Rt.actScan, hpc, h.exit]
    · exact nw_pos h hn hx rfl rfl rfl rfl rfl rfl (by simp [Rt.front, hpc]) (by simp) (by simp) (by simp) (by simp)
  | dict =>
    refine ⟨rfl, ?_⟩
    have hub := hub (.dict false)
    revert hub
    simp only [Rt.act, Rt.actScan]
    rw [if_neg (by simp [hpc]), if_neg (by simp)]
    split
    · intro h; exact absurd rfl h
    · rename_i e _ _
      intro _
      refine ⟨_, rfl, ?_⟩
      have hi := h.dict hpc
      refine nw_pos h hn hx rfl rfl rfl rfl rfl rfl ?_ (fun _ => ?_) (by simp) (by simp) (by simp)
      · simp [Rt.front, hpc, Rt.setEnc, hi]
      · simp only [Rt.setEnc]; omega
  | scan =>
    refine ⟨rfl, ?_⟩
    obtain ⟨hp1, hp2⟩ := h.pass (.inl hpc)
    have hb : s.bufs[s.i]? = some s.i := by rw [h.bufs, List.getElem?_range hp2]
    have hne : s.bufs ≠ [] := by intro h; rw [h] at h2; simp at h2
    by_cases hf : s.full = true
    · refine ⟨{ s with pc := .scanned }, ?_, ?_⟩
      · simp [Rt.act, Rt.actScan, hpc, hf]
      · exact nw_pos h hn hx rfl rfl rfl rfl rfl rfl (by simp [Rt.front, hpc, hf]) (by simp) (by simp) (by simp) (by simp)
    · have hfr : (s.thr s.i).freed = false := ((hC.thr _).alloc ((nw_mem h _).2 hp2)).1
      have hq : (s.thr s.i).q ≠ [] := by
        intro hq
        obtain ⟨c, hc⟩ := h.queued s.i (by simp [Rt.front, hpc, hf]) hp2 hq
        by_cases hi : s.i + 1 < s.bufs.length
        · rw [h.idle _ hi] at hc; cases hc
        · rw [show s.i = s.bufs.length - 1 by omega, hn] at hc; cases hc
      refine ⟨{ s with pc := .encode, cur := s.i, rem := (s.thr s.i).q.length }, ?_, ?_⟩
      · simp [Rt.act, Rt.actScan, hpc, hf, hb, hfr, hq, hne]
      · refine nw_pos h hn hx rfl rfl rfl rfl rfl rfl ?_ (fun _ => ⟨hp1, hp2⟩) (by simp) (fun _ => by simpa using hf) (by simp)
        simp [Rt.front, hpc, hf]
  | scanned =>
    refine ⟨rfl, { s with pc := .aio }, ?_, ?_⟩
    · have hid : s.idleStatus = .completed := by simp [Rt.idleStatus, h.status]
      have hst := h.status
      simp only [Rt.act, Rt.actIo, hpc, hid]
      simp only [ne_eq, not_true, if_false, hst]
      split
      · rfl
      · rw [if_neg (by simp)]
        simp [Rt.notify, ← hst]
    · exact nw_pos h hn hx rfl rfl rfl rfl rfl rfl (by simp [Rt.front, hpc]) (by simp) (by simp) (by simp) (by simp)
  | aio =>
    refine ⟨rfl, ?_⟩
    simp only [Rt.act, Rt.actIo]
    rw [if_neg (by simp [hpc])]
    cases ha : s.aio with
    | none =>
      refine ⟨_, rfl, ?_⟩
      exact nw_pos h hn hx rfl rfl rfl rfl rfl rfl (by simp [Rt.front, hpc]) (by simp) (by simp) (by simp) (by simp)
    | some a =>
      have hd : a.done = a.len := by
        have := (hC.aioOK a ha).2.2
        simp only [Rt.toDisk, ha] at hl
        omega
      simp only
      rw [if_pos hd]
      refine ⟨_, rfl, ?_⟩
      exact nw_pos h hn hx rfl rfl rfl rfl rfl rfl (by simp [Rt.front, hpc]) (by simp) (by simp) (by simp) (by simp)
  | aioDone =>
    refine ⟨rfl, { s with pc := .write }, ?_, ?_⟩
    · simp [Rt.act, Rt.actIo, hpc, h.status]
    · exact nw_pos h hn hx rfl rfl rfl rfl rfl rfl (by simp [Rt.front, hpc]) (by simp) (by simp) (by simp) (by simp)
  | write =>
    refine ⟨rfl, ?_⟩
    simp only [Rt.act, Rt.actIo]
    rw [if_neg (by simp [hpc])]
    split
    · refine ⟨_, rfl, ?_⟩
      exact nw_pos h hn hx rfl rfl rfl rfl rfl rfl (by simp [Rt.front, hpc]) (by simp) (by simp) (by simp) (by simp)
    · refine ⟨_, rfl, ?_⟩
      exact nw_pos h hn hx rfl rfl rfl rfl rfl rfl (by simp [Rt.front, hpc]) (by simp) (by simp) (by simp) (by simp)

/-- Every step keeps the execution going. -/
theorem nw_step {s : Rt} (hC : RtInv s) (hub : ∀ l, s.act exCfg exSites l ≠ .ub) (h : Nw s) :
    ∃ s', s.act exCfg exSites (nwTurn s) = .ok s' ∧ Nw s' ∧
      ((nwTurn s).ofBg = true ∨ nwRank s' < nwRank s) ∧ (0 < s.toDisk → s'.toDisk = 0) := by
  by_cases hl : 0 < s.toDisk
  · obtain ⟨s', h1, h2, h3, h4⟩ := nw_disk hC h hl
    have e : nwTurn s = .disk s.toDisk := by unfold nwTurn; rw [if_pos hl]
    rw [e]
    exact ⟨s', h1, h2, .inr h3, fun _ => h4⟩
  by_cases hn : (s.thr (s.bufs.length - 1)).pc = .idle
  · by_cases hp : s.pc = .encode
    · by_cases hi : s.i + 1 = s.bufs.length
      · obtain ⟨s', h1, h2, h3, h4⟩ := nw_thread hC h hp hi hn hl
        have e : nwTurn s = nwThread s.bufs.length (s.thr s.bufs.length).pc := by
          unfold nwTurn; rw [if_neg hl, if_neg (by simp [hn]), hp]; simp only; rw [if_pos hi]
        rw [e]
        exact ⟨s', h1, h2, .inr h3, fun _ => h4⟩
      · have e : nwTurn s = .encode (fun _ => 0) [] := by
          unfold nwTurn; rw [if_neg hl, if_neg (by simp [hn]), hp]; simp only; rw [if_neg hi]
        have := (h.pass (.inr hp)).2
        obtain ⟨s', h1, h2⟩ := nw_encode hC (hub _) h hp (by omega) hn
        rw [e]
        exact ⟨s', h1, h2, .inl rfl, fun g => absurd g hl⟩
    · obtain ⟨h0, s', h1, h2⟩ := nw_bg hC hub h hl hn hp
      exact ⟨s', h1, h2, .inl h0, fun g => absurd g hl⟩
  · obtain ⟨s', h1, h2, h3, h4⟩ := nw_commit hC h hl hn
    have e : nwTurn s = .commit (s.bufs.length - 1) := by unfold nwTurn; rw [if_neg hl, if_pos hn]
    rw [e]
    exact ⟨s', h1, h2, .inr h3, fun _ => h4⟩

/-! ## The whole execution -/

/-- Steps of threads 0 and 1, and of the background thread during a scan. -/
def Lbl.early : Lbl → Bool
  | .call t .. | .readId t _ | .register t | .stamp t _ | .reserve t | .commit t | .takeId t | .push t => decide (t < 2)
  | .top | .dict _ | .peek _ | .encode .. => true
  | _ => false

theorem act_early {cfg : Config} {prog : List Site} {s s' : Rt} {l : Lbl} (hl : l.early = true)
    (ha : s.act cfg prog l = .ok s') {u : Nat} (hu : 2 ≤ u) : (s'.thr u).pc = (s.thr u).pc := by
  cases l
  case top | dict | peek | encode => simp only [Rt.act] at ha; exact actScan_pc ha u
  case call t k args | readId t b | register t | stamp t ts | reserve t | commit t | takeId t | push t =>
    simp only [Lbl.early, decide_eq_true_eq] at hl
    simp only [Rt.act, Rt.actLog, Rt.actBuf] at ha
    repeat' split at ha
    all_goals first
      | (cases ha; rfl)
      | (cases ha; simp only [Rt.setThr]; rw [upd_other _ _ (by omega)])
      | cases ha
  all_goals cases hl

/-- The labels. -/
def nwLbl (k : Nat) (s : Rt) : Lbl := nwStart[k]?.getD (nwTurn s)

/-- The states. -/
def nwSt (s0 : Rt) : Nat → Rt
  | 0 => s0
  | k + 1 =>
    match (nwSt s0 k).act exCfg exSites (nwLbl k (nwSt s0 k)) with
    | .ok s => s
    | _ => nwSt s0 k

theorem nwLength : nwStart.length = 24 := by decide +kernel

theorem nwLbl_lt {k : Nat} (hk : k < 24) (s s' : Rt) : nwLbl k s = nwLbl k s' := by
  unfold nwLbl
  rw [List.getElem?_eq_getElem (by rw [nwLength]; exact hk)]
  rfl

theorem nwLbl_ge {k : Nat} (hk : 24 ≤ k) (s : Rt) : nwLbl k s = nwTurn s := by
  unfold nwLbl
  rw [List.getElem?_eq_none (by rw [nwLength]; exact hk)]
  rfl

theorem nwLbl_mem {k : Nat} (hk : k < 24) (s : Rt) : nwLbl k s ∈ nwStart := by
  unfold nwLbl
  rw [List.getElem?_eq_getElem (by rw [nwLength]; exact hk)]
  exact List.getElem_mem _

theorem nwSt_stream {s0 : Rt} {k : Nat} (hk : k ≤ 24) : nwSt s0 k = stream (fun k => nwLbl k s0) s0 k := by
  induction k with
  | zero => rfl
  | succ k ih =>
    simp only [nwSt, stream, ← ih (by omega)]
    rw [nwLbl_lt (by omega) (nwSt s0 k) s0]
    cases (nwSt s0 k).act exCfg exSites (nwLbl k s0) <;> rfl

theorem nw_init {s0 : Rt} (h0 : Rt.init exCfg 0 exCk = some s0) :
    (∀ k < 24, (nwSt s0 k).act exCfg exSites (nwLbl k (nwSt s0 k)) = .ok (nwSt s0 (k + 1))) ∧
    Nw (nwSt s0 24) := by
  have hc : exCheck nwStart (fun s => s.bufs == [0, 1] && s.ids 0 == some 0 && s.level == 3 && !s.exit &&
      s.status == .completed && (s.thr 0).q == [nwMsg] && (s.thr 0).pc == .idle && (s.thr 1).pc == .idle &&
      (s.thr 1).q.length == 1 && s.pc == .scan && s.i == 1 && s.last == 0 && !s.full) = true := by
    decide +kernel
  unfold exCheck at hc
  rw [h0] at hc
  simp only at hc
  cases hr : s0.run exCfg exSites nwStart with
  | off => rw [hr] at hc; cases hc
  | ub => rw [hr] at hc; cases hc
  | ok s =>
    rw [hr] at hc
    simp only [Bool.and_eq_true, beq_iff_eq, Bool.not_eq_true'] at hc
    obtain ⟨⟨⟨⟨⟨⟨⟨⟨⟨⟨⟨⟨c1, c2⟩, c3⟩, c4⟩, c5⟩, c6⟩, c7⟩, c8⟩, c9⟩, c10⟩, c11⟩, c12⟩, c13⟩ := hc
    obtain ⟨h1, h2⟩ := stream_run (f := fun k => nwLbl k s0) (s0 := s0) (k := 0) hr fun i hi => by
      rw [Nat.zero_add]
      simp only [nwLbl]
      rw [List.getElem?_eq_getElem hi]; rfl
    rw [nwLength, Nat.zero_add] at h1
    have hstep : ∀ k < 24, (nwSt s0 k).act exCfg exSites (nwLbl k (nwSt s0 k)) = .ok (nwSt s0 (k + 1)) := by
      intro k hk
      have := h2 k (by rw [nwLength]; exact hk)
      rw [Nat.zero_add] at this
      rw [nwSt_stream (by omega), nwSt_stream (by omega), nwLbl_lt hk _ s0]
      exact this
    have hpc : ∀ k ≤ 24, ∀ u, 2 ≤ u → ((nwSt s0 k).thr u).pc = .idle := by
      intro k
      induction k with
      | zero =>
        intro _ u _
        unfold Rt.init at h0
        split at h0 <;> cases h0
        rfl
      | succ k ih =>
        intro hk u hu
        have he : (nwLbl k (nwSt s0 k)).early = true :=
          List.all_eq_true.1 (by decide +kernel : nwStart.all Lbl.early = true) _ (nwLbl_mem (by omega) _)
        rw [act_early he (hstep k (by omega)) hu]
        exact ih (by omega) u hu
    have hx : RtExec exCfg exSites nwStart s :=
      ⟨0, exCk, s0, exCk_plain, by decide, h0, fun l hm =>
        exLbl_ok (List.all_eq_true.1 (by decide +kernel : nwStart.all exLbl = true) l hm), hr⟩
    have hC := (hx.inv exProgOK).1
    have e : nwSt s0 24 = s := by rw [nwSt_stream (Nat.le_refl _), h1]
    have hpc' := hpc 24 (Nat.le_refl _)
    rw [e] at hpc' ⊢
    have hfr : s.front = 1 := by simp [Rt.front, c10, c11, c13]
    refine ⟨hstep, ?_⟩
    constructor <;> (try simp only [c1, hfr, c10, c11, c12])
    · rfl
    · decide
    · exact c2
    · exact c3
    · exact c4
    · exact c5
    · exact c6
    · intro t ht
      have : t = 0 := by simp at ht; omega
      subst this; exact c7
    · exact .inl c8
    · refine ⟨7, ?_⟩
      show nwStage (s.thr 2).pc = _
      rw [hpc' 2 (Nat.le_refl _)]; rfl
    · exact .inl (hpc' 2 (Nat.le_refl _))
    · intro t ht; simp at ht; exact hpc' t (by omega)
    · intro t
      by_cases h0 : t = 0
      · subst h0; rw [c6]; simp
      by_cases h1 : t = 1
      · subst h1; rw [c9]
      · rw [(hC.thr t).out (by rw [c1]; simp; omega)]; simp
    · intro t ht1 ht2 hq
      have : t = 1 := by simp at ht2; omega
      subst this
      rw [hq] at c9; cases c9
    · decide
    · intro _; simp
    · intro h; cases h
    · intro h; cases h
    · simp

theorem nwTurn_ok (s : Rt) : exLbl (nwTurn s) = true := by
  unfold nwTurn
  split
  · rfl
  split
  · rfl
  split
  · split
    · unfold nwThread; split <;> rfl
    · rfl
  all_goals rfl

/-- Steps that are not calls of `sync`, `setLogFile`, `setLogLevel` or `preallocate`, ends of threads, or wake-ups. -/
def Lbl.logging : Lbl → Bool
  | .sync _ | .spurious _ | .ret _ | .setFile .. | .stop _ | .join .. | .exitThread _ | .preallocate _ | .setLevel _
  | .scanned (some _) | .aioDone (some _) | .dict true => false
  | _ => true

theorem logging_mild {l : Lbl} (h : l.logging = true) : l.mild = true := by
  cases l <;> first | rfl | cases h | skip
  case scanned w => cases w <;> first | rfl | cases h
  case aioDone w => cases w <;> first | rfl | cases h

theorem nwTurn_logging (s : Rt) : (nwTurn s).logging = true := by
  unfold nwTurn
  split
  · rfl
  split
  · rfl
  split
  · split
    · unfold nwThread; split <;> rfl
    · rfl
  all_goals rfl

theorem nwTurn_commit {s : Rt} (h : Nw s) : nwTurn s ≠ .commit 0 := by
  have h2 := h.two
  unfold nwTurn
  split
  · simp
  split
  · intro h; injection h; omega
  split
  · split
    · unfold nwThread; split <;> simp
    · simp
  all_goals simp

/-- The execution. -/
theorem nw_run : ∃ r : RtRun exCfg exSites, r.Fair ∧ (∀ k l, r.lbl k = some l → l.logging = true) ∧
    ∀ k ≥ 24, Nw (r.σ k) ∧ r.lbl k ≠ some (.commit 0) := by
  have hi : (Rt.init exCfg 0 exCk).isSome = true := by decide +kernel
  obtain ⟨s0, h0⟩ := Option.isSome_iff_exists.1 hi
  obtain ⟨hpre, hnw⟩ := nw_init h0
  have hok : ∀ k s, exLbl (nwLbl k s) = true ∧ (nwLbl k s).logging = true := by
    intro k s
    by_cases hk : k < 24
    · exact ⟨List.all_eq_true.1 (by decide +kernel : nwStart.all exLbl = true) _ (nwLbl_mem hk s),
        List.all_eq_true.1 (by decide +kernel : nwStart.all Lbl.logging = true) _ (nwLbl_mem hk s)⟩
    · rw [nwLbl_ge (by omega)]
      exact ⟨nwTurn_ok s, nwTurn_logging s⟩
  have hexec : ∀ k, (∀ j < k, (nwSt s0 j).act exCfg exSites (nwLbl j (nwSt s0 j)) = .ok (nwSt s0 (j + 1))) →
      ∃ ls, RtExec exCfg exSites ls (nwSt s0 k) := by
    intro k
    induction k with
    | zero => intro _; exact ⟨[], 0, exCk, s0, exCk_plain, by decide, h0, by simp, rfl⟩
    | succ k ih =>
      intro h
      obtain ⟨ls, hx⟩ := ih fun j hj => h j (by omega)
      refine ⟨ls ++ [nwLbl k (nwSt s0 k)], hx.append (by simpa using exLbl_ok (hok k _).1) ?_⟩
      simp [Rt.run, h k (by omega)]
  have hall : ∀ k, (∀ j < 24 + k, (nwSt s0 j).act exCfg exSites (nwLbl j (nwSt s0 j)) = .ok (nwSt s0 (j + 1))) ∧
      Nw (nwSt s0 (24 + k)) := by
    intro k
    induction k with
    | zero => exact ⟨hpre, hnw⟩
    | succ k ih =>
      obtain ⟨ls, hx⟩ := hexec _ ih.1
      obtain ⟨hC, hI⟩ := hx.inv exProgOK
      obtain ⟨s', h1, h2, -⟩ := nw_step hC (fun l => act_noub exProgOK hC hI) ih.2
      rw [← nwLbl_ge (show 24 ≤ 24 + k by omega)] at h1
      have e : nwSt s0 (24 + k + 1) = s' := by simp only [nwSt, h1]
      refine ⟨fun j hj => ?_, ?_⟩
      · by_cases hjk : j = 24 + k
        · subst hjk; rw [e, h1]
        · exact ih.1 j (by omega)
      · rw [show 24 + (k + 1) = 24 + k + 1 by omega, e]; exact h2
  have hstep : ∀ k, (nwSt s0 k).act exCfg exSites (nwLbl k (nwSt s0 k)) = .ok (nwSt s0 (k + 1)) :=
    fun k => (hall (k + 1)).1 k (by omega)
  have hN : ∀ k ≥ 24, Nw (nwSt s0 k) := fun k hk => by
    have := (hall (k - 24)).2
    rwa [show 24 + (k - 24) = k by omega] at this
  have hS : ∀ k ≥ 24, ((nwTurn (nwSt s0 k)).ofBg = true ∨ nwRank (nwSt s0 (k + 1)) < nwRank (nwSt s0 k)) ∧
      (0 < (nwSt s0 k).toDisk → (nwSt s0 (k + 1)).toDisk = 0) := by
    intro k hk
    obtain ⟨ls, hx⟩ := hexec k fun j _ => hstep j
    obtain ⟨hC, hI⟩ := hx.inv exProgOK
    obtain ⟨s', h1, -, h3⟩ := nw_step hC (fun l => act_noub exProgOK hC hI) (hN k hk)
    have := hstep k
    rw [nwLbl_ge hk, h1] at this
    rw [← Out.ok.inj this]
    exact h3
  have hmild : ∀ k s, (nwLbl k s).mild = true := fun k s => logging_mild (hok k s).2
  have hwake : ∀ k, NoWake (nwSt s0 k) := by
    intro k
    induction k with
    | zero =>
      unfold Rt.init at h0
      split at h0 <;> cases h0
      intro u
      simp [nwSt, Thr.init]
    | succ k ih => exact act_mild (hmild k _) (hstep k) ih
  have hbg : ∀ n k, 24 ≤ k → nwRank (nwSt s0 k) < n → ∃ j ≥ k, (nwTurn (nwSt s0 j)).ofBg = true := by
    intro n
    induction n with
    | zero => intro k _ h; omega
    | succ n ih =>
      intro k hk hn
      rcases (hS k hk).1 with h1 | h1
      · exact ⟨k, Nat.le_refl _, h1⟩
      · obtain ⟨j, hj, h2⟩ := ih (k + 1) (by omega) (by omega)
        exact ⟨j, by omega, h2⟩
  let r : RtRun exCfg exSites := {
    σ := nwSt s0
    lbl := fun k => some (nwLbl k (nwSt s0 k))
    start := ⟨0, exCk, exCk_plain, by decide, h0⟩
    ok := fun k l hl => by cases hl; exact exLbl_ok (hok k _).1
    step := hstep }
  refine ⟨r, ⟨fun k => ?_, fun k => ?_, fun k hs hm hst hid u sw hu => ?_, fun k t sw hw => ?_,
    fun k t hw => ?_, fun k t hw => ?_, fun k _ => ?_⟩, fun k l hl => ?_, fun k hk => ⟨hN k hk, fun h => ?_⟩⟩
  · obtain ⟨j, hj, h1⟩ := hbg _ (max k 24) (by omega) (Nat.lt_succ_self _)
    refine ⟨j, by omega, .inl ⟨nwTurn (nwSt s0 j), ?_, h1⟩⟩
    show some (nwLbl j (nwSt s0 j)) = _
    rw [nwLbl_ge (by omega)]
  · have hz : ∀ j, (nwSt s0 j).toDisk = 0 → ∀ a, (nwSt s0 j).aio = some a → a.done = a.len := by
      intro j h1 a ha
      obtain ⟨ls, hx⟩ := hexec j fun j _ => hstep j
      have := ((hx.inv exProgOK).1.aioOK a ha).2.2
      simp only [Rt.toDisk, ha] at h1
      omega
    by_cases h1 : 0 < (nwSt s0 (max k 24)).toDisk
    · exact ⟨max k 24 + 1, by omega, hz _ ((hS _ (by omega)).2 h1)⟩
    · exact ⟨max k 24, by omega, hz _ (by omega)⟩
  · by_cases hk : k < 24
    · have hs : nwLbl k (nwSt s0 k) = .scanned none := Option.some.inj hs
      have := nwLbl_mem hk (nwSt s0 k)
      rw [hs] at this
      have := List.all_eq_true.1 (by decide +kernel : nwStart.all Lbl.early = true) _ this
      cases this
    · have h := hN k (by omega)
      have hu : ((nwSt s0 k).thr u).pc = .sync sw := hu
      have h2 := h.two
      by_cases h3 : u + 1 < (nwSt s0 k).bufs.length
      · rw [h.idle u h3] at hu; cases hu
      by_cases h4 : u + 1 = (nwSt s0 k).bufs.length
      · rw [show u = (nwSt s0 k).bufs.length - 1 by omega] at hu
        rcases h.newest with h5 | ⟨-, -, -, -, c, h5⟩
        · rw [h5] at hu; cases hu
        · rw [h5] at hu; cases hu
      by_cases h5 : u = (nwSt s0 k).bufs.length
      · obtain ⟨m, hm⟩ := h.stage
        rw [← h5, hu] at hm; cases hm
      · rw [h.later u (by omega)] at hu; cases hu
  · exact absurd hw ((hwake k t).1 sw)
  · exact absurd hw (hwake k t).2.1
  · exact absurd (hw k (Nat.le_refl _)).1 (hwake k t).2.2
  · refine ⟨k, Nat.le_refl _, fun i _ hd => ?_⟩
    have := (hok i (nwSt s0 i)).2
    rw [show nwLbl i (nwSt s0 i) = .dict true from Option.some.inj hd] at this
    cases this
  · cases hl; exact (hok k _).2
  · refine nwTurn_commit (hN k hk) ?_
    rw [← nwLbl_ge hk]
    exact Option.some.inj h

end NanoLog
