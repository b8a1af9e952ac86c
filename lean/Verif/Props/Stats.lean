import Verif.StatsLemmas
import Verif.RuntimeExample
import Mathlib.Tactic.Linarith
import Mathlib.Tactic.Positivity

/-!
# C57: the counters of `getStats`

`logsProcessed` counts the messages that were encoded, `totalBytesRead` their bytes in the staging
buffers, `totalBytesWritten` the bytes of the files, `numAioWritesCompleted` the operations, all of
them up to the width of the counter.
-/

namespace NanoLog

/-- Threads of the log calls that have returned, in the order of their return. -/
def returns : List Lbl → List Nat
  | [] => []
  | .commit t :: ls => t :: returns ls
  | _ :: ls => returns ls

/-- Number of times that a buffer is handed to the disk: an operation is outstanding after the
step and was not before. -/
def handedOver (cfg : Config) (prog : List Site) (s : Rt) : List Lbl → Nat
  | [] => 0
  | l :: ls =>
    match s.act cfg prog l with
    | .ok s1 =>
      (if s.aio.isNone ∧ s1.aio.isSome then 1 else 0) + handedOver cfg prog s1 ls
    | _ => 0

theorem returns_count (t : Nat) (ls : List Lbl) : (returns ls).count t = returned t ls := by
  induction ls with
  | nil => rfl
  | cons l ls ih =>
    unfold returned at ih ⊢
    cases l
    case commit u =>
      simp only [returns, List.filter_cons]
      by_cases h : u = t
      · subst h; simp [ih]
      · have : (u == t) = false := by simpa using h
        simp only [this, List.count_cons, ih]; simp
    all_goals simp only [returns, List.filter_cons, ih]; simp

theorem byThr_count (t : Nat) (l : List (Nat × LogCall)) :
    (l.map Prod.fst).count t = (byThr t l).length := by
  induction l with
  | nil => rfl
  | cons p l ih =>
    simp only [byThr, List.map_cons, List.count_cons, List.filterMap_cons] at ih ⊢
    by_cases h : p.1 = t
    · simp [h, ih]
    · simp [h, ih]

theorem queueSize_mono {cfg : Config} {a b : List Site} (hp : a <+: b) {cs : List LogCall}
    (h : ∀ c ∈ cs, CallOK cfg a c) : queueSize b cs = queueSize a cs := by
  obtain ⟨z, rfl⟩ := hp
  unfold queueSize
  congr 1
  apply List.map_congr_left
  intro c hc
  obtain ⟨s, is, ds, hs, -⟩ := h c hc
  rw [callSize_eq hs, callSize_eq (hs.mono (new := z))]

/-- The encoded messages are acceptable. -/
theorem rtEncoded_ok {cfg : Config} {prog : List Site} {s : Rt} (hc : RtInv s) (hF : FInv cfg prog s) :
    ∀ c ∈ s.encoded.map Prod.snd, CallOK cfg s.sites c := by
  intro c h
  obtain ⟨p, hp, rfl⟩ := List.mem_map.1 h
  apply hF.log p.1
  rw [(hc.thr p.1).log]
  refine List.mem_append_left _ ?_
  rw [byThr, List.mem_filterMap]
  exact ⟨p, hp, by simp⟩

theorem step_counted {cfg : Config} {prog : List Site} (hP : ProgOK cfg prog) {l : Lbl}
    {s s' : Rt} {st : Stats} (hc : RtInv s) (hF : FInv cfg prog s) (h : Counted s st)
    (ha : s.act cfg prog l = .ok s') : Counted s' (st.step cfg s l) := by
  by_cases hl : ∃ junk more, l = .encode junk more
  · obtain ⟨junk, more, rfl⟩ := hl
    exact chunk_counted hP hc hF ha h
  · obtain ⟨h1, h2⟩ := act_counted hc ha fun junk more e => hl ⟨junk, more, e⟩
    have key : ∀ st' : Stats, st'.logs = st.logs → st'.bytesIn = st.bytesIn →
        st'.bytesOut = (st.bytesOut + s.hands l) % 2 ^ 64 → Counted s' st' := by
      intro st' e1 e2 e3
      refine ⟨by rw [e1, h1, h.logs], ?_, ?_⟩
      · rw [e2, h1, h.bytesIn, queueSize_mono (act_sites_pre ha) (rtEncoded_ok hc hF)]
      · rw [e3, h2, h.bytesOut]; omega
    have hb : st.bytesOut = st.bytesOut % 2 ^ 64 := by rw [h.bytesOut]; omega
    cases l
    case write =>
      simp only [Stats.step]
      split
      · rename_i he
        exact key _ rfl rfl (by simp only [Rt.hands, he, List.length_nil, Nat.add_zero]; exact hb)
      · exact key _ rfl rfl rfl
    case aio =>
      simp only [Stats.step, Stats.finished]
      split
      · split
        · exact key _ rfl rfl (by simp only [Rt.hands, Nat.add_zero]; exact hb)
        · exact key _ rfl rfl (by simp only [Rt.hands, Nat.add_zero]; exact hb)
      · exact key _ rfl rfl (by simp only [Rt.hands, Nat.add_zero]; exact hb)
    case encode junk more => exact absurd ⟨junk, more, rfl⟩ hl
    all_goals exact key _ rfl rfl (by simp only [Rt.hands, Nat.add_zero]; exact hb)

theorem run_counted {cfg : Config} {prog : List Site} (hP : ProgOK cfg prog) {ls : List Lbl}
    {s s' : Rt} {st : Stats} (hc : RtInv s) (hF : FInv cfg prog s) (h : Counted s st)
    (hok : ∀ l ∈ ls, l.OK cfg prog) (hr : s.run cfg prog ls = .ok s') :
    Counted s' (st.run cfg prog s ls) := by
  induction ls generalizing s st with
  | nil => cases hr; exact h
  | cons l ls ih =>
    simp only [Rt.run] at hr
    split at hr <;> try cases hr
    rename_i s1 ha
    simp only [Stats.run, ha]
    exact ih (act_cinv hP.room hc ha) (act_finv hP hc hF (hok l (by simp)) ha)
      (step_counted hP hc hF h ha) (fun l' h' => hok l' (by simp [h'])) hr

/-- `ls` is an execution from the start of the process to state `s`, with the counters `st` at its
end. -/
def StatsExec (cfg : Config) (prog : List Site) (ls : List Lbl) (s : Rt) (st : Stats) : Prop :=
  ∃ jk c s0, c.Plain ∧ jk < 2 ^ 62 ∧ Rt.init cfg jk c = some s0 ∧ (∀ l ∈ ls, l.OK cfg prog) ∧
    s0.run cfg prog ls = .ok s ∧ Stats.init.run cfg prog s0 ls = st

theorem StatsExec.exec {cfg : Config} {prog : List Site} {ls : List Lbl} {s : Rt} {st : Stats}
    (h : StatsExec cfg prog ls s st) : RtExec cfg prog ls s := by
  obtain ⟨jk, c, s0, h1, h2, h3, h4, h5, -⟩ := h
  exact ⟨jk, c, s0, h1, h2, h3, h4, h5⟩

theorem init_counted {cfg : Config} {jk : Nat} {c : Checkpoint} {s : Rt}
    (h : Rt.init cfg jk c = some s) : Counted s Stats.init := by
  unfold Rt.init at h
  split at h <;> cases h
  exact ⟨rfl, rfl, rfl⟩

theorem StatsExec.counted {cfg : Config} {prog : List Site} (hP : ProgOK cfg prog) {ls : List Lbl}
    {s : Rt} {st : Stats} (h : StatsExec cfg prog ls s st) : Counted s st := by
  obtain ⟨jk, c, s0, h1, h2, h3, h4, h5, rfl⟩ := h
  exact run_counted hP (init_cinv h3) (init_finv h1 h2 h3) (init_counted h3) h4 h5

/-- The messages counted, `cs`: of each thread the first ones it logged; those in the files are
among them, and all of them are in the files when everything is written; they are all messages
of returned log calls when the staging buffers are empty.  `logsProcessed` is their number and
`totalBytesRead` the sum of their sizes in the staging buffers. -/
theorem C57_events {cfg : Config} {prog : List Site} (hP : ProgOK cfg prog) {ls : List Lbl}
    {s : Rt} {st : Stats} (h : StatsExec cfg prog ls s st) :
    ∃ (cs : List (Nat × LogCall)) (outs : List (List OutMsg)),
      st.logs = cs.length % 2 ^ 64 ∧
      st.bytesIn = (cs.map fun p => callSize s.sites p.2).sum % 2 ^ 64 ∧
      (∀ t, byThr t cs <+: (s.thr t).log) ∧ cs.length ≤ (returns ls).length ∧
      ((∀ t, (s.thr t).q = []) → cs.length = (returns ls).length) ∧
      s.files.map (decodeFile (cfg.staging + 9)) = outs.map some ∧
      outs.flatten.length ≤ cs.length ∧
      (s.mem s.encPtr = [] → s.aio = none → outs.flatten.length = cs.length) := by
  obtain ⟨hC, hF⟩ := h.exec.inv hP
  have hc := h.counted hP
  obtain ⟨outs, j, h1, h2⟩ := files_decode hF
  have hlen : ∀ t, (s.thr t).log.length = (returns ls).count t := by
    intro t; rw [returns_count, returned_log h.exec t]
  have hcount : ∀ t, (s.encoded.map Prod.fst).count t + (s.thr t).q.length = (returns ls).count t := by
    intro t
    rw [← hlen t, (hC.thr t).log, List.length_append, byThr_count]
  refine ⟨s.encoded, outs, hc.logs, ?_, ?_, ?_, ?_, h1, ?_, ?_⟩
  · rw [hc.bytesIn, queueSize, List.map_map]; rfl
  · intro t
    rw [(hC.thr t).log]; exact List.prefix_append _ _
  · have : (s.encoded.map Prod.fst).Subperm (returns ls) := by
      rw [List.subperm_ext_iff]
      intro t _
      have := hcount t
      omega
    simpa using this.length_le
  · intro hq
    have : (s.encoded.map Prod.fst).Perm (returns ls) := by
      rw [List.perm_iff_count]
      intro t
      have := hcount t
      rw [hq t] at this
      simpa using this
    simpa using this.length_eq
  · rw [← h2.length_eq, Rt.encoded]
    simp only [List.length_append, List.length_take]
    omega
  · intro hm ha
    rw [← h2.length_eq, Rt.encoded, hC.aioNone ha, hC.gB hm]
    simp

/-- `totalBytesWritten` is the number of bytes in all files written so far, plus those of the
outstanding operation that are not in the file yet. -/
theorem C57_bytes {cfg : Config} {prog : List Site} (hP : ProgOK cfg prog) {ls : List Lbl}
    {s : Rt} {st : Stats} (h : StatsExec cfg prog ls s st) :
    ∃ n, st.bytesOut = ((s.files.map List.length).sum + n) % 2 ^ 64 ∧
      (s.aio = none → n = 0) ∧ ∀ a, s.aio = some a → n = a.len - a.done := by
  obtain ⟨hC, -⟩ := h.exec.inv hP
  refine ⟨_, (h.counted hP).bytesOut, ?_, ?_⟩
  · intro ha; simp [Rt.unwritten, ha]
  · intro a ha
    obtain ⟨h1, h2, -⟩ := hC.aioOK a ha
    simp [Rt.unwritten, ha, h1, h2]

/-- The operation outstanding: 0 or 1. -/
def Rt.outstanding (s : Rt) : Nat := if s.aio.isSome then 1 else 0

theorem act_isSome {cfg : Config} {prog : List Site} {s s' : Rt} {l : Lbl}
    (ha : s.act cfg prog l = .ok s') (h1 : l ≠ .write) (h2 : l ≠ .aio) :
    s'.aio.isSome = s.aio.isSome := by
  cases l <;> simp only [Rt.act] at ha
  case write => exact absurd rfl h1
  case aio => exact absurd rfl h2
  case join t jk c =>
    simp only [Rt.actCtl] at ha
    split at ha <;> try cases ha
    split at ha <;> cases ha
    rfl
  case disk n =>
    simp only [Rt.actIo] at ha
    split at ha
    · cases ha
    rename_i a hs
    repeat' split at ha
    all_goals cases ha
    rw [hs]; rfl
  all_goals
    simp only [Rt.actLog, Rt.actBuf, Rt.actCtl, Rt.actScan, Rt.actIo] at ha
    repeat' split at ha
    all_goals first
      | (cases ha; done)
      | (cases ha; rfl)
      | (have := (advance_fields ha).2.1; exact congrArg Option.isSome this)
      | (have := (notify_fields ha).2.1; exact congrArg Option.isSome this)

theorem step_writes {cfg : Config} {prog : List Site} {l : Lbl} {s s' : Rt} {st : Stats} {n n' : Nat}
    (hc : RtInv s) (ha : s.act cfg prog l = .ok s') (h : n = s.outstanding + n')
    (hw : st.writes = n' % 2 ^ 32) :
    ∃ n2, n + (if s.aio.isNone ∧ s'.aio.isSome then 1 else 0) = s'.outstanding + n2 ∧
      (st.step cfg s l).writes = n2 % 2 ^ 32 := by
  have same : s'.aio.isSome = s.aio.isSome → (st.step cfg s l).writes = st.writes →
      ∃ n2, n + (if s.aio.isNone ∧ s'.aio.isSome then 1 else 0) = s'.outstanding + n2 ∧
      (st.step cfg s l).writes = n2 % 2 ^ 32 := by
    intro e1 e2
    refine ⟨n', ?_, by rw [e2, hw]⟩
    unfold Rt.outstanding at h ⊢
    rw [e1, h]
    cases s.aio <;> simp
  cases l
  case write =>
    simp only [Rt.act, Rt.actIo] at ha
    split at ha
    · cases ha
    rename_i hpc
    simp only [ne_eq, Decidable.not_not] at hpc
    have hn := hc.pcAio (.inr (.inl hpc))
    split at ha <;> cases ha
    · rename_i he
      exact same rfl (by simp [Stats.step, he])
    · rename_i he
      refine ⟨n', ?_, by simp [Stats.step, he, hw]⟩
      simp [Rt.outstanding, hn] at h ⊢
      omega
  case aio =>
    simp only [Rt.act, Rt.actIo] at ha
    repeat' split at ha
    all_goals cases ha
    · rename_i hs
      exact same rfl (by simp [Stats.step, Stats.finished, hs])
    · rename_i a hs hd
      refine ⟨n' + 1, ?_, ?_⟩
      · simp [Rt.outstanding, hs] at h ⊢
        omega
      · simp only [Stats.step, Stats.finished, hs, hd, if_true, hw]
        omega
    · rename_i a hs hd hf
      exact same rfl (by simp [Stats.step, Stats.finished, hs, hd])
  case encode junk more =>
    refine same (act_isSome ha (by simp) (by simp)) ?_
    simp only [Stats.step, Stats.chunk]
    repeat' split
    all_goals rfl
  all_goals exact same (act_isSome ha (by simp) (by simp)) rfl

/-- `numAioWritesCompleted` is the number of buffers handed to the disk so far without the one
that is outstanding. -/
theorem C57_flushes {cfg : Config} {prog : List Site} (hP : ProgOK cfg prog) {jk : Nat}
    {c : Checkpoint} {s0 s : Rt} {ls : List Lbl} (h0 : Rt.init cfg jk c = some s0)
    (hr : s0.run cfg prog ls = .ok s) :
    ∃ n, handedOver cfg prog s0 ls = s.outstanding + n ∧
      (Stats.init.run cfg prog s0 ls).writes = n % 2 ^ 32 := by
  have key : ∀ (ls : List Lbl) (s0 : Rt) (st : Stats) (m n' : Nat), RtInv s0 →
      s0.run cfg prog ls = .ok s → m = s0.outstanding + n' → st.writes = n' % 2 ^ 32 →
      ∃ n, m + handedOver cfg prog s0 ls = s.outstanding + n ∧
        (st.run cfg prog s0 ls).writes = n % 2 ^ 32 := by
    intro ls
    induction ls with
    | nil =>
      intro s0 st m n' _ hr hm hw
      cases hr
      exact ⟨n', hm, hw⟩
    | cons l ls ih =>
      intro s0 st m n' hc hr hm hw
      simp only [Rt.run] at hr
      split at hr <;> try cases hr
      rename_i s1 ha
      obtain ⟨n2, e1, e2⟩ := step_writes hc ha hm hw
      obtain ⟨n, f1, f2⟩ := ih s1 _ _ n2 (act_cinv hP.room hc ha) hr e1 e2
      refine ⟨n, ?_, ?_⟩
      · simp only [handedOver, ha, ← Nat.add_assoc]; exact f1
      · simp only [Stats.run, ha]; exact f2
  have hi : s0.outstanding = 0 := by
    unfold Rt.init at h0
    split at h0 <;> cases h0
    rfl
  obtain ⟨n, f1, f2⟩ := key ls s0 Stats.init 0 0 (init_cinv h0) hr (by rw [hi]) rfl
  exact ⟨n, by rw [← f1]; omega, f2⟩

/-! ## Examples -/

/-- Run the labels from the start and test the final state and the counters. -/
def exStatsCheck (ls : List Lbl) (p : Rt → Stats → Bool) : Bool :=
  match Rt.init exCfg 0 exCk with
  | some s0 =>
    match s0.run exCfg exSites ls with
    | .ok s => p s (Stats.init.run exCfg exSites s0 ls)
    | _ => false
  | none => false

theorem exStatsExec {ls : List Lbl} {p : Rt → Stats → Bool} (hl : ls.all exLbl = true)
    (h : exStatsCheck ls p = true) : ∃ s st, StatsExec exCfg exSites ls s st ∧ p s st = true := by
  unfold exStatsCheck at h
  split at h
  · rename_i s0 hs0
    split at h
    · rename_i s hs
      refine ⟨s, _, ⟨0, exCk, s0, exCk_plain, by decide, hs0, ?_, hs, rfl⟩, h⟩
      intro l hm
      exact exLbl_ok (List.all_eq_true.1 hl l hm)
    · cases h
  · cases h

/-- In the example everything is written: three messages of 20, 22 and 20 bytes, one operation,
115 bytes. -/
example : ∃ s st, StatsExec exCfg exSites exWritten s st ∧ s.mem s.encPtr = [] ∧ s.aio = none ∧
    st = ⟨3, 62, 115, 1⟩ ∧ (returns exWritten).length = 3 := by
  obtain ⟨s, st, h, hp⟩ := exStatsExec (ls := exWritten)
    (p := fun s st => s.mem s.encPtr = [] && s.aio = none && st = ⟨3, 62, 115, 1⟩)
    (by decide +kernel) (by decide +kernel)
  simp only [Bool.and_eq_true, decide_eq_true_eq] at hp
  exact ⟨s, st, h, hp.1.1, hp.1.2, hp.2, by decide +kernel⟩

/-- Not true: that the messages and bytes which `getStats` reports as written are in the files.
The background thread has encoded three messages and started the operation that writes them:
`getStats` prints "Wrote 3 events", and the file is empty. -/
theorem C57_written_false : ∃ (cfg : Config) (prog : List Site), ProgOK cfg prog ∧
    ∃ ls s st, StatsExec cfg prog ls s st ∧ st.logs = 3 ∧ st.bytesOut = 115 ∧ s.files = [[]] := by
  refine ⟨exCfg, exSites, exProgOK, exThreads ++ exScan, ?_⟩
  obtain ⟨s, st, h, hp⟩ := exStatsExec (ls := exThreads ++ exScan)
    (p := fun s st => st.logs = 3 && st.bytesOut = 115 && s.files = [[]])
    (by decide +kernel) (by decide +kernel)
  simp only [Bool.and_eq_true, decide_eq_true_eq] at hp
  exact ⟨s, st, h, hp.1.1, hp.1.2, hp.2⟩

/-! ## The compression ratio -/

/-- `totalBytesWritten` counts the buffers with the padding, `padBytesWritten` the padding. -/
theorem countOutput_sum (direct : Bool) (ns : List Nat) (st : Nat × Nat) :
    let r := ns.foldl (countOutput direct) st
    r.1 + st.2 = st.1 + ns.sum + r.2 ∧ st.2 ≤ r.2 := by
  induction ns generalizing st with
  | nil => simp
  | cons n ns ih =>
    obtain ⟨h1, h2⟩ := ih (countOutput direct st n)
    simp only [List.foldl_cons, List.sum_cons] at h1 h2 ⊢
    have : (countOutput direct st n).1 + st.2 = st.1 + n + (countOutput direct st n).2 ∧
        st.2 ≤ (countOutput direct st n).2 := by
      have h3 := Nat.mod_lt n (show 512 > 0 by decide)
      have h4 := Nat.mod_le n 512
      clear ih h1 h2
      obtain ⟨a, b⟩ := st
      cases direct
      · exact ⟨rfl, Nat.le_refl _⟩
      · simp only [countOutput, if_true]
        split
        · dsimp only; omega
        · dsimp only; omega
    omega

/-- Without `O_DIRECT` both ends of the range are the bytes read divided by the bytes written. -/
theorem C57_ratio_partial (bytesIn : Nat) (ns : List Nat) :
    let r := ns.foldl (countOutput false) (0, 0)
    printedRatio bytesIn r.1 r.2 = ((bytesIn : Rat) / (ns.sum : Rat), (bytesIn : Rat) / (ns.sum : Rat)) := by
  have h : ∀ (ns : List Nat) (st : Nat × Nat), ns.foldl (countOutput false) st = (st.1 + ns.sum, st.2) := by
    intro ns
    induction ns with
    | nil => intro st; simp
    | cons n ns ih => intro st; simp [ih, countOutput, Nat.add_assoc]
  simp only [h, Nat.zero_add, printedRatio, Nat.cast_zero, add_zero]

/-- With padding the range never contains the ratio without padding, and its lower end is
smaller than the ratio with padding: `totalBytesWritten` already includes the padding, and the
lower end adds it a second time. -/
theorem C57_ratio_range {bytesIn : Nat} {ns : List Nat} (hb : 0 < bytesIn) (hn : 0 < ns.sum)
    (hp : 0 < (ns.foldl (countOutput true) (0, 0)).2) :
    let r := ns.foldl (countOutput true) (0, 0)
    r.1 = ns.sum + r.2 ∧
    (printedRatio bytesIn r.1 r.2).1 < (bytesIn : Rat) / ((ns.sum + r.2 : Nat) : Rat) ∧
    (printedRatio bytesIn r.1 r.2).2 < (bytesIn : Rat) / (ns.sum : Rat) := by
  obtain ⟨h1, -⟩ := countOutput_sum true ns (0, 0)
  generalize ns.foldl (countOutput true) (0, 0) = r at h1 hp
  obtain ⟨out, pad⟩ := r
  simp only [Nat.add_zero, Nat.zero_add] at h1 hp
  subst h1
  have b : (0 : Rat) < bytesIn := by exact_mod_cast hb
  have n : (0 : Rat) < (ns.sum : Nat) := by exact_mod_cast hn
  have p : (0 : Rat) < pad := by exact_mod_cast hp
  simp only [printedRatio, Nat.cast_add, true_and]
  constructor
  · apply div_lt_div_of_pos_left b <;> linarith
  · apply div_lt_div_of_pos_left b <;> linarith

/-- Not true: that the printed range goes from the ratio with padding to the ratio without.  One
buffer of 100 bytes for 1000 bytes of messages: with padding 1000/512, without 1000/100; printed
is the range from 1000/924 to 1000/512. -/
theorem C57_ratio_false : ∃ (bytesIn : Nat) (ns : List Nat),
    let r := ns.foldl (countOutput true) (0, 0)
    printedRatio bytesIn r.1 r.2 ≠
      ((bytesIn : Rat) / ((ns.sum + r.2 : Nat) : Rat), (bytesIn : Rat) / (ns.sum : Rat)) := by
  refine ⟨1000, [100], ?_⟩
  have h := (C57_ratio_range (bytesIn := 1000) (ns := [100]) (by decide) (by decide) (by decide)).2.1
  intro r e
  rw [e] at h
  exact absurd h (lt_irrefl _)

end NanoLog
