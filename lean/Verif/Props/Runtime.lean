import Verif.RuntimeDecode
import Verif.RuntimeExample

/-!
# Theorems about the whole runtime: C11, C20, C30, C33, C34

An execution (`RtExec`) is any interleaving of any number of application threads, the background
thread and the system; see `Runtime.lean`.
-/

namespace NanoLog

/-! ## C11 A thread's buffer is freed only after its messages are consumed

The theorems in `Props/Staging.lean` are about one buffer and its memory accesses; the
following are about all threads. -/

/-- A deleted buffer belongs to a thread that has exited, it is empty, and the thread's messages
have all been taken over. -/
theorem C11_freed {cfg : Config} {prog : List Site} (hP : ProgOK cfg prog) {ls : List Lbl} {s : Rt}
    (h : RtExec cfg prog ls s) (t : Nat) (hf : (s.thr t).freed = true) :
    (s.thr t).pc = .exited ∧ (s.thr t).q = [] := by
  have hT := (h.inv hP).1.thr t
  refine ⟨hT.dealloc (hT.freed hf), ?_⟩
  by_cases hb : t ∈ s.bufs
  · have := (hT.alloc hb).1
    rw [hf] at this; cases this
  · exact hT.out hb

/-- No execution leads to undefined behaviour: in particular nobody uses a deleted buffer, and
the background thread does not index outside `threadBuffers` or divide by its size 0. -/
theorem C11_no_undefined {cfg : Config} {prog : List Site} (hP : ProgOK cfg prog) {ls : List Lbl}
    {s : Rt} (h : RtExec cfg prog ls s) (l : Lbl) :
    s.act cfg prog l ≠ .ub :=
  act_noub hP (h.inv hP).1 (h.inv hP).2

/-- Thread 1 logs, exits, its message is consumed, and its buffer is deleted. -/
def exExit : List Lbl :=
  exFirst 1 0 1000 [.int .i32 (-5)] ++ [.exitThread 1] ++
  [.top, .dict false, .peek 1, .encode (fun _ => 0) [], .scanned none, .aio, .write,
   .top, .dict false, .peek 0, .check]

example : ∃ s, RtExec exCfg exSites exExit s ∧ (s.thr 1).freed = true ∧ s.bufs = [] ∧
    s.pc = .scanned := by
  obtain ⟨s, h, hp⟩ := exExec (ls := exExit)
    (p := fun s => (s.thr 1).freed && s.bufs = [] && s.pc = .scanned) (by decide +kernel)
    (by decide +kernel)
  exact ⟨s, h, by simpa [and_assoc] using hp⟩

/-! ## C20 Log statements get unique, dense, stable identifiers -/

/-- Statements registered have an entry with their static information; identifiers differ; all
of 0 .. number of entries - 1 are in use. -/
theorem C20_ids {cfg : Config} {prog : List Site} (hP : ProgOK cfg prog) {ls : List Lbl} {s : Rt}
    (h : RtExec cfg prog ls s) :
    (∀ k i, s.ids k = some i → ∃ site, s.sites[i]? = some site ∧ prog[k]? = some site) ∧
    (∀ k k' i, s.ids k = some i → s.ids k' = some i → k = k') ∧
    (∀ i, i < s.sites.length → ∃ k, s.ids k = some i) := by
  have hi := (h.inv hP).2.ids
  refine ⟨fun k i hk => hi.site hk, ?_, ?_⟩
  · obtain ⟨ks, h1, h2, h3⟩ := hi
    intro k k' i hk hk'
    have a := (h3 k i).1 hk
    rw [(h3 k' i).1 hk'] at a
    exact (Option.some.inj a).symm
  · obtain ⟨ks, h1, h2, h3⟩ := hi
    intro i hlt
    have hlen := congrArg List.length h2
    simp only [List.length_map] at hlen
    exact ⟨ks[i]'(by omega), (h3 _ _).2 (List.getElem?_eq_getElem (by omega))⟩

/-- What a step may change: nothing, or one statement without identifier gets the next one. -/
theorem act_ids {cfg : Config} {prog : List Site} {s s' : Rt} {l : Lbl}
    (ha : s.act cfg prog l = .ok s') :
    (s'.ids = s.ids ∧ s'.sites = s.sites) ∨
    ∃ k site, prog[k]? = some site ∧ s.ids k = none ∧
      s'.ids = upd s.ids k (some s.sites.length) ∧ s'.sites = s.sites ++ [site] := by
  cases l <;> simp only [Rt.act, Rt.actLog, Rt.actBuf, Rt.actCtl] at ha <;>
    first
    | (have hb := actScan_bg ha; exact .inl ⟨hb.ids, hb.sites⟩)
    | (have hb := actIo_bg ha; exact .inl ⟨hb.ids, hb.sites⟩)
    | (cases ha; exact .inl ⟨rfl, rfl⟩)
    | (repeat' (split at ha)
       all_goals first
        | (cases ha; done)
        | (cases ha; exact .inl ⟨rfl, rfl⟩)
        | (cases ha; rename_i h1 h2; exact .inr ⟨_, _, h2, h1, rfl, rfl⟩))

/-- An identifier given is never changed, and static information never moves. -/
theorem C20_stable {cfg : Config} {prog : List Site} {ls : List Lbl} {s s' : Rt}
    (hr : s.run cfg prog ls = .ok s') :
    (∀ k i, s.ids k = some i → s'.ids k = some i) ∧ s.sites <+: s'.sites := by
  induction ls generalizing s with
  | nil => cases hr; exact ⟨fun _ _ h => h, List.prefix_refl _⟩
  | cons l ls ih =>
    simp only [Rt.run] at hr
    split at hr <;> try cases hr
    rename_i s1 ha
    obtain ⟨h1, h2⟩ := ih hr
    rcases act_ids ha with ⟨e1, e2⟩ | ⟨k0, site, -, e0, e1, e2⟩
    · rw [e1] at h1; rw [e2] at h2; exact ⟨h1, h2⟩
    · rw [e2] at h2
      refine ⟨fun k i hk => h1 k i ?_, (List.prefix_append _ _).trans h2⟩
      rw [e1, upd_other]
      · exact hk
      · rintro rfl; rw [e0] at hk; cases hk

/-- New identifiers are given in order: the one given is the number of statements registered
before. -/
theorem C20_next {cfg : Config} {prog : List Site} {s s' : Rt} {l : Lbl} {k i : Nat}
    (ha : s.act cfg prog l = .ok s') (h0 : s.ids k = none) (h1 : s'.ids k = some i) :
    i = s.sites.length ∧ s'.sites.length = s.sites.length + 1 := by
  rcases act_ids ha with ⟨e1, e2⟩ | ⟨k0, site, -, e0, e1, e2⟩
  · rw [e1, h0] at h1; cases h1
  · by_cases hk : k = k0
    · subst hk
      rw [e1, upd_same] at h1
      cases h1
      simp [e2]
    · rw [e1, upd_other _ _ hk, h0] at h1; cases h1

/-- Every message a thread logs carries the identifier of the statement executed. -/
theorem C20_logged {cfg : Config} {prog : List Site} {ls : List Lbl} {s : Rt}
    (h : RtExec cfg prog ls s) (t : Nat) (j : Nat) (c : LogCall) (hc : (s.thr t).log[j]? = some c) :
    ∃ k args, (mustRecord prog t ls)[j]? = some (k, args) ∧ s.ids k = some c.id := by
  obtain ⟨d, p, h1, h2, h3⟩ := h.rinv.2 t
  obtain ⟨⟨k, args⟩, e1, e2⟩ := Forall₂.get h2 hc
  refine ⟨k, args, ?_, e2.1⟩
  simp only at h1
  rw [h1]
  exact getElem?_mono e1 p

/-- Two threads execute the same statement for the first time at once: both read that it has no
identifier, both try to register it, and both get identifier 0. -/
def exRace : List Lbl :=
  [.call 1 0 [.int .i32 1], .call 2 0 [.int .i32 2], .readId 1 false, .readId 2 false,
   .register 2, .register 1]

example : ∃ s, RtExec exCfg exSites exRace s ∧ (s.thr 1).pc = .known 0 [.int .i32 1] ∧
    (s.thr 2).pc = .known 0 [.int .i32 2] ∧ s.sites = [exSite0] ∧ s.ids 0 = some 0 := by
  obtain ⟨s, h, hp⟩ := exExec (ls := exRace)
    (p := fun s => (s.thr 1).pc = .known 0 [.int .i32 1] && (s.thr 2).pc = .known 0 [.int .i32 2]
      && s.sites = [exSite0] && s.ids 0 = some 0) (by decide +kernel) (by decide +kernel)
  exact ⟨s, h, by simpa [and_assoc] using hp⟩

/-! ## C33 Severity filter -/

/-- The effective level is that of the last `setLogLevel`, clamped to 0..4, or 3. -/
theorem C33_level {cfg : Config} {prog : List Site} {ls : List Lbl} {s : Rt}
    (h : RtExec cfg prog ls s) : s.level = levelAfter ls ∧ 0 ≤ s.level ∧ s.level ≤ 4 := by
  have h1 := h.rinv.1
  refine ⟨h1, ?_⟩
  rw [h1]
  have : ∀ (ls : List Lbl) (lv : Int), 0 ≤ lv → lv ≤ 4 →
      0 ≤ ls.foldl lvStep lv ∧ ls.foldl lvStep lv ≤ 4 := by
    intro ls
    induction ls with
    | nil => intro lv h1 h2; exact ⟨h1, h2⟩
    | cons l ls ih =>
      intro lv h1 h2
      rw [List.foldl_cons]
      cases l <;> simp only [lvStep] <;> apply ih <;> omega
  exact this ls 3 (by decide) (by decide)

/-- `setLogLevel(l)` with a valid level sets it; the next statement is recorded if and only if
its severity is at most the level. -/
theorem C33_setLevel {cfg : Config} {prog : List Site} {s s1 s2 : Rt} {l : Int} {t k : Nat}
    {args : List Arg} {site : Site} (h1 : s.act cfg prog (.setLevel l) = .ok s1)
    (hk : prog[k]? = some site) (h2 : s1.act cfg prog (.call t k args) = .ok s2) :
    s1.level = max 0 (min 4 l) ∧
    (s2 = s1 ∨ (s2.thr t).pc = .called k args) ∧
    ((s2.thr t).pc = .called k args ↔ (site.info.sev : Int) ≤ max 0 (min 4 l)) := by
  simp only [Rt.act, Rt.actCtl] at h1
  cases h1
  simp only [Rt.act, Rt.actLog] at h2
  split at h2 <;> try cases h2
  rename_i site' hpc hk'
  rw [hk] at hk'
  cases hk'
  rw [← clampLevel_eq]
  split at h2 <;> cases h2
  · rename_i hs
    refine ⟨rfl, .inl rfl, ?_⟩
    simp only [hpc]
    constructor
    · intro h; cases h
    · intro h; omega
  · rename_i hs
    refine ⟨rfl, .inr (by simp [Rt.setThr]), ?_⟩
    simp only [Rt.setThr, upd_same, true_iff]
    omega

/-- A thread that is not inside a log statement has logged exactly the calls whose severity
was at most the level at the time of the call, in order; one that is, all but that call. -/
theorem C33_recorded {cfg : Config} {prog : List Site} {ls : List Lbl} {s : Rt}
    (h : RtExec cfg prog ls s) (t : Nat) :
    (((s.thr t).pc = .idle ∨ (s.thr t).pc = .exited) →
      List.Forall₂ (fun c r => s.ids r.1 = some c.id ∧ c.args = r.2) (s.thr t).log
        (mustRecord prog t ls)) ∧
    ∃ last, last.length ≤ 1 ∧ ∃ d, mustRecord prog t ls = d ++ last ∧
      List.Forall₂ (fun c r => s.ids r.1 = some c.id ∧ c.args = r.2) (s.thr t).log d := by
  obtain ⟨d, p, h1, h2, h3⟩ := h.rinv.2 t
  simp only at h1
  constructor
  · intro hpc
    have hp : p = [] := by rcases hpc with hpc | hpc <;> rw [hpc] at h3 <;> exact h3
    rw [h1, hp, List.append_nil]
    exact h2
  · refine ⟨p, ?_, d, h1, h2⟩
    revert h3
    cases (s.thr t).pc with
    | take c => cases c <;> simp only [PendOK] <;> intro h <;> [(rw [h]; simp); (obtain ⟨k, -, h⟩ := h; rw [h]; simp)]
    | push c => cases c <;> simp only [PendOK] <;> intro h <;> [(rw [h]; simp); (obtain ⟨k, -, h⟩ := h; rw [h]; simp)]
    | known id args => intro h; obtain ⟨k, -, h⟩ := h; rw [h]; simp
    | stamped c => intro h; obtain ⟨k, -, h⟩ := h; rw [h]; simp
    | write c => intro h; obtain ⟨k, -, h⟩ := h; rw [h]; simp
    | _ => simp only [PendOK]; intro h; rw [h]; simp

/-- In the example thread 1 has one recorded call; its second call (severity 3 at level 2) is
not recorded; thread 2 has two. -/
example : ∃ s, RtExec exCfg exSites exThreads s ∧ s.level = 2 ∧ (s.thr 1).pc = .idle ∧
    mustRecord exSites 1 exThreads = [(0, [.int .i32 (-5)])] ∧
    mustRecord exSites 2 exThreads = [(1, [.cstr 4096 [104, 105]]), (0, [.int .i32 70000])] := by
  obtain ⟨s, h, hp⟩ := exExec (ls := exThreads)
    (p := fun s => s.level = 2 && (s.thr 1).pc = .idle) (by decide +kernel) (by decide +kernel)
  refine ⟨s, h, ?_⟩
  simp only [Bool.and_eq_true, decide_eq_true_eq] at hp
  exact ⟨hp.1, hp.2, by decide +kernel, by decide +kernel⟩

/-! ## C34 Thread ids in the log are unique

The ids are of type `uint32_t`: they repeat after 2^32 threads (`C34_wraps_false`). -/

/-- Threads have different ids if at most 2^32 buffers were allocated.  Missing for the full
property: it does not hold for more. -/
theorem C34_unique_partial {cfg : Config} {prog : List Site} {ls : List Lbl} {s : Rt}
    (h : RtExec cfg prog ls s) (hn : allocs ls ≤ 2 ^ 32) (t u b : Nat)
    (ht : (s.thr t).bid = some b) (hu : (s.thr u).bid = some b) : t = u :=
  (h.bids.2 hn).2 t u b ht hu

/-- An id once given stays. -/
theorem C34_stable {cfg : Config} {prog : List Site} (hP : ProgOK cfg prog) {ls ls' : List Lbl}
    {s s' : Rt} (h : RtExec cfg prog ls s) (hl : ∀ l ∈ ls', l.OK cfg prog)
    (hr : s.run cfg prog ls' = .ok s') (t b : Nat) (hb : (s.thr t).bid = some b) :
    (s'.thr t).bid = some b := by
  induction ls' generalizing ls s with
  | nil => cases hr; exact hb
  | cons l ls' ih =>
    simp only [Rt.run] at hr
    split at hr <;> try cases hr
    rename_i s1 ha
    refine ih (h.append (ls' := [l]) (by simpa using hl l (by simp)) (by simp [Rt.run, ha]))
      (fun l h => hl l (by simp [h])) hr ?_
    cases ht : isTake l with
    | false => rw [(act_bids ha ht).2 t]; exact hb
    | true =>
      obtain ⟨u, rfl⟩ : ∃ u, l = .takeId u := by
        cases l <;> simp [isTake] at ht; exact ⟨_, rfl⟩
      obtain ⟨-, -, h3, c, h4⟩ := takeId_bids ha
      by_cases hu : t = u
      · subst hu
        rw [((h.inv hP).1.thr t).take c h4] at hb; cases hb
      · rw [h3 t hu]; exact hb

/-- Two threads with ids 0 and 1. -/
example : ∃ s, RtExec exCfg exSites exThreads s ∧ allocs exThreads ≤ 2 ^ 32 ∧
    (s.thr 1).bid = some 0 ∧ (s.thr 2).bid = some 1 := by
  obtain ⟨s, h, hp⟩ := exExec (ls := exThreads)
    (p := fun s => (s.thr 1).bid = some 0 && (s.thr 2).bid = some 1) (by decide +kernel)
    (by decide +kernel)
  exact ⟨s, h, by decide +kernel, by simpa using hp⟩

/-- `n` threads allocate their buffers. -/
def exAllocs : Nat → List Lbl
  | 0 => []
  | n + 1 => exAllocs n ++ [.preallocate n, .takeId n, .push n]

theorem exAllocs_run (n : Nat) :
    ∃ s, RtExec exCfg exSites (exAllocs n) s ∧ s.pc = .top ∧ s.nextId = n % 2 ^ 32 ∧
      (∀ t, t < n → (s.thr t).bid = some (t % 2 ^ 32)) ∧ ∀ t, n ≤ t → s.thr t = Thr.init := by
  induction n with
  | zero =>
    obtain ⟨s, h, hp⟩ := exExec (ls := []) (p := fun s => s.pc = .top) (by decide) (by decide +kernel)
    refine ⟨s, h, by simpa using hp, h.bids.1, by simp, ?_⟩
    obtain ⟨jk, c, s0, h1, h2, h3, h4, h5⟩ := h
    cases h5
    unfold Rt.init at h3
    split at h3 <;> cases h3
    exact fun _ _ => rfl
  | succ n ih =>
    obtain ⟨s, h, hpc, hid, hlt, hge⟩ := ih
    have hn := hge n (Nat.le_refl n)
    have hrun : ∃ s', s.run exCfg exSites [.preallocate n, .takeId n, .push n] = .ok s' ∧
        s'.pc = .top ∧ s'.nextId = (s.nextId + 1) % 2 ^ 32 ∧ (s'.thr n).bid = some s.nextId ∧
        ∀ t, t ≠ n → s'.thr t = s.thr t := by
      have h1 : s.act exCfg exSites (.preallocate n) =
          .ok (s.setThr n { s.thr n with pc := .take none }) := by
        simp [Rt.act, Rt.actBuf, hn, Thr.init]
      refine ⟨{ (s.setThr n { s.thr n with pc := .idle, bid := some s.nextId }) with
                bufs := s.bufs ++ [n], nextId := (s.nextId + 1) % 2 ^ 32 }, ?_, hpc, rfl, ?_, ?_⟩
      · simp only [Rt.run, h1]
        simp [Rt.act, Rt.actBuf, Rt.bufLocked, hpc, Rt.setThr, afterAlloc]
        funext u
        simp only [upd]
        split <;> rfl
      · simp [Rt.setThr]
      · intro t ht
        simp [Rt.setThr, upd_other _ _ ht]
    obtain ⟨s', hr, e1, e2, e3, e4⟩ := hrun
    refine ⟨s', h.append (by simp [Lbl.OK]) hr, e1, by rw [e2, hid]; omega, ?_, ?_⟩
    · intro t ht
      by_cases he : t = n
      · subst he; rw [e3, hid]
      · rw [e4 t he]; exact hlt t (by omega)
    · intro t ht
      rw [e4 t (by omega)]; exact hge t (by omega)

/-- Threads 0 and 2^32 have the same id. -/
theorem C34_wraps_false : ∃ ls s, RtExec exCfg exSites ls s ∧
    (s.thr 0).bid = some 0 ∧ (s.thr (2 ^ 32)).bid = some 0 := by
  obtain ⟨s, h, -, -, hlt, -⟩ := exAllocs_run (2 ^ 32 + 1)
  refine ⟨_, s, h, ?_, ?_⟩
  · rw [hlt 0 (by omega)]
  · rw [hlt (2 ^ 32) (by omega), Nat.mod_self]

/-! ## C30 Per-thread order and completeness in the log -/

theorem msgOf_prints {prog : List Site} {s : Rt} (hi : IdsInv prog s) {b k : Nat} {args : List Arg}
    {c : LogCall} {ck : Checkpoint} {m : OutMsg} (e1 : s.ids k = some c.id) (e2 : c.args = args)
    (hp : Prints s.sites b ck c m) : MsgOf prog b (k, args) m := by
  obtain ⟨site, s1, s2⟩ := hi.site e1
  cases hp with
  | @mk site' is ds ok sup pr =>
    have hs : site' = site := by
      have := ok.1
      rw [s1] at this; exact (Option.some.inj this).symm
    subst hs
    exact ⟨site', is, s2, sup, by rw [← e2]; exact pr, rfl, rfl, rfl, rfl⟩

/-- At every moment every log file decodes without error, and the messages with the id of a
thread, over all files in order, are those of the first calls which that thread had to record,
in call order, each once, with the time stamps taken in these calls; no message has an id that
belongs to no thread.  (At most 2^32 threads, see C34.  The log files are taken to be different
files that were empty or did not exist before; appending is the subject of C27.) -/
theorem C30_prefix {cfg : Config} {prog : List Site} (hP : ProgOK cfg prog) {ls : List Lbl} {s : Rt}
    (h : RtExec cfg prog ls s) (hn : allocs ls ≤ 2 ^ 32) :
    ∃ outs : List (List OutMsg),
      s.files.map (decodeFile (cfg.staging + 9)) = outs.map some ∧
      (∀ t b, (s.thr t).bid = some b → ∃ n,
        List.Forall₂ (MsgOf prog b) ((mustRecord prog t ls).take n)
          (outs.flatten.filter fun m => m.tid == b) ∧
        (outs.flatten.filter fun m => m.tid == b).map OutMsg.ts = (stamps t ls).take n) ∧
      ∀ m ∈ outs.flatten, ∃ t, (s.thr t).bid = some m.tid := by
  obtain ⟨hC, hF⟩ := h.inv hP
  obtain ⟨outs, j, h1, h2⟩ := files_decode hF
  refine ⟨outs, h1, ?_, ?_⟩
  · intro t b hb
    have h3 := from_thread h2 (fun t u b => (h.bids.2 hn).2 t u b) (t := t) (b := b) hb
    obtain ⟨d, p, r1, r2, -⟩ := h.rinv.2 t
    simp only at r1
    have hlog := (hC.thr t).log
    obtain ⟨z, hz⟩ : ∃ z, (s.thr t).log =
        byThr t (s.closed.flatMap (·.2) ++ s.gD ++ s.gO.take j) ++ z := by
      refine ⟨byThr t (s.gO.drop j ++ s.gB) ++ (s.thr t).q, ?_⟩
      rw [hlog, ← List.append_assoc, ← byThr_append, Rt.encoded]
      congr 2
      conv => lhs; rw [← List.take_append_drop j s.gO]
      simp only [List.append_assoc]
    generalize hg : byThr t (s.closed.flatMap (·.2) ++ s.gD ++ s.gO.take j) = g at h3 hz
    have hlen := r2.length_eq
    rw [hz, List.length_append] at hlen
    refine ⟨g.length, ?_, ?_⟩
    · rw [r1, List.take_append_of_le_length (by omega)]
      have h4 : List.Forall₂ (RecRel s.ids) g (d.take g.length) := by
        rw [hz] at r2
        have := r2.flip
        have h5 := Forall₂.prefix_right this (List.prefix_append g z)
        exact h5.flip
      refine Forall₂.comp h3 h4 ?_
      rintro c m ⟨k, args⟩ ⟨ck, hp⟩ ⟨e1, e2⟩
      exact msgOf_prints hF.ids e1 e2 hp
    · rw [h.stamps, Thr.stamps, hz, List.map_append, List.append_assoc,
        List.take_append_of_le_length (by simp), List.take_of_length_le (by simp)]
      clear hz hlen hg hlog
      have : ∀ (l : List LogCall) (r : List OutMsg),
          List.Forall₂ (fun c m => ∃ ck, Prints s.sites b ck c m) l r →
          r.map OutMsg.ts = l.map LogCall.ts := by
        intro l r h
        induction h with
        | nil => rfl
        | cons hab _ ih =>
          obtain ⟨ck, hp⟩ := hab
          cases hp with
          | mk ok sup pr => simp [ih]
      exact this _ _ h3
  · intro m hm
    obtain ⟨i, hi⟩ := List.mem_iff_getElem?.1 hm
    obtain ⟨p, -, hp⟩ := Forall₂.get' h2 hi
    exact ⟨p.1, hp.tid⟩

/-- Nothing is lost: once a thread is not inside a log statement, its buffer is empty and the
output buffers are written, all its recorded calls are in the files. -/
theorem C30_complete {cfg : Config} {prog : List Site} (hP : ProgOK cfg prog) {ls : List Lbl} {s : Rt}
    (h : RtExec cfg prog ls s) (hn : allocs ls ≤ 2 ^ 32) (hw : s.mem s.encPtr = [])
    (ha : s.aio = none) :
    ∃ outs : List (List OutMsg),
      s.files.map (decodeFile (cfg.staging + 9)) = outs.map some ∧
      ∀ t b, (s.thr t).bid = some b → (s.thr t).q = [] →
        ((s.thr t).pc = .idle ∨ (s.thr t).pc = .exited) →
        List.Forall₂ (MsgOf prog b) (mustRecord prog t ls)
          (outs.flatten.filter fun m => m.tid == b) := by
  obtain ⟨hC, hF⟩ := h.inv hP
  obtain ⟨outs, j, h1, h2⟩ := files_decode hF
  refine ⟨outs, h1, ?_⟩
  intro t b hb hq hpc
  have h3 := from_thread h2 (fun t u b => (h.bids.2 hn).2 t u b) (t := t) (b := b) hb
  have hr := (C33_recorded h t).1 hpc
  have hlog := (hC.thr t).log
  rw [hq, List.append_nil, Rt.encoded, hC.aioNone ha, hC.gB hw, List.append_nil,
    List.append_nil] at hlog
  rw [hC.aioNone ha, List.take_nil, List.append_nil, ← hlog] at h3
  refine Forall₂.comp h3 hr ?_
  rintro c m ⟨k, args⟩ ⟨ck, hp⟩ ⟨e1, e2⟩
  exact msgOf_prints hF.ids e1 e2 hp

/-- In the example everything is written: thread 1 (id 0) with one message, thread 2 (id 1)
with two. -/
example : ∃ s, RtExec exCfg exSites exWritten s ∧ allocs exWritten ≤ 2 ^ 32 ∧
    s.mem s.encPtr = [] ∧ s.aio = none ∧ (s.thr 2).bid = some 1 ∧ (s.thr 2).q = [] ∧
    (s.thr 2).pc = .idle ∧ (mustRecord exSites 2 exWritten).length = 2 := by
  obtain ⟨s, h, hp⟩ := exExec (ls := exWritten)
    (p := fun s => s.mem s.encPtr = [] && s.aio = none && (s.thr 2).bid = some 1 &&
      (s.thr 2).q = [] && (s.thr 2).pc = .idle) (by decide +kernel) (by decide +kernel)
  simp only [Bool.and_eq_true, decide_eq_true_eq] at hp
  obtain ⟨⟨⟨⟨p1, p2⟩, p3⟩, p4⟩, p5⟩ := hp
  exact ⟨s, h, by decide +kernel, p1, p2, p3, p4, p5, by decide +kernel⟩

end NanoLog
