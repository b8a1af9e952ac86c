import Verif.ComposedObs

/-! The runtime with its staging buffers byte by byte behaves like the runtime with queues of messages: the simulation. -/

namespace NanoLog

/-! ## One staging buffer -/

/-- The bytes of a message. -/
def img (sites : List Site) (c : LogCall) : List Byte := queueBytes sites [c]

theorem img_mono {sites : List Site} {c : LogCall} (h : c.id < sites.length) (new : List Site) :
    img (sites ++ new) c = img sites c := by
  simp only [img, queueBytes]
  rw [List.getElem?_append_left h]

theorem queueBytes_imgs (sites : List Site) (cs : List LogCall) : queueBytes sites cs = (cs.map (img sites)).flatten := by
  induction cs with
  | nil => rfl
  | cons c cs ih => simp only [queueBytes, img, List.map_cons, List.flatten_cons, ih, List.append_nil]

theorem img_size {cfg : Config} {sites : List Site} {c : LogCall} (h : CallOK cfg sites c) :
    (img sites c).length = callSize sites c ∧ img sites c ≠ [] ∧ c.id < sites.length := by
  have h1 := h.size
  obtain ⟨m, hm⟩ := h.prints 0 ⟨0, 0, [], 0, 0⟩
  have h2 := (queueBytes_length (queue_of_prints (.cons hm .nil))).1
  simp only [queueSize, List.map_cons, List.map_nil, List.sum_cons, List.sum_nil, Nat.add_zero] at h2
  refine ⟨h2, fun h0 => ?_, ?_⟩
  · have := congrArg List.length h0
    simp only [List.length_nil, img] at this
    omega
  · by_contra hc
    have : callSize sites c = 0 := by
      simp only [callSize]
      rw [List.getElem?_eq_none (by omega)]
    omega

/-- The staging buffer `s` contains the messages `q`, of which the background thread is working on `held`; those of `kls` are
finished but not yet visible to the background thread. -/
def BRel (N : Nat) (sites : List Site) (s : SB) (q : List LogCall) (held : Nat) (kls : List (Nat × LogCall)) : Prop :=
  ∃ g done, SInv .tso N s g ∧ QRel s ⟨q.map (img sites), held⟩ done (kls.map fun p => img sites p.2)

section
variable {N : Nat} {sites : List Site} {s s' : SB} {q : List LogCall} {held : Nat} {kls : List (Nat × LogCall)}

theorem BRel.mono (h : BRel N sites s q held kls) (hq : ∀ c ∈ q, c.id < sites.length)
    (hk : ∀ p ∈ kls, p.2.id < sites.length) (new : List Site) : BRel N (sites ++ new) s q held kls := by
  obtain ⟨g, done, h1, h2⟩ := h
  refine ⟨g, done, h1, ?_⟩
  have e1 : q.map (img (sites ++ new)) = q.map (img sites) :=
    List.map_congr_left fun c hc => img_mono (hq c hc) new
  have e2 : (kls.map fun p => img (sites ++ new) p.2) = kls.map fun p => img sites p.2 :=
    List.map_congr_left fun p hp => img_mono (hk p hp) new
  rw [e1, e2]
  exact h2

/-- Steps without an event. -/
theorem BRel.quiet (h : BRel N sites s q held kls) {a : Act} (ha : s.act .tso N a = some s')
    (hs : ∀ x es, QShows s a s' x es → es = []) (hd : a ≠ .canDelete) (hw : ∀ x, a.Whole x)
    (hc : completes s a s' = []) : BRel N sites s' q held kls := by
  obtain ⟨g, done, h1, h2⟩ := h
  obtain ⟨g', h3⟩ := act_inv h1 ha
  have := h2.quiet h1 ha (hs _) hd (hw _)
  rw [hc, List.append_nil] at this
  exact ⟨g', done, h3, this⟩

theorem BRel.finish (h : BRel N sites s q held kls) {m k : Nat} {c : LogCall} (ha : s.act .tso N (.finish m) = some s')
    (h0 : 0 < m) (hc : s'.pub.drop s.pub.length = img sites c) : BRel N sites s' q held (kls ++ [(k, c)]) := by
  obtain ⟨g, done, h1, h2⟩ := h
  obtain ⟨g', h3⟩ := act_inv h1 ha
  have := h2.quiet h1 ha (fun es h => h) (by simp) h0
  simp only [completes, hc] at this
  refine ⟨g', done, h3, ?_⟩
  rw [List.map_append]
  exact this

theorem BRel.commit (h : BRel N sites s q held kls) {k : Nat} (ha : s.act .tso N (.commit k) = some s') :
    BRel N sites s' q held kls ∨ ∃ p rest, kls = p :: rest ∧ BRel N sites s' (q ++ [p.2]) held rest := by
  obtain ⟨g, done, h1, h2⟩ := h
  obtain ⟨g', h3⟩ := act_inv h1 ha
  obtain ⟨es, x', done', later', e1, e2, e3, e4, e5⟩ := h2.step h1 ha (fun h => by cases h) trivial
  simp only [completes, List.append_nil] at e5
  rcases e1 with ⟨rfl, hv⟩ | ⟨m, rfl, hm, hv, hp⟩
  · cases e2
    rw [nothing_arrived, List.append_nil] at e4
    have := List.append_cancel_right e4
    subst this
    have := List.append_cancel_left e5
    subst this
    exact .inl ⟨g', done', h3, e3⟩
  · simp only [MQ.run, MQ.step, Option.some.injEq] at e2
    subst e2
    simp only [arrived, List.filterMap_cons, List.filterMap_nil] at e4
    rw [← List.append_assoc] at e4
    have e6 := List.append_cancel_right e4
    have e6 := List.append_cancel_right e6
    subst e6
    simp only [← List.append_assoc] at e5
    rw [List.append_assoc (done' ++ q.map (img sites))] at e5
    have e7 := List.append_cancel_left e5
    cases kls with
    | nil => simp at e7
    | cons p rest =>
      simp only [List.map_cons, List.singleton_append, List.cons.injEq] at e7
      obtain ⟨rfl, rfl⟩ := e7
      refine .inr ⟨p, rest, rfl, g', done', h3, ?_⟩
      rw [List.map_append]
      exact e3

theorem BRel.peek (h : BRel N sites s q held kls) (ha : s.act .tso N .peek = some s') :
    (s.vis = s.got.length → q = [] ∧ BRel N sites s' q 0 kls) ∧ (s.vis ≠ s.got.length → BRel N sites s' q held kls) := by
  obtain ⟨g, done, h1, h2⟩ := h
  obtain ⟨g', h3⟩ := act_inv h1 ha
  obtain ⟨es, x', done', later', e1, e2, e3, e4, e5⟩ := h2.step h1 ha (fun h => by cases h) trivial
  simp only [completes, List.append_nil] at e5
  simp only [QShows] at e1
  constructor
  · intro hv
    rw [if_pos hv] at e1
    subst e1
    simp only [MQ.run, MQ.step] at e2
    split at e2
    · cases e2
    · rename_i y hy
      split at hy <;> cases hy
      rename_i hq
      cases e2
      simp only [arrived, List.filterMap_cons, List.filterMap_nil, List.append_nil] at e4
      have := List.append_cancel_right e4
      subst this
      have := List.append_cancel_left e5
      subst this
      exact ⟨List.map_eq_nil_iff.1 hq, g', done', h3, e3⟩
  · intro hv
    rw [if_neg hv] at e1
    subst e1
    cases e2
    rw [nothing_arrived, List.append_nil] at e4
    have := List.append_cancel_right e4
    subst this
    have := List.append_cancel_left e5
    subst this
    exact ⟨g', done', h3, e3⟩

theorem BRel.cstep (h : BRel N sites s q held kls) (ha : s.act .tso N .cstep = some s') :
    match s'.cc with
    | .holding avail _ => avail = 0 ∧ BRel N sites s' q held kls ∨
        ∃ n, 0 < n ∧ n ≤ q.length ∧ 0 < avail ∧ BRel N sites s' q n kls
    | _ => BRel N sites s' q held kls := by
  obtain ⟨g, done, h1, h2⟩ := h
  obtain ⟨g', h3⟩ := act_inv h1 ha
  obtain ⟨es, x', done', later', e1, e2, e3, e4, e5⟩ := h2.step h1 ha (fun h => by cases h) trivial
  simp only [completes, List.append_nil] at e5
  have quiet : es = [] → BRel N sites s' q held kls := by
    rintro rfl
    cases e2
    rw [nothing_arrived, List.append_nil] at e4
    have := List.append_cancel_right e4
    subst this
    have := List.append_cancel_left e5
    subst this
    exact ⟨g', done', h3, e3⟩
  simp only [QShows] at e1
  split at e1
  · rename_i avail view hcc
    rw [hcc]
    rcases e1 with ⟨e, ha0⟩ | ⟨n, rfl, hav⟩
    · exact .inl ⟨ha0, quiet e⟩
    · simp only [MQ.run, MQ.step] at e2
      split at e2
      · cases e2
      · rename_i y hy
        split at hy <;> cases hy
        rename_i hn
        cases e2
        simp only [arrived, List.filterMap_cons, List.filterMap_nil, List.append_nil] at e4
        have := List.append_cancel_right e4
        subst this
        have := List.append_cancel_left e5
        subst this
        simp only [List.length_map] at hn
        refine .inr ⟨n, hn.1, hn.2, ?_, g', done', h3, e3⟩
        rw [hav]
        by_contra h0
        have := msgLen_zero (a := (q.map (img sites)).take n)
          (fun m hm => e3.ne m (by simp [List.mem_of_mem_take hm])) (by omega)
        have := congrArg List.length this
        rw [List.length_take, List.length_map, List.length_nil] at this
        omega
  · rename_i hcc
    have := quiet e1
    split
    · rename_i avail view hcc'
      exact absurd hcc' (hcc avail view)
    · exact this

theorem BRel.consume (h : BRel N sites s q held kls) {b n : Nat} (hn : n ≤ held)
    (hcc : ∃ av view, s.cc = .holding av view)
    (hb : b = msgLen ((q.map (img sites)).take n)) (ha : s.act .tso N (.consume b) = some s') :
    BRel N sites s' (q.drop n) (held - n) kls := by
  obtain ⟨g, done, h1, h2⟩ := h
  obtain ⟨g', h3⟩ := act_inv h1 ha
  have hk := h2.cc
  obtain ⟨av, view, hcc⟩ := hcc
  rw [hcc] at hk
  obtain ⟨es, x', done', later', e1, e2, e3, e4, e5⟩ := h2.step h1 ha (fun h => by cases h) ⟨n, hn, hb⟩
  simp only [completes, List.append_nil] at e5
  obtain ⟨n', rfl, f1, f2⟩ := e1
  simp only [MQ.run, MQ.step] at e2
  split at e2
  · cases e2
  · rename_i y hy
    split at hy <;> cases hy
    rename_i hn'
    cases e2
    have hne : n' = n := take_bytes_inj (fun m hm => h2.ne m (by simp [hm])) (Nat.le_trans hn' hk.1) (Nat.le_trans hn hk.1)
      (f1.symm.trans hb)
    subst hne
    simp only [arrived, List.filterMap_cons, List.filterMap_nil, List.append_nil] at e4
    rw [e4] at e5
    have := List.append_cancel_left e5
    subst this
    refine ⟨g', done', h3, ?_⟩
    rw [List.map_drop]
    exact e3

theorem BRel.canDelete (h : BRel N sites s q held kls) (ha : s.act .tso N .canDelete = some s') :
    BRel N sites s' q held kls ∧ (s'.cc = .freed → q = []) := by
  obtain ⟨g, done, h1, h2⟩ := h
  obtain ⟨g', h3⟩ := act_inv h1 ha
  obtain ⟨es, x', done', later', e1, e2, e3, e4, e5⟩ := h2.step h1 ha (fun _ _ => .inl rfl) trivial
  simp only [completes, List.append_nil] at e5
  have key : x' = ⟨q.map (img sites), held⟩ ∧ arrived es = [] ∧ (s'.cc = .freed → q = []) := by
    simp only [QShows] at e1
    split at e1
    · subst e1
      simp only [MQ.run, MQ.step] at e2
      split at e2
      · cases e2
      · rename_i y hy
        split at hy <;> cases hy
        rename_i hq
        cases e2
        exact ⟨rfl, rfl, fun _ => List.map_eq_nil_iff.1 hq⟩
    · rename_i hcc
      subst e1
      cases e2
      exact ⟨rfl, rfl, fun h => absurd h (by intro h; exact hcc h)⟩
  obtain ⟨rfl, f1, f2⟩ := key
  rw [f1, List.append_nil] at e4
  have := List.append_cancel_right e4
  subst this
  have := List.append_cancel_left e5
  subst this
  exact ⟨⟨g', done', h3, e3⟩, f2⟩

/-- Messages not yet visible are behind pending stores. -/
theorem BRel.pending (h : BRel N sites s q held kls) (hb : s.buf = []) : kls = [] := by
  obtain ⟨g, done, h1, h2⟩ := h
  have := h2.pend
  rw [hb] at this
  exact List.map_eq_nil_iff.1 this

end

/-- Where the thread is in its staging buffer while it writes a message. -/
def PWr (pc : PPc) (m : List Byte) : Prop :=
  match pc with
  | .idle => True
  | .loop n | .loaded n _ | .wrapping n _ => n = m.length
  | .reserved n f => n = m.length ∧ ∀ i b, f i = some b → m[i]? = some b
  | .exited => False

theorem PWr.step {N : Nat} {s s' : SB} {m : List Byte} (h : PWr s.pc m) {a : Act} (ho : okWrite m.length m a = true)
    (ha : s.act .tso N a = some s') : PWr s'.pc m ∧ s'.pc ≠ .idle ∧ s'.memD = s.memD := by
  cases a <;> simp only [okWrite, Bool.false_eq_true] at ho
  case reserve k =>
    have ho : k = m.length := by simpa using ho
    simp only [SB.act] at ha
    split at ha <;> try cases ha
    split at ha <;> cases ha
    · exact ⟨⟨ho, by simp⟩, by simp, rfl⟩
    · exact ⟨ho, by simp, rfl⟩
  case pstep =>
    simp only [SB.act] at ha
    split at ha <;> try cases ha
    all_goals rename_i hpc
    all_goals rw [hpc] at h
    · split at ha <;> cases ha
      · exact ⟨h, by simp, rfl⟩
      · exact ⟨⟨h, by simp⟩, by simp, rfl⟩
    · split at ha
      · split at ha <;> cases ha
        · exact ⟨⟨h, by simp⟩, by simp, rfl⟩
        · exact ⟨h, by simp, rfl⟩
      · cases ha; exact ⟨h, by simp, rfl⟩
    · split at ha <;> cases ha
      · exact ⟨h, by simp, rfl⟩
      · exact ⟨h, by simp, rfl⟩
  case put i b =>
    have ho : m[i]? = some b := by simpa using ho
    simp only [SB.act] at ha
    split at ha <;> try cases ha
    rename_i n f hpc
    rw [hpc] at h
    split at ha <;> cases ha
    refine ⟨⟨h.1, fun j b' hj => ?_⟩, by simp, rfl⟩
    dsimp only at hj
    split at hj
    · rename_i hji; subst hji; cases hj; exact ho
    · exact h.2 j b' hj

theorem imageBytes_of {f : Nat → Option Byte} {m : List Byte} (hf : ∀ i b, f i = some b → m[i]? = some b) {n : Nat}
    (hn : n ≤ m.length) {bs : List Byte} (h : imageBytes f n = some bs) : bs = m.take n := by
  induction n generalizing bs with
  | zero => unfold imageBytes at h; simp at h; subst h; simp
  | succ n ih =>
    unfold imageBytes at h ih
    rw [List.range_succ, List.mapM_append] at h
    cases h1 : (List.range n).mapM f with
    | none => rw [h1] at h; cases h
    | some b1 =>
      rw [h1] at h
      have := ih (by omega) h1
      subst this
      cases h2 : f n with
      | none => simp [h2] at h
      | some b =>
        simp [h2] at h
        subst h
        have h3 := hf n b h2
        rw [List.take_add_one, h3]
        rfl

theorem PWr.finish {N : Nat} {s s' : SB} {m : List Byte} (h : PWr s.pc m)
    (ha : s.act .tso N (.finish m.length) = some s') :
    s'.pub.drop s.pub.length = m ∧ s'.pc = .idle ∧ s'.pp = s.pp + m.length ∧ s'.memD = s.memD := by
  simp only [SB.act] at ha
  split at ha <;> try cases ha
  rename_i n f hpc
  rw [hpc] at h
  obtain ⟨rfl, hf⟩ := h
  split at ha <;> try cases ha
  split at ha <;> cases ha
  rename_i bs hb
  have := imageBytes_of hf (Nat.le_refl _) hb
  rw [List.take_length] at this
  subst this
  exact ⟨by simp, rfl, rfl, rfl⟩

/-! ## One thread -/

/-- Where the thread is in the other model, if it has no finished calls left there. -/
def aim (ct : Thr) (memD : Bool) : TPc := if ct.pc = .exited ∧ ct.bid ≠ none ∧ memD = false then .idle else ct.pc

/-- Where the thread is in its staging buffer. -/
def PRel (sites : List Site) (ct : Thr) (pc : PPc) : Prop :=
  match ct.pc with
  | .write m => PWr pc (img sites m)
  | .exited => if ct.bid = none then pc = .idle else pc = .exited
  | _ => pc = .idle

/-- `ct` and its staging buffer `s` here, `ta` in the other model, where it is about to make the first call of `kls`
visible; the others of `kls`, and the one it is working on here (`r`, `τ`), have not begun there. -/
structure TRel (cfg : Config) (prog : List Site) (ids : Nat → Option Nat) (sites : List Site) (s : SB) (ct ta : Thr)
    (held : Nat) (kls : List (Nat × LogCall)) (r : List (Nat × List Arg)) (τ : List Nat) : Prop where
  buf : BRel cfg.staging sites s ta.q held kls
  valid : ∀ c ∈ ta.q, c.id < sites.length
  kl : ∀ p ∈ kls, Known cfg prog ids sites p.1 p.2
  prel : PRel sites ct s.pc
  pp0 : s.pc = .idle ∨ s.pc = .exited → s.pp = 0 → s.pub = []
  pcr : PcRec cfg prog ids sites ct.pc r τ
  sync : kls = [] → ta.pc = aim ct s.memD
  lag : ∀ p rest, kls = p :: rest → ta.pc = .write p.2 ∧ ct.pc.lags = true ∧ ct.bid ≠ none
  bid : ta.bid = ct.bid
  freed : ta.freed = ct.freed
  dealloc : ta.dealloc = s.memD

/-- What the other model has yet to record. -/
def lagR (kls : List (Nat × LogCall)) (r : List (Nat × List Arg)) : List (Nat × List Arg) :=
  match kls with
  | [] => []
  | _ :: rest => (rest.map fun p => (p.1, p.2.args)) ++ r

/-- Time stamps that have yet to be taken there. -/
def lagT (kls : List (Nat × LogCall)) (τ : List Nat) : List Nat :=
  match kls with
  | [] => []
  | _ :: rest => (rest.map fun p => p.2.ts) ++ τ

structure ObsRel (prog : List Site) (t : Nat) (cls : List CLbl) (als : List Lbl) (kls : List (Nat × LogCall))
    (r : List (Nat × List Arg)) (τ : List Nat) : Prop where
  rcd : mustRecord prog t (calls cls) = mustRecord prog t als ++ lagR kls r
  st : stamps t (calls cls) = stamps t als ++ lagT kls τ
  ret : finished t cls = returned t als + kls.length

/-- Where the background thread is. -/
structure CcRel (c : Cr) (G : Ov) (held : Nat → Nat) : Prop where
  tgt : ∀ t, c.tgt = some t → c.rt.pc = .scan ∧ c.rt.full = false ∧ c.rt.bufs[c.rt.i]? = some t ∧
    ∃ p v, ((c.sb t).cc = .loaded p v ∨ (c.sb t).cc = .rolled p v) ∧
      (v = (c.sb t).got.length → G.pc = .check ∧ G.cur = t) ∧
      (v ≠ (c.sb t).got.length → G.pc = .scan)
  none : c.tgt = none → G.pc = c.rt.pc ∧ (c.rt.pc = .encode ∨ c.rt.pc = .check → G.cur = c.rt.cur)
  enc : c.rt.pc = .encode → (∃ av view, (c.sb c.rt.cur).cc = .holding av view) ∧ G.rem = held c.rt.cur
  check : c.rt.pc = .check → (∃ view, (c.sb c.rt.cur).cc = .holding 0 view) ∨ (c.sb c.rt.cur).cc = .dead

/-- `als` leads from the initial state `s0` to `s`. -/
structure RtFrom (s0 : Rt) (cfg : Config) (prog : List Site) (als : List Lbl) (s : Rt) : Prop where
  start : RtExec cfg prog [] s0
  ok : ∀ l ∈ als, l.OK cfg prog
  run : s0.run cfg prog als = .ok s

theorem RtFrom.rt {s0 : Rt} {cfg : Config} {prog : List Site} {als : List Lbl} {s : Rt} (h : RtFrom s0 cfg prog als s) :
    RtExec cfg prog als s := h.start.append h.ok h.run

theorem RtFrom.inv {s0 : Rt} {cfg : Config} {prog : List Site} (hP : ProgOK cfg prog) {als : List Lbl} {s : Rt}
    (h : RtFrom s0 cfg prog als s) : RtInv s ∧ FInv cfg prog s := h.rt.inv hP

theorem RtFrom.append {s0 : Rt} {cfg : Config} {prog : List Site} {als : List Lbl} {s : Rt} (h : RtFrom s0 cfg prog als s)
    {bls : List Lbl} (ho : ∀ l ∈ bls, l.OK cfg prog) {s' : Rt} (hr : s.run cfg prog bls = .ok s') :
    RtFrom s0 cfg prog (als ++ bls) s' := by
  refine ⟨h.start, fun l hl => ?_, ?_⟩
  · rcases List.mem_append.1 hl with hl | hl
    · exact h.ok l hl
    · exact ho l hl
  · rw [rtRun_append, h.run]
    exact hr

structure CRel (s0 : Rt) (cfg : Config) (prog : List Site) (cls : List CLbl) (c : Cr) (als : List Lbl) (G : Ov)
    (kls : Nat → List (Nat × LogCall)) (r : Nat → List (Nat × List Arg)) (τ : Nat → List Nat) (held : Nat → Nat) :
    Prop where
  exec : RtFrom s0 cfg prog als (c.rt.over G)
  closed : G.closed.map (·.1) = c.rt.closed.map (·.1)
  level : c.rt.level = levelAfter (calls cls)
  alloc : allocs als = allocs (calls cls)
  exits : ∀ u, .exitThread u ∈ als → .exit u ∈ cls
  exitd : ∀ u, (c.rt.thr u).pc = .exited → .exit u ∈ cls
  cc : CcRel c G held
  thr : ∀ t, TRel cfg prog c.rt.ids c.rt.sites (c.sb t) (c.rt.thr t) (G.thr t) (held t) (kls t) (r t) (τ t)
  obs : ∀ t, ObsRel prog t cls als (kls t) (r t) (τ t)

/-- The steps `als` of the other model stand for `cls` here. -/
def CSim (s0 : Rt) (cfg : Config) (prog : List Site) (cls : List CLbl) (c : Cr) (als : List Lbl) : Prop :=
  ∃ G kls r τ held, CRel s0 cfg prog cls c als G kls r τ held

section
variable {s0 : Rt} {cfg : Config} {prog : List Site} {cls : List CLbl} {c c' : Cr} {als : List Lbl} {G G' : Ov}
  {kls : Nat → List (Nat × LogCall)} {r : Nat → List (Nat × List Arg)} {τ : Nat → List Nat} {held : Nat → Nat}

theorem CRel.levelA (h : CRel s0 cfg prog cls c als G kls r τ held) : levelAfter als = c.rt.level :=
  ((C33_level h.exec.rt).1).symm

theorem CRel.locked (h : CRel s0 cfg prog cls c als G kls r τ held) : (c.rt.over G).bufLocked = c.rt.bufLocked := by
  have hc := h.cc
  unfold Rt.bufLocked
  rw [show (c.rt.over G).pc = G.pc from rfl]
  cases ht : c.tgt with
  | none => rw [(hc.none ht).1]
  | some t =>
    obtain ⟨h1, h2, h3, p, v, h4, h5, h6⟩ := hc.tgt t ht
    rw [h1]
    by_cases hv : v = (c.sb t).got.length
    · rw [(h5 hv).1]; rfl
    · rw [h6 hv]

theorem TRel.mono {ids ids' : Nat → Option Nat} {sites sites' : List Site} {s : SB} {ct ta : Thr} {hd : Nat}
    {k : List (Nat × LogCall)} {r : List (Nat × List Arg)} {τ : List Nat}
    (h : TRel cfg prog ids sites s ct ta hd k r τ) (hg : Grows ids ids' sites sites') :
    TRel cfg prog ids' sites' s ct ta hd k r τ := by
  have hlt : ∀ {k c}, Known cfg prog ids sites k c → c.id < sites.length := by
    intro k c hk
    obtain ⟨-, -, site, -, h4, -⟩ := hk
    by_contra hc; rw [List.getElem?_eq_none (by omega)] at h4; cases h4
  obtain ⟨new, hnew⟩ := hg.2
  refine { h with buf := ?_, valid := ?_, kl := fun p hp => (h.kl p hp).mono hg, prel := ?_, pcr := h.pcr.mono hg }
  · rw [hnew]; exact h.buf.mono h.valid (fun p hp => hlt (h.kl p hp)) new
  · intro c hc
    have := h.valid c hc
    rw [hnew, List.length_append]; omega
  · have hp := h.prel
    have hr := h.pcr
    unfold PRel at hp ⊢
    split at hp
    · rename_i m hm
      rw [hm] at hr
      obtain ⟨k, -, -, hk⟩ := hr
      rw [hnew, img_mono (hlt hk)]
      exact hp
    · exact hp
    · exact hp

/-- One thread changes, in both models. -/
theorem CRel.upd (h : CRel s0 cfg prog cls c als G kls r τ held) (t : Nat) {cls' : List CLbl} {als' : List Lbl}
    {k' : List (Nat × LogCall)} {r' : List (Nat × List Arg)} {τ' : List Nat} {held' : Nat}
    (hexec : RtFrom s0 cfg prog als' (c'.rt.over G')) (hclosed : G'.closed.map (·.1) = c'.rt.closed.map (·.1))
    (hlevel : c'.rt.level = levelAfter (calls cls')) (halloc : allocs als' = allocs (calls cls'))
    (hexits : ∀ u, .exitThread u ∈ als' → .exit u ∈ cls')
    (hexitd : ∀ u, (c'.rt.thr u).pc = .exited → .exit u ∈ cls')
    (hcc : CcRel c' G' (NanoLog.upd held t held'))
    (hids : Grows c.rt.ids c'.rt.ids c.rt.sites c'.rt.sites)
    (hsb : ∀ u, u ≠ t → c'.sb u = c.sb u) (hthr : ∀ u, u ≠ t → c'.rt.thr u = c.rt.thr u)
    (hG : ∀ u, u ≠ t → G'.thr u = G.thr u)
    (hT : TRel cfg prog c'.rt.ids c'.rt.sites (c'.sb t) (c'.rt.thr t) (G'.thr t) held' k' r' τ')
    (hO : ObsRel prog t cls' als' k' r' τ') (hO' : ∀ u, u ≠ t → ObsRel prog u cls' als' (kls u) (r u) (τ u)) :
    CSim s0 cfg prog cls' c' als' := by
  refine ⟨G', NanoLog.upd kls t k', NanoLog.upd r t r', NanoLog.upd τ t τ', NanoLog.upd held t held', hexec, hclosed, hlevel,
    halloc, hexits, hexitd, hcc, ?_, ?_⟩
  · intro u
    by_cases hu : u = t
    · subst hu; simp only [upd_same]; exact hT
    · simp only [upd_other _ _ hu]
      rw [hsb u hu, hthr u hu, hG u hu]
      exact (h.thr u).mono hids
  · intro u
    by_cases hu : u = t
    · subst hu; simp only [upd_same]; exact hO
    · simp only [upd_other _ _ hu]
      exact hO' u hu

/-- Steps in the staging buffers. -/
theorem ObsRel.silent {t : Nat} {k : List (Nat × LogCall)} {r : List (Nat × List Arg)} {τ : List Nat}
    (h : ObsRel prog t cls als k r τ) {l : CLbl} (h1 : ∀ m, l ≠ .rt m) (h2 : l ≠ .finish t) :
    ObsRel prog t (cls ++ [l]) als k r τ := by
  refine ⟨by rw [calls_snoc_other _ h1]; exact h.rcd, by rw [calls_snoc_other _ h1]; exact h.st, ?_⟩
  rw [finished_snoc, h.ret]
  cases l <;> try rfl
  rename_i u
  have : u ≠ t := fun e => h2 (by rw [e])
  simp [this]

/-- Steps of the other model that add nothing. -/
theorem ObsRel.adds {t : Nat} {k : List (Nat × LogCall)} {r : List (Nat × List Arg)} {τ : List Nat}
    (h : ObsRel prog t cls als k r τ) {bls : List Lbl} {lv lv' : Int} {r0 : Nat → List (Nat × List Arg)}
    {τ0 : Nat → List Nat} {n0 : Nat → Nat} {a0 : Nat} (hA : Adds prog bls lv lv' r0 τ0 n0 a0) (hlv : levelAfter als = lv)
    (e1 : r0 t = []) (e2 : τ0 t = []) (e3 : n0 t = 0) : ObsRel prog t cls (als ++ bls) k r τ := by
  obtain ⟨-, -, h3⟩ := hA.obs als hlv
  obtain ⟨f1, f2, f3⟩ := h3 t
  rw [e1, List.append_nil] at f1
  rw [e2, List.append_nil] at f2
  rw [e3, Nat.add_zero] at f3
  exact ⟨by rw [f1]; exact h.rcd, by rw [f2]; exact h.st, by rw [f3]; exact h.ret⟩

/-- The same step in both models. -/
theorem ObsRel.both {t : Nat} {k : List (Nat × LogCall)} {r : List (Nat × List Arg)} {τ : List Nat}
    (h : ObsRel prog t cls als k r τ) {l : Lbl} (hlv : levelAfter als = levelAfter (calls cls))
    (hc : isCommit t l = false) (hk : k = [] ∨ recOf prog t (levelAfter als) l = [] ∧ stampOf t l = [])
    {r' : List (Nat × List Arg)} {τ' : List Nat} (hk' : k = [] ∨ r' = r ∧ τ' = τ) :
    ObsRel prog t (cls ++ [.rt l]) (als ++ [l]) k r' τ' := by
  obtain ⟨h1, h2, h3⟩ := h
  refine ⟨?_, ?_, ?_⟩
  · rw [calls_snoc_rt, mustRecord_snoc, mustRecord_snoc, h1, hlv]
    rcases hk with rfl | ⟨e, -⟩
    · simp [lagR]
    · rcases hk' with rfl | ⟨rfl, rfl⟩
      · simp [lagR]
      · rw [hlv] at e; simp [e]
  · rw [calls_snoc_rt, stamps_snoc, stamps_snoc, h2]
    rcases hk with rfl | ⟨-, e⟩
    · simp [lagT]
    · rcases hk' with rfl | ⟨rfl, rfl⟩
      · simp [lagT]
      · simp [e]
  · rw [finished_snoc_rt, returned_snoc, hc, h3]; rfl

/-- A step here only. -/
theorem ObsRel.ahead {t : Nat} {k : List (Nat × LogCall)} {r : List (Nat × List Arg)} {τ : List Nat}
    (h : ObsRel prog t cls als k r τ) (hk : k ≠ []) (l : Lbl) :
    ObsRel prog t (cls ++ [.rt l]) als k (r ++ recOf prog t (levelAfter (calls cls)) l) (τ ++ stampOf t l) := by
  obtain ⟨h1, h2, h3⟩ := h
  cases k with
  | nil => exact absurd rfl hk
  | cons p rest =>
    refine ⟨?_, ?_, ?_⟩
    · rw [calls_snoc_rt, mustRecord_snoc, h1]; simp [lagR]
    · rw [calls_snoc_rt, stamps_snoc, h2]; simp [lagT]
    · rw [finished_snoc_rt, h3]

theorem recOf_other {t u : Nat} (hu : u ≠ t) {l : Lbl} (hl : l.ofThr = some t) (lv : Int) :
    recOf prog u lv l = [] ∧ stampOf u l = [] := by
  cases l <;> simp only [Lbl.ofThr, Option.some.injEq] at hl <;> try exact ⟨rfl, rfl⟩
  · subst hl
    refine ⟨?_, rfl⟩
    simp only [recOf, recordStep]
    split
    · rw [if_neg (by rintro ⟨h, -⟩; exact hu h.symm)]
    · rfl
  · subst hl
    refine ⟨rfl, ?_⟩
    simp only [stampOf]
    rw [if_neg (fun h => hu h.symm)]

end

end NanoLog
