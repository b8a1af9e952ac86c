import Verif.Composed
import Verif.StagingQueue
import Verif.RuntimeTrace
import Verif.Props.RuntimeSync
import Verif.RuntimeRun

/-! The runtime with its staging buffers byte by byte behaves like the runtime with queues of messages: the relation
between the two, and steps of a staging buffer. -/

namespace NanoLog

/-! ## Steps of a staging buffer -/

/-- Steps that stand for no event. -/
theorem QRel.quiet {mm : MemModel} {N : Nat} {s s' : SB} {g : Ghost} (hI : SInv mm N s g) {x : MQ}
    {done later : List (List Byte)} (h : QRel s x done later) {a : Act} (ha : s.act mm N a = some s')
    (hs : ∀ es, QShows s a s' x es → es = []) (hd : a ≠ .canDelete) (hw : a.Whole x) :
    QRel s' x done (later ++ completes s a s') := by
  obtain ⟨es, x', done', later', h1, h2, h3, h4, h5⟩ := h.step hI ha (fun h => absurd h hd) hw
  have := hs es h1
  subst this
  cases h2
  rw [nothing_arrived, List.append_nil] at h4
  have := List.append_cancel_right h4
  subst this
  rw [List.append_assoc (done' ++ x.q)] at h5
  have := List.append_cancel_left h5
  subst this
  exact h3

/-- The end of `peek`: something was found unless all the visible bytes were consumed. -/
theorem cstep_avail {mm : MemModel} {N : Nat} {s s' : SB} {g : Ghost} (hI : SInv mm N s g) {p v : Nat}
    (hcc : s.cc = .loaded p v ∨ s.cc = .rolled p v) (ha : s.act mm N .cstep = some s') :
    s'.got = s.got ∧ (s'.cc = .rolled p v ∨ ∃ avail, s'.cc = .holding avail (fun _ => none) ∧
      (avail = 0 ↔ v = s.got.length)) := by
  have hcore := hI.core
  have hc := hI.c
  have hmaxN := hcore.maxN
  have hvN := hcore.vlim_lt
  have hcpv := hcore.cpv
  have hgot : s.got.length = g.base.length + (if g.c then g.old.length + s.cp else s.cp) := by
    rw [hcore.got]
    cases hct : g.c with
    | true =>
      have := hcore.cp_pp hct
      have := hcore.pp
      simp; omega
    | false =>
      have := hcore.cp_old hct
      simp; omega
  simp only [SB.act] at ha
  rcases hcc with hcc | hcc
  · rw [hcc] at ha
    simp only [CInv, hcc] at hc
    dsimp only at ha
    split at ha
    · rename_i hlt
      obtain ⟨hcf, hmt, hpm, hv2⟩ := hc.1 hlt
      have hE : s.memE = g.old.length := by
        have := hcore.endE hcf
        have hpa := hcore.path
        rw [hcf, hmt] at hpa
        rwa [applyAll_memE_none _ hpa.no_setE] at this
      have hco := hcore.cp_old hcf
      have hoN := hcore.oldN
      rw [wsub_eq (hE ▸ hco) (by omega)] at ha
      simp only [hcf, Bool.false_eq_true, if_false] at hgot
      split at ha
      · rename_i hpos
        cases ha
        refine ⟨rfl, .inr ⟨_, rfl, ?_⟩⟩
        omega
      · cases ha; exact ⟨rfl, .inl rfl⟩
    · rename_i hge
      obtain ⟨h1, h2⟩ := hc.2 (by omega)
      rw [wsub_eq (by omega) (by omega)] at ha
      cases ha
      refine ⟨rfl, .inr ⟨_, rfl, ?_⟩⟩
      cases hct : g.c <;> simp only [hct, Bool.false_eq_true, if_false, if_true] at h2 hgot <;> omega
  · rw [hcc] at ha
    simp only [CInv, hcc] at hc
    dsimp only at ha
    obtain ⟨h1, h2, h3, h4⟩ := hc
    have hcp := hcore.cp_pp h1
    have hpp := hcore.ppN
    rw [wsub_eq (by omega) (by omega)] at ha
    cases ha
    simp only [h1, if_true] at hgot
    refine ⟨rfl, .inr ⟨_, rfl, ?_⟩⟩
    omega

/-- The bytes looked at are those of the messages the reader holds. -/
theorem QRel.viewed {mm : MemModel} {N : Nat} {s : SB} {g : Ghost} (hI : SInv mm N s g) {x : MQ}
    {done later : List (List Byte)} (h : QRel s x done later) {avail : Nat} {view : Nat → Option Byte}
    (hcc : s.cc = .holding avail view) {bs : List Byte} (hb : imageBytes view avail = some bs) :
    bs = (x.q.take x.held).flatten := by
  have hk := h.cc
  rw [hcc] at hk
  have ha : s.act mm N (.consume avail) = some { s with
      cbuf := s.cbuf ++ [s.cp + avail], cp := s.cp + avail
      cc := .holding (avail - avail) fun j => view (j + avail)
      got := s.got ++ bs } := by simp [SB.act, hcc, hb]
  obtain ⟨es, x', done', later', h1, h2, -⟩ := h.step hI ha (fun h => by cases h) ⟨x.held, Nat.le_refl _, hk.2⟩
  obtain ⟨n, rfl, e1, e2⟩ := h1
  have e2 := List.append_cancel_left e2
  have hn : n ≤ x.held := by
    simp only [MQ.run, MQ.step] at h2
    split at h2
    · cases h2
    · rename_i h5; split at h5
      · assumption
      · cases h5
  have := take_bytes_inj (fun m hm => h.ne m (by simp [hm])) (Nat.le_trans hn hk.1) hk.1 (e1.symm.trans hk.2)
  rw [e2, this]

/-- `imageBytes` of a shorter piece. -/
theorem imageBytes_le {f : Nat → Option Byte} {n m : Nat} {bs : List Byte} (h : imageBytes f n = some bs)
    (hm : m ≤ n) : ∃ bs', imageBytes f m = some bs' := by
  induction n generalizing bs with
  | zero => have : m = 0 := by omega
            subst this; exact ⟨_, h⟩
  | succ n ih =>
    by_cases he : m = n + 1
    · subst he; exact ⟨_, h⟩
    · unfold imageBytes at h ih
      rw [List.range_succ, List.mapM_append] at h
      cases h1 : (List.range n).mapM f with
      | none => rw [h1] at h; cases h
      | some b1 => exact ih h1 (by omega)

/-- Bytes of the messages still held, after some of them were consumed. -/
theorem msgLen_held {q : List (List Byte)} {n h : Nat} (hn : n ≤ h) :
    msgLen (q.take h) = msgLen (q.take n) + msgLen ((q.drop n).take (h - n)) := by
  rw [← msgLen_append, ← List.take_append_drop n (q.take h), List.take_take, Nat.min_eq_left hn, List.drop_take]

/-- A thread has ended, and its buffer cannot be deleted because positions differ: there is a message in it. -/
theorem QRel.dead_ne {N : Nat} {s : SB} {g : Ghost} (hI : SInv .tso N s g) {x : MQ}
    {done later : List (List Byte)} (h : QRel s x done later) (hcc : s.cc = .dead) (hne : s.cp ≠ s.memP)
    (h0 : s.pc = .exited → s.pp = 0 → s.pub = []) : x.q ≠ [] := by
  intro hq
  have hcore := hI.core
  have hD : s.memD = true := by have := hI.c; simpa only [CInv, hcc] using this
  have hd := hI.d.1
  have hpc : s.pc = .exited ∧ s.buf = [] := by
    cases hpc : s.pc with
    | exited =>
      rw [hpc] at hd
      rcases hd rfl with ⟨-, hb⟩ | ⟨hb, -⟩
      · exact ⟨rfl, hb⟩
      · rw [hD] at hb; cases hb
    | _ => rw [hpc] at hd; rw [hD] at hd; cases hd.1
  obtain ⟨hpc, hb⟩ := hpc
  have hpath := hcore.path
  rw [hb] at hpath
  obtain ⟨hm, hpp⟩ : g.m = true ∧ s.memP = s.pp := hpath
  have hl : later = [] := by have := h.pend; rw [hb] at this; exact this
  have hgp : s.got = s.pub := by rw [h.got, h.pub, hq, hl]; simp
  have hgl := congrArg List.length hgp
  rw [hcore.got, hcore.pub] at hgl
  cases hct : g.c with
  | true =>
    have h1 := hcore.cp_pp hct
    have h2 := hcore.pp
    simp only [hct, if_true, List.length_append, List.length_take] at hgl
    omega
  | false =>
    have h1 := hcore.cp_old hct
    have h2 := hcore.pp
    simp only [hct, Bool.false_eq_true, if_false, List.length_append, List.length_take] at hgl
    have h3 := congrArg List.length (h0 hpc (by omega))
    rw [hcore.pub] at h3
    simp only [List.length_append, List.length_nil] at h3
    have := hcore.ahead hct
    omega

/-! ## The overlay: what differs between the two states -/

structure Ov where
  thr : Nat → Thr
  rem : Nat
  closed : List (List Byte × List (Nat × LogCall))
  gD : List (Nat × LogCall)
  gO : List (Nat × LogCall)
  gB : List (Nat × LogCall)
  pc : BPc
  cur : Nat

/-- `s` with the variables of `G`. -/
def Rt.over (s : Rt) (G : Ov) : Rt :=
  { s with thr := G.thr, rem := G.rem, closed := G.closed, gD := G.gD, gO := G.gO, gB := G.gB, pc := G.pc,
           cur := G.cur }

/-- The thread of a step of an application thread that is the same in both models. -/
def Lbl.ofThr : Lbl → Option Nat
  | .call t _ _ | .readId t _ | .register t | .stamp t _ | .reserve t | .preallocate t | .takeId t | .push t
  | .sync t | .spurious t | .ret t | .setFile t _ | .stop t => some t
  | _ => none

theorem thr_eta (f : Nat → Thr) (t : Nat) : upd f t { f t with pc := (f t).pc, bid := (f t).bid } = f := by
  funext u
  by_cases hu : u = t
  · subst hu; rw [upd_same]
  · rw [upd_other _ _ hu]

/-- Such a step, in both models. -/
theorem act_thr_over {cfg : Config} {prog : List Site} {s r : Rt} {l : Lbl} {t : Nat} (hl : l.ofThr = some t)
    (ha : s.act cfg prog l = .ok r) {G : Ov} (hp : (G.thr t).pc = (s.thr t).pc) (hb : (G.thr t).bid = (s.thr t).bid)
    (hk : (s.over G).bufLocked = s.bufLocked) :
    ∃ pc bid, r.thr = upd s.thr t { s.thr t with pc := pc, bid := bid } ∧
      (s.over G).act cfg prog l = .ok (r.over { G with thr := upd G.thr t { G.thr t with pc := pc, bid := bid } }) ∧
      r.pc = s.pc ∧ r.cur = s.cur ∧ r.i = s.i ∧ r.full = s.full ∧ r.closed = s.closed ∧ r.disk = s.disk := by
  have same : r = s → (s.over G).act cfg prog l = .ok (s.over G) → ∃ pc bid,
      r.thr = upd s.thr t { s.thr t with pc := pc, bid := bid } ∧
      (s.over G).act cfg prog l = .ok (r.over { G with thr := upd G.thr t { G.thr t with pc := pc, bid := bid } }) ∧
      r.pc = s.pc ∧ r.cur = s.cur ∧ r.i = s.i ∧ r.full = s.full ∧ r.closed = s.closed ∧ r.disk = s.disk := by
    rintro rfl h
    refine ⟨(r.thr t).pc, (r.thr t).bid, (thr_eta _ _).symm, ?_, rfl, rfl, rfl, rfl, rfl, rfl⟩
    rw [← hp, ← hb, thr_eta]
    exact h
  have ho : ((s.over G).thr t) = G.thr t := rfl
  cases l <;> simp only [Lbl.ofThr] at hl
  case commit | exitThread | setLevel | join | top | dict | peek | check | encode | scanned | aio | aioDone | write | disk => cases hl
  case call t k args =>
    simp only [Option.some.injEq] at hl
    subst hl
    simp only [Rt.act, Rt.actLog, Rt.actBuf, Rt.actCtl] at ha
    split at ha <;> try cases ha
    rename_i hpc hk'
    split at ha <;> cases ha
    · rename_i hsev
      refine same rfl ?_
      simp only [Rt.act, Rt.actLog, ho, hp, hpc, hk']
      exact if_pos hsev
    · rename_i hsev
      refine ⟨.called k args, (s.thr t).bid, rfl, ?_, rfl, rfl, rfl, rfl, rfl, rfl⟩
      simp only [Rt.act, Rt.actLog, ho, hp, hpc, hk']
      rw [show (s.over G).level = s.level from rfl, if_neg hsev, ← hb]
      rfl
  case readId t stale =>
    simp only [Option.some.injEq] at hl
    subst hl
    simp only [Rt.act, Rt.actLog, Rt.actBuf, Rt.actCtl] at ha
    split at ha <;> try cases ha
    rename_i k args hpc
    split at ha <;> cases ha
    · rename_i hid
      refine ⟨_, (s.thr t).bid, rfl, ?_, rfl, rfl, rfl, rfl, rfl, rfl⟩
      simp only [Rt.act, Rt.actLog, ho, hp, hpc]
      rw [show (s.over G).ids k = none from hid, ← hb]
      rfl
    · rename_i id hid
      refine ⟨_, (s.thr t).bid, rfl, ?_, rfl, rfl, rfl, rfl, rfl, rfl⟩
      simp only [Rt.act, Rt.actLog, ho, hp, hpc]
      rw [show (s.over G).ids k = some id from hid, ← hb]
      rfl
  case register t =>
    simp only [Option.some.injEq] at hl
    subst hl
    simp only [Rt.act, Rt.actLog, Rt.actBuf, Rt.actCtl] at ha
    split at ha <;> try cases ha
    rename_i k args hpc
    split at ha <;> cases ha
    · rename_i id hid
      refine ⟨_, (s.thr t).bid, rfl, ?_, rfl, rfl, rfl, rfl, rfl, rfl⟩
      simp only [Rt.act, Rt.actLog, ho, hp, hpc]
      rw [show (s.over G).ids k = some id from hid, ← hb]
      rfl
    · rename_i hid hk'
      refine ⟨_, (s.thr t).bid, rfl, ?_, rfl, rfl, rfl, rfl, rfl, rfl⟩
      simp only [Rt.act, Rt.actLog, ho, hp, hpc]
      rw [show (s.over G).ids k = none from hid, ← hb, hk']
      rfl
  case stamp t ts =>
    simp only [Option.some.injEq] at hl
    subst hl
    simp only [Rt.act, Rt.actLog, Rt.actBuf, Rt.actCtl] at ha
    split at ha <;> try cases ha
    rename_i id args hpc
    refine ⟨_, (s.thr t).bid, rfl, ?_, rfl, rfl, rfl, rfl, rfl, rfl⟩
    simp only [Rt.act, Rt.actLog, ho, hp, hpc]
    rw [← hb]
    rfl
  case reserve t =>
    simp only [Option.some.injEq] at hl
    subst hl
    simp only [Rt.act, Rt.actLog, Rt.actBuf, Rt.actCtl] at ha
    split at ha <;> try cases ha
    rename_i c hpc
    refine ⟨_, (s.thr t).bid, rfl, ?_, rfl, rfl, rfl, rfl, rfl, rfl⟩
    simp only [Rt.act, Rt.actLog, ho, hp, hpc]
    rw [← hb]
    rfl
  case preallocate t =>
    simp only [Option.some.injEq] at hl
    subst hl
    simp only [Rt.act, Rt.actLog, Rt.actBuf, Rt.actCtl] at ha
    split at ha <;> try cases ha
    rename_i hpc
    split at ha <;> cases ha
    · rename_i hn
      refine ⟨_, (s.thr t).bid, rfl, ?_, rfl, rfl, rfl, rfl, rfl, rfl⟩
      simp only [Rt.act, Rt.actBuf, ho, hp, hpc, hb]
      rw [if_pos hn, ← hb]
      rfl
    · rename_i hn
      refine same rfl ?_
      simp only [Rt.act, Rt.actBuf, ho, hp, hpc, hb]
      exact if_neg hn
  case takeId t =>
    simp only [Option.some.injEq] at hl
    subst hl
    simp only [Rt.act, Rt.actLog, Rt.actBuf, Rt.actCtl] at ha
    split at ha <;> try cases ha
    rename_i c hpc
    split at ha <;> cases ha
    rename_i hn
    refine ⟨.push c, some s.nextId, rfl, ?_, rfl, rfl, rfl, rfl, rfl, rfl⟩
    simp only [Rt.act, Rt.actBuf, ho, hp, hpc]
    rw [hk, if_neg hn]
    rfl
  case push t =>
    simp only [Option.some.injEq] at hl
    subst hl
    simp only [Rt.act, Rt.actLog, Rt.actBuf, Rt.actCtl] at ha
    split at ha <;> try cases ha
    rename_i c hpc
    split at ha <;> cases ha
    rename_i hn
    refine ⟨_, (s.thr t).bid, rfl, ?_, rfl, rfl, rfl, rfl, rfl, rfl⟩
    simp only [Rt.act, Rt.actBuf, ho, hp, hpc]
    rw [hk, if_neg hn, ← hb]
    rfl
  case sync t =>
    simp only [Option.some.injEq] at hl
    subst hl
    simp only [Rt.act, Rt.actLog, Rt.actBuf, Rt.actCtl] at ha
    split at ha <;> try cases ha
    rename_i hpc
    refine ⟨_, (s.thr t).bid, rfl, ?_, rfl, rfl, rfl, rfl, rfl, rfl⟩
    simp only [Rt.act, Rt.actCtl, ho, hp, hpc]
    rw [← hb]
    rfl
  case spurious t =>
    simp only [Option.some.injEq] at hl
    subst hl
    simp only [Rt.act, Rt.actLog, Rt.actBuf, Rt.actCtl] at ha
    split at ha <;> try cases ha
    rename_i sw hpc
    refine ⟨_, (s.thr t).bid, rfl, ?_, rfl, rfl, rfl, rfl, rfl, rfl⟩
    simp only [Rt.act, Rt.actCtl, ho, hp, hpc]
    rw [← hb]
    rfl
  case ret t =>
    simp only [Option.some.injEq] at hl
    subst hl
    simp only [Rt.act, Rt.actLog, Rt.actBuf, Rt.actCtl] at ha
    split at ha <;> try cases ha
    rename_i sw hpc
    refine ⟨_, (s.thr t).bid, rfl, ?_, rfl, rfl, rfl, rfl, rfl, rfl⟩
    simp only [Rt.act, Rt.actCtl, ho, hp, hpc]
    rw [← hb]
    rfl
  case setFile t ok =>
    simp only [Option.some.injEq] at hl
    subst hl
    simp only [Rt.act, Rt.actLog, Rt.actBuf, Rt.actCtl] at ha
    split at ha <;> try cases ha
    rename_i hpc
    split at ha <;> cases ha
    · rename_i hn
      refine ⟨_, (s.thr t).bid, rfl, ?_, rfl, rfl, rfl, rfl, rfl, rfl⟩
      simp only [Rt.act, Rt.actCtl, ho, hp, hpc]
      rw [if_pos hn, ← hb]
      rfl
    · rename_i hn
      refine same rfl ?_
      simp only [Rt.act, Rt.actCtl, ho, hp, hpc]
      exact if_neg hn
  case stop t =>
    simp only [Option.some.injEq] at hl
    subst hl
    simp only [Rt.act, Rt.actLog, Rt.actBuf, Rt.actCtl] at ha
    split at ha <;> try cases ha
    rename_i hpc
    refine ⟨_, (s.thr t).bid, rfl, ?_, rfl, rfl, rfl, rfl, rfl, rfl⟩
    simp only [Rt.act, Rt.actCtl, ho, hp, hpc]
    rw [← hb]
    rfl

/-- Steps of the background thread outside of the staging buffers, of the system, and of `setLogLevel`, in both models. -/
theorem act_bg_over {cfg : Config} {prog : List Site} {s r : Rt} {l : Lbl} (hl : l.ofThr = none) (hr : l.replaced = false)
    (ha : s.act cfg prog l = .ok r) {G : Ov}
    (hpc : (∀ n, l ≠ .disk n) → (∀ n, l ≠ .setLevel n) → G.pc = s.pc)
    (hw : ∀ w sw, (s.thr w).pc = .sync sw → (G.thr w).pc = .sync sw)
    (hj : ∀ w, (s.thr w).pc = .join → (G.thr w).pc = .join)
    (hc : G.closed.map (·.1) = s.closed.map (·.1)) :
    ∃ (G' : Ov) (t : Nat) (pc : TPc), r.thr = upd s.thr t { s.thr t with pc := pc } ∧
      G'.thr = upd G.thr t { G.thr t with pc := if (s.thr t).pc = pc then (G.thr t).pc else pc } ∧
      ((s.thr t).pc = pc ∨ (∃ sw, (s.thr t).pc = .sync sw ∧ pc = .woken sw) ∨ (s.thr t).pc = .join ∧ pc = .idle) ∧
      (s.over G).act cfg prog l = .ok (r.over G') ∧ G'.closed.map (·.1) = r.closed.map (·.1) ∧
      r.cur = s.cur ∧ G'.cur = G.cur ∧ G'.rem = G.rem ∧ r.ids = s.ids ∧ r.sites = s.sites ∧ r.bufs = s.bufs ∧
      ((r.pc = s.pc ∧ G'.pc = G.pc ∧ r.i = s.i ∧ r.full = s.full) ∨
        G'.pc = r.pc ∧ s.pc ≠ .check ∧ s.pc ≠ .encode ∧ s.pc ≠ .scan ∧ r.pc ≠ .check ∧ r.pc ≠ .encode) := by
  have eta : ∀ f : Nat → Thr, upd f 0 { f 0 with pc := (f 0).pc } = f := fun f => thr_eta f 0
  have eta2 : ∀ (f : Nat → Thr) (g : Nat → Thr), upd f 0 { f 0 with
      pc := if (g 0).pc = (g 0).pc then (f 0).pc else (g 0).pc } = f := fun f g => by rw [if_pos rfl]; exact eta f
  have notif : ∀ (f : Rt → Rt) (w : Option Nat), (f s).notify w = .ok r → (f s).thr = s.thr → ∀ F : Ov, F.thr = G.thr →
      (∃ sw, (∃ w', w = some w' ∧ (s.thr w').pc = .sync sw ∧ r = (f s).setThr w' { s.thr w' with pc := .woken sw } ∧
        ((f s).over F).notify w = .ok (r.over { F with thr := upd G.thr w' { G.thr w' with pc := .woken sw } }))) ∨
      r = f s ∧ ((f s).over F).notify w = .ok (r.over F) := by
    intro f w h hf F hF
    cases w with
    | none => cases h; exact .inr ⟨rfl, rfl⟩
    | some w =>
      simp only [Rt.notify, hf] at h
      split at h <;> cases h
      rename_i sw hs
      refine .inl ⟨sw, w, rfl, hs, rfl, ?_⟩
      simp only [Rt.notify]
      rw [show (((f s).over F).thr w) = G.thr w from congrFun hF w]
      rw [hw w sw hs]
      simp only [Rt.setThr, Rt.over]
      rw [hF]
  cases l <;> simp only [Lbl.ofThr, Lbl.replaced] at hl hr <;> try cases hl
  all_goals try cases hr
  case setLevel lv =>
    cases ha
    exact ⟨G, 0, (s.thr 0).pc, (eta _).symm, (eta2 _ _).symm, .inl rfl, rfl, hc, rfl, rfl, rfl, rfl, rfl, rfl,
      .inl ⟨rfl, rfl, rfl, rfl⟩⟩
  case disk n =>
    simp only [Rt.act, Rt.actIo] at ha
    split at ha <;> try cases ha
    rename_i a hao
    split at ha <;> try cases ha
    rename_i hle
    split at ha <;> cases ha
    rename_i hlt
    refine ⟨G, 0, (s.thr 0).pc, (eta _).symm, (eta2 _ _).symm, .inl rfl, ?_, hc, rfl, rfl, rfl, rfl, rfl, rfl,
      .inl ⟨rfl, rfl, rfl, rfl⟩⟩
    simp only [Rt.act, Rt.actIo]
    rw [show (s.over G).aio = some a from hao]
    dsimp only
    rw [if_pos hle, show (s.over G).mem = s.mem from rfl, if_neg hlt]
    rfl
  all_goals replace hpc := hpc (by simp) (by simp)
  case join t jk c =>
    simp only [Rt.act, Rt.actCtl] at ha
    split at ha <;> try cases ha
    rename_i ht hd
    split at ha <;> cases ha
    rename_i e _ he
    refine ⟨{ G with thr := upd G.thr t { G.thr t with pc := .idle }, closed := G.closed ++ [(s.disk, G.gD)]
                     gD := [], gO := [], gB := [], pc := .top }, t, .idle, rfl, ?_, .inr (.inr ⟨ht, rfl⟩), ?_, ?_, rfl,
      rfl, rfl, rfl, rfl, rfl, .inr ⟨rfl, by simp [hd], by simp [hd], by simp [hd], by simp, by simp⟩⟩
    · rw [ht, if_neg (by simp)]
    · simp only [Rt.act, Rt.actCtl]
      rw [show ((s.over G).thr t).pc = .join from hj t ht, show (s.over G).pc = .dead from hpc.trans hd]
      dsimp only
      rw [show (s.over G).sites = s.sites from rfl, he]
      rfl
    · simp [hc]
  case top =>
    simp only [Rt.act, Rt.actScan] at ha
    split at ha
    · cases ha
    rename_i hp
    have hp : s.pc = .top := by simpa using hp
    split at ha <;> cases ha
    · rename_i hx
      refine ⟨{ G with pc := .dead }, 0, (s.thr 0).pc, (eta _).symm, (eta2 _ _).symm, .inl rfl, ?_, hc, rfl, rfl, rfl, rfl,
        rfl, rfl, .inr ⟨rfl, by simp [hp], by simp [hp], by simp [hp], by simp, by simp⟩⟩
      simp only [Rt.act, Rt.actScan]
      rw [show (s.over G).pc = .top from hpc.trans hp]
      exact if_pos hx
    · rename_i hx
      refine ⟨{ G with pc := .dict }, 0, (s.thr 0).pc, (eta _).symm, (eta2 _ _).symm, .inl rfl, ?_, hc, rfl, rfl, rfl, rfl,
        rfl, rfl, .inr ⟨rfl, by simp [hp], by simp [hp], by simp [hp], by simp, by simp⟩⟩
      simp only [Rt.act, Rt.actScan]
      rw [show (s.over G).pc = .top from hpc.trans hp]
      exact if_neg hx
  case dict skip =>
    simp only [Rt.act, Rt.actScan] at ha
    split at ha
    · cases ha
    rename_i hp
    have hp : s.pc = .dict := by simpa using hp
    split at ha
    · rename_i hs
      cases ha
      refine ⟨{ G with pc := .scan }, 0, (s.thr 0).pc, (eta _).symm, (eta2 _ _).symm, .inl rfl, ?_, hc, rfl, rfl, rfl, rfl,
        rfl, rfl, .inr ⟨rfl, by simp [hp], by simp [hp], by simp [hp], by simp, by simp⟩⟩
      simp only [Rt.act, Rt.actScan]
      rw [show (s.over G).pc = .dict from hpc.trans hp]
      exact if_pos hs
    · rename_i hs
      split at ha <;> cases ha
      rename_i e _ he
      refine ⟨{ G with pc := .scan }, 0, (s.thr 0).pc, (eta _).symm, (eta2 _ _).symm, .inl rfl, ?_, hc, rfl, rfl, rfl, rfl,
        rfl, rfl, .inr ⟨rfl, by simp [hp], by simp [hp], by simp [hp], by simp, by simp⟩⟩
      simp only [Rt.act, Rt.actScan]
      rw [show (s.over G).pc = .dict from hpc.trans hp]
      rw [if_neg (by simp), if_neg hs, show (s.over G).enc = s.enc from rfl, show (s.over G).sites = s.sites from rfl, he]
      rfl
  case scanned w =>
    simp only [Rt.act, Rt.actIo] at ha
    split at ha
    · cases ha
    rename_i hp
    have hp : s.pc = .scanned := by simpa using hp
    split at ha
    · rename_i hs
      cases ha
      refine ⟨{ G with pc := .aio }, 0, (s.thr 0).pc, (eta _).symm, (eta2 _ _).symm, .inl rfl, ?_, hc, rfl, rfl, rfl, rfl,
        rfl, rfl, .inr ⟨rfl, by simp [hp], by simp [hp], by simp [hp], by simp, by simp⟩⟩
      simp only [Rt.act, Rt.actIo]
      rw [show (s.over G).pc = .scanned from hpc.trans hp]
      exact if_pos hs
    rename_i hs
    split at ha
    · rename_i hs2
      cases ha
      refine ⟨{ G with pc := .top }, 0, (s.thr 0).pc, (eta _).symm, (eta2 _ _).symm, .inl rfl, ?_, hc, rfl, rfl, rfl, rfl,
        rfl, rfl, .inr ⟨rfl, by simp [hp], by simp [hp], by simp [hp], by simp, by simp⟩⟩
      simp only [Rt.act, Rt.actIo]
      rw [show (s.over G).pc = .scanned from hpc.trans hp]
      rw [if_neg (by simp)]
      refine (if_neg hs).trans ?_
      exact if_pos hs2
    rename_i hs2
    split at ha
    · rename_i hs3
      have hn := notif (fun s => { s with status := s.idleStatus, pc := .aio }) w ha rfl { G with pc := .aio } rfl
      have hact : (s.over G).act cfg prog (.scanned w) =
          (({ s with status := s.idleStatus, pc := .aio } : Rt).over { G with pc := .aio }).notify w := by
        simp only [Rt.act, Rt.actIo]
        rw [show (s.over G).pc = .scanned from hpc.trans hp]
        rw [if_neg (by simp)]
        refine (if_neg hs).trans ?_
        refine (if_neg hs2).trans ?_
        exact if_pos hs3
      rcases hn with ⟨sw, w', rfl, h1, rfl, h2⟩ | ⟨rfl, h2⟩
      · refine ⟨_, w', .woken sw, rfl, ?_, .inr (.inl ⟨sw, h1, rfl⟩), hact.trans h2, hc, rfl, rfl, rfl, rfl, rfl, rfl,
          .inr ⟨rfl, by simp [hp], by simp [hp], by simp [hp], by simp [Rt.setThr], by simp [Rt.setThr]⟩⟩
        rw [h1, if_neg (by simp)]
      · exact ⟨{ G with pc := .aio }, 0, (s.thr 0).pc, (eta _).symm, (eta2 _ _).symm, .inl rfl, hact.trans h2, hc, rfl, rfl,
          rfl, rfl, rfl, rfl, .inr ⟨rfl, by simp [hp], by simp [hp], by simp [hp], by simp, by simp⟩⟩
    · rename_i hs3
      cases ha
      refine ⟨{ G with pc := .aio }, 0, (s.thr 0).pc, (eta _).symm, (eta2 _ _).symm, .inl rfl, ?_, hc, rfl, rfl, rfl, rfl,
        rfl, rfl, .inr ⟨rfl, by simp [hp], by simp [hp], by simp [hp], by simp, by simp⟩⟩
      simp only [Rt.act, Rt.actIo]
      rw [show (s.over G).pc = .scanned from hpc.trans hp]
      rw [if_neg (by simp)]
      refine (if_neg hs).trans ?_
      refine (if_neg hs2).trans ?_
      exact if_neg hs3
  case aio =>
    simp only [Rt.act, Rt.actIo] at ha
    split at ha
    · cases ha
    rename_i hp
    have hp : s.pc = .aio := by simpa using hp
    have hact : (s.over G).act cfg prog .aio = match s.aio with
      | none => .ok { s.over G with pc := .write }
      | some a =>
        if a.done = a.len then
          .ok { s.over G with aio := none, pc := .aioDone, gD := G.gD ++ G.gO, gO := [] }
        else if s.full then .off
        else .ok { s.over G with pc := .top } := by
      simp only [Rt.act, Rt.actIo]
      rw [show (s.over G).pc = .aio from hpc.trans hp]
      exact if_neg (by simp)
    split at ha
    · rename_i hao
      cases ha
      refine ⟨{ G with pc := .write }, 0, (s.thr 0).pc, (eta _).symm, (eta2 _ _).symm, .inl rfl, ?_, hc, rfl, rfl, rfl, rfl,
        rfl, rfl, .inr ⟨rfl, by simp [hp], by simp [hp], by simp [hp], by simp, by simp⟩⟩
      rw [hact, hao]; simp only [Rt.over, hao]
    · rename_i a hao
      split at ha
      · rename_i hd
        cases ha
        refine ⟨{ G with pc := .aioDone, gD := G.gD ++ G.gO, gO := [] }, 0, (s.thr 0).pc, (eta _).symm, (eta2 _ _).symm,
          .inl rfl, ?_, hc, rfl, rfl, rfl, rfl,
          rfl, rfl, .inr ⟨rfl, by simp [hp], by simp [hp], by simp [hp], by simp, by simp⟩⟩
        rw [hact, hao]; dsimp only; rw [if_pos hd]; rfl
      · rename_i hd
        split at ha <;> cases ha
        rename_i hf
        refine ⟨{ G with pc := .top }, 0, (s.thr 0).pc, (eta _).symm, (eta2 _ _).symm, .inl rfl, ?_, hc, rfl, rfl, rfl,
          rfl, rfl, rfl, .inr ⟨rfl, by simp [hp], by simp [hp], by simp [hp], by simp, by simp⟩⟩
        rw [hact, hao]; dsimp only; rw [if_neg hd, if_neg hf]; simp only [Rt.over, hao]
  case aioDone w =>
    simp only [Rt.act, Rt.actIo] at ha
    split at ha
    · cases ha
    rename_i hp
    have hp : s.pc = .aioDone := by simpa using hp
    split at ha
    · rename_i hs3
      have hn := notif (fun s => { s with status := .completed, pc := .write }) w ha rfl { G with pc := .write } rfl
      have hact : (s.over G).act cfg prog (.aioDone w) =
          (({ s with status := .completed, pc := .write } : Rt).over { G with pc := .write }).notify w := by
        simp only [Rt.act, Rt.actIo]
        rw [show (s.over G).pc = .aioDone from hpc.trans hp]
        rw [if_neg (by simp)]
        exact if_pos hs3
      rcases hn with ⟨sw, w', rfl, h1, rfl, h2⟩ | ⟨rfl, h2⟩
      · refine ⟨_, w', .woken sw, rfl, ?_, .inr (.inl ⟨sw, h1, rfl⟩), hact.trans h2, hc, rfl, rfl, rfl, rfl, rfl, rfl,
          .inr ⟨rfl, by simp [hp], by simp [hp], by simp [hp], by simp [Rt.setThr], by simp [Rt.setThr]⟩⟩
        rw [h1, if_neg (by simp)]
      · exact ⟨{ G with pc := .write }, 0, (s.thr 0).pc, (eta _).symm, (eta2 _ _).symm, .inl rfl, hact.trans h2, hc, rfl,
          rfl, rfl, rfl, rfl, rfl, .inr ⟨rfl, by simp [hp], by simp [hp], by simp [hp], by simp, by simp⟩⟩
    · rename_i hs3
      cases ha
      refine ⟨{ G with pc := .write }, 0, (s.thr 0).pc, (eta _).symm, (eta2 _ _).symm, .inl rfl, ?_, hc, rfl, rfl, rfl, rfl,
        rfl, rfl, .inr ⟨rfl, by simp [hp], by simp [hp], by simp [hp], by simp, by simp⟩⟩
      simp only [Rt.act, Rt.actIo]
      rw [show (s.over G).pc = .aioDone from hpc.trans hp]
      rw [if_neg (by simp)]
      exact if_neg hs3
  case write =>
    simp only [Rt.act, Rt.actIo] at ha
    split at ha
    · cases ha
    rename_i hp
    have hp : s.pc = .write := by simpa using hp
    split at ha <;> cases ha
    · rename_i hs
      refine ⟨{ G with pc := .top }, 0, (s.thr 0).pc, (eta _).symm, (eta2 _ _).symm, .inl rfl, ?_, hc, rfl, rfl, rfl, rfl,
        rfl, rfl, .inr ⟨rfl, by simp [hp], by simp [hp], by simp [hp], by simp, by simp⟩⟩
      simp only [Rt.act, Rt.actIo]
      rw [show (s.over G).pc = .write from hpc.trans hp]
      rw [if_neg (by simp)]
      exact if_pos hs
    · rename_i hs
      refine ⟨{ G with pc := .top, gO := G.gO ++ G.gB, gB := [] }, 0, (s.thr 0).pc, (eta _).symm, (eta2 _ _).symm,
        .inl rfl, ?_, hc, rfl, rfl, rfl, rfl,
        rfl, rfl, .inr ⟨rfl, by simp [hp], by simp [hp], by simp [hp], by simp, by simp⟩⟩
      simp only [Rt.act, Rt.actIo]
      rw [show (s.over G).pc = .write from hpc.trans hp]
      rw [if_neg (by simp)]
      exact if_neg hs

/-- Undefined behaviour of such a step occurs in both models. -/
theorem act_ub_over {cfg : Config} {prog : List Site} {s : Rt} {l : Lbl} (hr : l.replaced = false)
    (ha : s.act cfg prog l = .ub) {G : Ov} (hpc : (∀ n, l ≠ .disk n) → (∀ n, l ≠ .setLevel n) → l.ofThr = none → G.pc = s.pc)
    (hj : ∀ w, (s.thr w).pc = .join → (G.thr w).pc = .join) : (s.over G).act cfg prog l = .ub := by
  cases l <;> simp only [Lbl.replaced, Rt.act, Rt.actLog, Rt.actBuf, Rt.actCtl, Rt.actScan, Rt.actIo] at hr ha
  case disk n =>
    split at ha <;> try cases ha
    rename_i a hao
    split at ha <;> try cases ha
    rename_i hle
    split at ha <;> cases ha
    rename_i hlt
    simp only [Rt.act, Rt.actIo]
    rw [show (s.over G).aio = some a from hao]
    dsimp only
    rw [if_pos hle, show (s.over G).mem = s.mem from rfl, if_pos hlt]
  case join t jk c =>
    have hpc := hpc (by simp) (by simp) rfl
    split at ha <;> try cases ha
    rename_i ht hd
    split at ha <;> cases ha
    rename_i he
    simp only [Rt.act, Rt.actCtl]
    rw [show ((s.over G).thr t).pc = .join from hj t ht, show (s.over G).pc = .dead from hpc.trans hd]
    dsimp only
    rw [show (s.over G).sites = s.sites from rfl, he]
  case dict skip =>
    have hpc := hpc (by simp) (by simp) rfl
    split at ha
    · cases ha
    rename_i hp
    have hp : s.pc = .dict := by simpa using hp
    split at ha
    · cases ha
    rename_i hs
    split at ha <;> cases ha
    rename_i he
    simp only [Rt.act, Rt.actScan]
    rw [show (s.over G).pc = .dict from hpc.trans hp]
    rw [if_neg (by simp), if_neg hs, show (s.over G).enc = s.enc from rfl, show (s.over G).sites = s.sites from rfl, he]
  all_goals first
    | (cases hr; done)
    | (exfalso
       (repeat' split at ha)
       all_goals first
         | (cases ha; done)
         | exact notify_noub ha)

end NanoLog
