import Verif.RuntimeSpec
import Verif.OpsLemmas

/-! Helper lemmas: control invariant of the runtime (who owns which buffer, indices of the scan,
roles of the two output buffers). -/

namespace NanoLog

/-- The calls of thread `t` in a list of messages. -/
def byThr (t : Nat) (l : List (Nat × LogCall)) : List LogCall :=
  l.filterMap fun p => if p.1 = t then some p.2 else none

theorem byThr_append (t : Nat) (a b : List (Nat × LogCall)) :
    byThr t (a ++ b) = byThr t a ++ byThr t b := by simp [byThr]

theorem byThr_same (t : Nat) (cs : List LogCall) : byThr t (cs.map fun c => (t, c)) = cs := by
  induction cs with
  | nil => rfl
  | cons c cs ih => simp only [byThr] at *; simp

theorem byThr_other {t u : Nat} (h : u ≠ t) (cs : List LogCall) :
    byThr t (cs.map fun c => (u, c)) = [] := by
  simp [byThr, h]

/-- Everything taken out of staging buffers so far. -/
def Rt.encoded (s : Rt) : List (Nat × LogCall) :=
  s.closed.flatMap (·.2) ++ s.gD ++ s.gO ++ s.gB

@[simp] theorem upd_same {α β : Type} [DecidableEq α] (f : α → β) (a : α) (b : β) :
    upd f a b a = b := by simp [upd]

theorem upd_other {α β : Type} [DecidableEq α] (f : α → β) {a x : α} (b : β) (h : x ≠ a) :
    upd f a b x = f x := by simp [upd, h]

/-- A thread and its staging buffer; `inb`: the buffer is in `threadBuffers`; `e`: what was taken
out of it. -/
structure TInv (th : Thr) (inb : Prop) (e : List LogCall) : Prop where
  log : th.log = e ++ th.q
  nobuf : th.bid = none → th.log = [] ∧ th.freed = false ∧ th.dealloc = false
  alloc : inb → th.freed = false ∧ th.bid ≠ none
  out : ¬ inb → th.q = []
  has : th.bid ≠ none → th.freed = false → inb ∨ ∃ c, th.pc = .push c
  freed : th.freed = true → th.dealloc = true
  dealloc : th.dealloc = true → th.pc = .exited
  take : ∀ c, th.pc = .take c → th.bid = none
  push : ∀ c, th.pc = .push c → th.bid ≠ none ∧ ¬ inb ∧ th.log = []
  write : ∀ c, th.pc = .write c → inb

theorem TInv.alive {th : Thr} {inb : Prop} {e : List LogCall} (h : TInv th inb e)
    (hp : th.pc ≠ .exited) : th.freed = false ∧ th.dealloc = false := by
  have h1 : th.dealloc = false := by
    by_contra hd
    exact hp (h.dealloc (by simpa using hd))
  refine ⟨?_, h1⟩
  by_contra hf
  have := h.freed (by simpa using hf)
  rw [h1] at this; cases this

/-- A step of the thread that does not touch its buffer. -/
theorem TInv.setPc {th : Thr} {inb : Prop} {e : List LogCall} (h : TInv th inb e)
    (hp : th.pc ≠ .exited) (hpu : ∀ c, th.pc ≠ .push c) {pc : TPc}
    (ht : ∀ c, pc = .take c → th.bid = none) (hpu' : ∀ c, pc ≠ .push c)
    (hw : ∀ c, pc = .write c → th.bid ≠ none) : TInv { th with pc := pc } inb e := by
  have ha := h.alive hp
  refine ⟨h.log, h.nobuf, h.alloc, h.out, ?_, h.freed, ?_, ht, ?_, ?_⟩
  · intro hb hf
    rcases h.has hb hf with hi | ⟨c, hc⟩
    · exact .inl hi
    · exact absurd hc (hpu c)
  · intro hd; simp only at hd; rw [ha.2] at hd; cases hd
  · intro c hc; exact absurd hc (hpu' c)
  · intro c hc
    rcases h.has (hw c hc) ha.1 with hi | ⟨c, hc⟩
    · exact hi
    · exact absurd hc (hpu c)

/-- Control invariant. -/
structure RtInv (s : Rt) : Prop where
  thr : ∀ t, TInv (s.thr t) (t ∈ s.bufs) (byThr t s.encoded)
  nodup : s.bufs.Nodup
  idx : s.last < s.bufs.length ∨ (s.bufs = [] ∧ s.last = 0)
  scanI : s.pc = .dict ∨ s.pc = .scan → s.bufs ≠ [] → s.i < s.bufs.length
  curI : s.pc = .check ∨ s.pc = .encode → s.bufs[s.i]? = some s.cur
  rem : s.pc = .encode → 0 < s.rem ∧ s.rem ≤ (s.thr s.cur).q.length
  ptr : s.comp = s.encPtr
  ptr2 : s.dbl = !s.encPtr
  aioOK : ∀ a, s.aio = some a → a.buf = s.dbl ∧ a.len = (s.mem s.dbl).length ∧ a.done ≤ a.len
  aioNone : s.aio = none → s.gO = []
  pcAio : s.pc = .aioDone ∨ s.pc = .write ∨ s.pc = .dead → s.aio = none
  dead : s.pc = .dead → s.mem s.encPtr = []
  gB : s.mem s.encPtr = [] → s.gB = []
  full : s.full = true → s.mem s.encPtr ≠ []

/-- A step of one application thread that takes nothing out of its queue. -/
theorem RtInv.setThr {s : Rt} (h : RtInv s) (t : Nat) (th : Thr)
    (hT : TInv th (t ∈ s.bufs) (byThr t s.encoded)) (hq : (s.thr t).q.length ≤ th.q.length) :
    RtInv (s.setThr t th) := by
  refine { h with thr := ?_, rem := ?_ }
  · intro u
    simp only [Rt.setThr]
    by_cases hu : u = t
    · subst hu; rw [upd_same]; exact hT
    · rw [upd_other _ _ hu]; exact h.thr u
  · intro hp
    have := h.rem hp
    simp only [Rt.setThr]
    by_cases hu : s.cur = t
    · rw [hu, upd_same]
      rw [hu] at this
      omega
    · rw [upd_other _ _ hu]; exact this

theorem RtInv.setPc {s : Rt} (h : RtInv s) (t : Nat) {pc : TPc} (hp : (s.thr t).pc ≠ .exited)
    (hpu : ∀ c, (s.thr t).pc ≠ .push c) (ht : ∀ c, pc = .take c → (s.thr t).bid = none)
    (hpu' : ∀ c, pc ≠ .push c) (hw : ∀ c, pc = .write c → (s.thr t).bid ≠ none) :
    RtInv (s.setThr t { s.thr t with pc := pc }) :=
  h.setThr t _ ((h.thr t).setPc hp hpu ht hpu' hw) (Nat.le_refl _)

theorem actLog_cinv {prog : List Site} {s s' : Rt} {l : Lbl} (h : RtInv s)
    (ha : s.actLog prog l = .ok s') : RtInv s' := by
  cases l <;> simp only [Rt.actLog] at ha <;> try cases ha
  case call t k args =>
    split at ha <;> try cases ha
    rename_i hpc _
    split at ha <;> cases ha
    · exact h
    · exact h.setPc t (by simp [hpc]) (by simp [hpc]) (by simp) (by simp) (by simp)
  case readId t stale =>
    split at ha <;> try cases ha
    rename_i hpc
    split at ha <;> cases ha
    · exact h.setPc t (by simp [hpc]) (by simp [hpc]) (by simp) (by simp) (by simp)
    · refine h.setPc t (by simp [hpc]) (by simp [hpc]) ?_ ?_ ?_ <;> split <;> simp
  case register t =>
    split at ha <;> try cases ha
    rename_i k args hpc
    split at ha <;> cases ha
    · exact h.setPc t (by simp [hpc]) (by simp [hpc]) (by simp) (by simp) (by simp)
    · have := h.setPc t (pc := .known s.sites.length args) (by simp [hpc]) (by simp [hpc]) (by simp) (by simp) (by simp)
      exact { this with }
  case stamp t ts =>
    split at ha <;> cases ha
    rename_i hpc
    exact h.setPc t (by simp [hpc]) (by simp [hpc]) (by simp) (by simp) (by simp)
  case reserve t =>
    split at ha <;> cases ha
    rename_i hpc
    refine h.setPc t (by simp [hpc]) (by simp [hpc]) ?_ ?_ ?_ <;> split <;> simp_all
  case commit t =>
    split at ha <;> try cases ha
    rename_i c hpc
    split at ha <;> cases ha
    have hT := h.thr t
    have hin := hT.write c hpc
    refine h.setThr t _ ⟨?_, ?_, hT.alloc, fun hn => absurd hin hn, fun _ _ => .inl hin, hT.freed,
      ?_, by simp, by simp, by simp⟩ (by simp)
    · simp [hT.log]
    · intro hb; exact absurd hb (hT.alloc hin).2
    · intro hd
      have := hT.dealloc hd
      rw [hpc] at this; cases this

theorem actBuf_cinv {s s' : Rt} {l : Lbl} (h : RtInv s) (ha : s.actBuf l = .ok s') : RtInv s' := by
  cases l <;> simp only [Rt.actBuf] at ha <;> try cases ha
  case preallocate t =>
    split at ha <;> try cases ha
    rename_i hpc
    split at ha <;> cases ha
    · exact h.setPc t (by simp [hpc]) (by simp [hpc]) (fun _ _ => ‹_›) (by simp) (by simp)
    · exact h
  case takeId t =>
    split at ha <;> try cases ha
    rename_i c hpc
    split at ha <;> cases ha
    have hT := h.thr t
    have hb := hT.take c hpc
    have hn := hT.nobuf hb
    have hni : t ∉ s.bufs := fun hi => (hT.alloc hi).2 hb
    have := h.setThr t { s.thr t with pc := .push c, bid := some s.nextId }
      ⟨hT.log, by simp, fun hi => absurd hi hni, hT.out, fun _ _ => .inr ⟨c, rfl⟩, hT.freed,
        fun hd => (by simp only at hd; rw [hn.2.2] at hd; cases hd), by simp,
        fun _ _ => ⟨by simp, hni, hn.1⟩, by simp⟩ (Nat.le_refl _)
    exact { this with }
  case push t =>
    split at ha <;> try cases ha
    rename_i c hpc
    split at ha <;> cases ha
    rename_i hlk
    have hT := h.thr t
    obtain ⟨p1, p2, p3⟩ := hT.push c hpc
    have hal := hT.alive (by simp [hpc])
    have hlog := hT.log
    rw [p3] at hlog
    refine { h with thr := ?_, nodup := ?_, idx := ?_, scanI := ?_, curI := ?_, rem := ?_ }
    · intro u
      simp only [Rt.setThr]
      by_cases hu : u = t
      · subst hu
        rw [upd_same]
        refine ⟨hT.log, fun hb => absurd hb p1, fun _ => ⟨hal.1, p1⟩, fun hn => by simp at hn,
          fun _ _ => .inl (by simp), hT.freed, ?_, ?_, ?_, fun _ _ => by simp⟩
        · intro hd; simp only at hd; rw [hal.2] at hd; cases hd
        · intro c'; cases c <;> simp [afterAlloc]
        · intro c'; cases c <;> simp [afterAlloc]
      · rw [upd_other _ _ hu]
        have : (u ∈ s.bufs ++ [t]) = (u ∈ s.bufs) := by simp [hu]
        rw [this]
        exact h.thr u
    · simp only
      rw [List.nodup_append]
      refine ⟨h.nodup, by simp, ?_⟩
      intro a ha b hb hab
      simp only [List.mem_singleton] at hb
      subst hab; subst hb
      exact p2 ha
    · rcases h.idx with hi | ⟨h1, h2⟩
      · left; simp only [Rt.setThr, List.length_append, List.length_cons]; omega
      · left; simp [Rt.setThr, h2]
    · intro hp; simp only [Rt.setThr] at hp
      simp [Rt.bufLocked] at hlk
      rcases hp with hp | hp <;> simp [hp] at hlk
    · intro hp
      simp only [Rt.setThr] at hp ⊢
      have := h.curI hp
      rw [List.getElem?_append_left]
      · exact this
      · by_contra hn
        rw [List.getElem?_eq_none (by omega)] at this; cases this
    · intro hp
      have := h.rem hp
      simp only [Rt.setThr]
      by_cases hu : s.cur = t
      · rw [hu, upd_same]; rw [hu] at this; exact this
      · rw [upd_other _ _ hu]; exact this
  case exitThread t =>
    split at ha <;> try cases ha
    rename_i hpc
    have hT := h.thr t
    have hal := hT.alive (by simp [hpc])
    split at ha
    · cases ha
      rename_i hb
      exact h.setPc t (by simp [hpc]) (by simp [hpc]) (by simp) (by simp) (by simp)
    split at ha <;> cases ha
    rename_i hb hf
    refine h.setThr t _ ⟨hT.log, fun hb' => absurd hb' hb, hT.alloc, hT.out, ?_, fun _ => rfl,
      fun _ => rfl, by simp, by simp, by simp⟩ (Nat.le_refl _)
    intro hb hf'
    rcases hT.has hb hf' with hi | ⟨c, hc⟩
    · exact .inl hi
    · rw [hpc] at hc; cases hc

theorem notify_cinv {s s' : Rt} {w : Option Nat} (h : RtInv s) (ha : s.notify w = .ok s') :
    RtInv s' := by
  unfold Rt.notify at ha
  split at ha
  · cases ha; exact h
  · rename_i w
    split at ha <;> cases ha
    rename_i hpc
    exact h.setPc w (by simp [hpc]) (by simp [hpc]) (by simp) (by simp) (by simp)

theorem actCtl_cinv {cfg : Config} {s s' : Rt} {l : Lbl} (h : RtInv s)
    (ha : s.actCtl cfg l = .ok s') : RtInv s' := by
  cases l <;> simp only [Rt.actCtl] at ha <;> try cases ha
  case setLevel l => exact { h with }
  case sync t =>
    split at ha <;> cases ha
    rename_i hpc
    have := h.setPc t (pc := .sync false) (by simp [hpc]) (by simp [hpc]) (by simp) (by simp) (by simp)
    exact { this with }
  case spurious t =>
    split at ha <;> cases ha
    rename_i hpc
    exact h.setPc t (by simp [hpc]) (by simp [hpc]) (by simp) (by simp) (by simp)
  case ret t =>
    split at ha <;> cases ha
    rename_i hpc
    refine h.setPc t (by simp [hpc]) (by simp [hpc]) ?_ ?_ ?_ <;> split <;> simp
  case setFile t ok =>
    split at ha <;> try cases ha
    rename_i hpc
    split at ha <;> cases ha
    · have := h.setPc t (pc := .sync true) (by simp [hpc]) (by simp [hpc]) (by simp) (by simp) (by simp)
      exact { this with }
    · exact h
  case stop t =>
    split at ha <;> cases ha
    rename_i hpc
    have := h.setPc t (pc := .join) (by simp [hpc]) (by simp [hpc]) (by simp) (by simp) (by simp)
    exact { this with }
  case join t jk c =>
    split at ha <;> try cases ha
    rename_i hpc hdead
    split at ha <;> cases ha
    rename_i e _ he
    have hbuf : e.buf ≠ [] := by
      simp only [EncSt.step] at he
      split at he
      · cases he
      simp only [insertCheckpoint] at he
      split at he
      · cases he
      · rename_i he2
        cases he
        split at he2 <;> cases he2
        obtain ⟨b, bs, hb, -⟩ := checkpointBytes_head jk c
        rw [hb]; simp
    have h1 := h.setPc t (pc := .idle) (by simp [hpc]) (by simp [hpc]) (by simp) (by simp) (by simp)
    have hgO := h.aioNone (h.pcAio (.inr (.inr hdead)))
    have hgB := h.gB (h.dead hdead)
    have henc : ({ s.setThr t { s.thr t with pc := .idle } with
              exit := false, pc := .top, last := 0, full := false, wrap := false
              shadow := e.shadow, pos := e.pos, mem := upd s.mem s.comp e.buf, encPtr := s.comp
              closed := s.closed ++ [(s.disk, s.gD)], disk := [], gD := [], gO := [], gB := [] } : Rt).encoded
        = s.encoded := by
      simp [Rt.encoded, hgO, hgB]
    refine { thr := ?_, nodup := h.nodup, idx := ?_, scanI := by simp, curI := by simp
             rem := by simp, ptr := rfl, ptr2 := ?_, aioOK := ?_, aioNone := by simp
             pcAio := by simp, dead := by simp, gB := by simp, full := by simp }
    · intro u
      rw [henc]
      exact h1.thr u
    · rcases h.idx with hi | ⟨h1, h2⟩
      · left; simp only [Rt.setThr]; omega
      · right; exact ⟨h1, rfl⟩
    · simp only [Rt.setThr]; rw [h.ptr2, h.ptr]
    · intro a ha
      have := h.pcAio (.inr (.inr hdead))
      simp only [Rt.setThr] at ha
      rw [this] at ha; cases ha

theorem RtInv.scanned {s : Rt} (h : RtInv s) : RtInv { s with pc := .scanned } :=
  { h with scanI := by simp, curI := by simp, rem := by simp, pcAio := by simp, dead := by simp }

/-- What `advance` needs and keeps. -/
theorem advance_cinv {s s' : Rt} {j : Nat} (h : RtInv { s with pc := .scanned }) (ha : s.advance j = .ok s') : RtInv s' := by
  unfold Rt.advance at ha
  split at ha <;> cases ha
  rename_i hne
  have hpc : ∀ p : BPc, (if j % s.bufs.length = s.last then BPc.scanned else BPc.scan) = p →
      p = .scanned ∨ p = .scan := by
    intro p hp; split at hp <;> simp [← hp]
  refine { h with scanI := ?_, curI := ?_, rem := ?_, pcAio := ?_, dead := ?_ }
  · intro _ _; exact Nat.mod_lt _ (by omega)
  · intro hp
    simp only at hp
    split at hp <;> simp at hp
  · intro hp
    simp only at hp
    split at hp <;> simp at hp
  · intro hp
    simp only at hp
    split at hp <;> simp at hp
  · intro hp
    simp only at hp
    split at hp <;> simp at hp

theorem countBytes_le (size : LogCall → Nat) :
    ∀ (cs : List LogCall) (n k : Nat), countBytes size cs n = some k → k ≤ cs.length
  | cs, 0, k, h => by simp [countBytes] at h; omega
  | [], n + 1, k, h => by simp [countBytes] at h
  | c :: cs, n + 1, k, h => by
    rw [countBytes] at h
    split at h
    · cases hr : countBytes size cs (n + 1 - size c) with
      | none => rw [hr] at h; cases h
      | some k' =>
        rw [hr] at h
        simp at h
        have := countBytes_le size cs _ _ hr
        simp; omega
    · cases h

theorem encodeDict_prefix {cfg : Config} {st e : EncSt} {k : Nat} {n : Option Int}
    (h : st.step cfg (.dict k) = some (e, n)) : st.buf <+: e.buf ∧ e.file = st.file ∧ e.all = st.all := by
  simp only [EncSt.step] at h
  split at h <;> cases h
  · exact ⟨List.prefix_append _ _, rfl, rfl⟩
  · exact ⟨List.prefix_refl _, rfl, rfl⟩

theorem batch_nonempty {cfg : Config} (hroom : 40 ≤ cfg.output) {st e : EncSt} {junk : Nat → Nat}
    {cs : List LogCall} {mem : List Byte} {nbytes tid : Nat} {np : Bool} {n : Option Int}
    (h : st.step cfg (.batch junk cs mem nbytes tid np) = some (e, n)) : e.buf ≠ [] := by
  simp only [EncSt.step] at h
  split at h <;> cases h
  rename_i bs m hm
  simp only [encodeLogMsgs] at hm
  split at hm
  · cases hm
    rename_i hsp
    intro he
    simp only [List.append_nil] at he
    rw [he] at hsp
    simp at hsp; omega
  · split at hm
    · cases hm
    · split at hm <;> cases hm
      rename_i body _ _
      intro he
      have := congrArg List.length he
      have hl := extentBytes_length tid np body
      simp only [List.length_append, List.length_nil] at this
      simp only [extentHeaderSize] at hl
      omega

theorem mem_eraseIdx_nodup {l : List Nat} (h : l.Nodup) {i c : Nat} (hc : l[i]? = some c) (u : Nat) :
    u ∈ l.eraseIdx i ↔ u ∈ l ∧ u ≠ c := by
  rw [List.mem_eraseIdx_iff_getElem?]
  have hlt : i < l.length := by
    by_contra hn
    rw [List.getElem?_eq_none (by omega)] at hc; cases hc
  constructor
  · rintro ⟨j, hj, he⟩
    refine ⟨List.mem_of_getElem? he, ?_⟩
    rintro rfl
    exact hj ((List.getElem?_inj hlt h).1 (hc.trans he.symm)).symm
  · rintro ⟨hm, hne⟩
    obtain ⟨j, hj⟩ := List.mem_iff_getElem?.1 hm
    refine ⟨j, ?_, hj⟩
    rintro rfl
    rw [hc] at hj
    exact hne (Option.some.inj hj).symm

theorem actScan_cinv {cfg : Config} (hroom : 40 ≤ cfg.output) {s s' : Rt} {l : Lbl} (h : RtInv s)
    (ha : s.actScan cfg l = .ok s') : RtInv s' := by
  cases l <;> simp only [Rt.actScan] at ha <;> try cases ha
  case top =>
    split at ha
    · cases ha
    split at ha <;> cases ha
    · rename_i hx
      exact { h with scanI := by simp, curI := by simp, rem := by simp, pcAio := fun _ => hx.2.2
                     dead := fun _ => hx.2.1 }
    · refine { h with scanI := ?_, curI := by simp, rem := by simp, pcAio := by simp
                      dead := by simp }
      intro _ hb
      rcases h.idx with hi | hi
      · exact hi
      · exact absurd hi.1 hb
  case dict skip =>
    split at ha
    · cases ha
    rename_i hpc
    simp only [ne_eq, Decidable.not_not] at hpc
    have hi := h.scanI (.inl hpc)
    split at ha
    · cases ha
      exact { h with scanI := fun _ => hi, curI := by simp, rem := by simp, pcAio := by simp
                     dead := by simp }
    · split at ha <;> cases ha
      rename_i e n he
      obtain ⟨hp, -, -⟩ := encodeDict_prefix he
      have hm : s.mem s.encPtr <+: e.buf := hp
      refine { h with scanI := fun _ => hi, curI := by simp, rem := by simp, pcAio := by simp
                      dead := by simp, aioOK := ?_, gB := ?_, full := ?_ }
      · intro a ha
        have := h.aioOK a ha
        simp only [Rt.setEnc]
        rw [upd_other _ _ (by rw [h.ptr2]; simp)]
        exact this
      · simp only [Rt.setEnc, upd_same]
        intro he
        rw [he] at hm
        exact h.gB (List.prefix_nil.1 hm)
      · simp only [Rt.setEnc, upd_same]
        intro hf he
        rw [he] at hm
        exact h.full hf (List.prefix_nil.1 hm)
  case peek n =>
    split at ha
    · cases ha
    split at ha
    · cases ha
      exact { h with scanI := by simp, curI := by simp, rem := by simp, pcAio := by simp
                     dead := by simp }
    split at ha
    · cases ha
    rename_i t ht
    split at ha
    · cases ha
    split at ha
    · split at ha <;> cases ha
      exact { h with scanI := by simp, curI := fun _ => ht, rem := by simp, pcAio := by simp
                     dead := by simp }
    · split at ha <;> cases ha
      exact { h with scanI := by simp, curI := fun _ => ht, rem := fun _ => ⟨by simp only; omega, by assumption⟩
                     pcAio := by simp, dead := by simp }
  case check =>
    split at ha
    · cases ha
    rename_i hpc
    simp only [ne_eq, Decidable.not_not] at hpc
    have hcur := h.curI (.inl hpc)
    have hlt : s.i < s.bufs.length := by
      by_contra hn
      rw [List.getElem?_eq_none (by omega)] at hcur; cases hcur
    have hmem : s.cur ∈ s.bufs := List.mem_of_getElem? hcur
    split at ha
    · rename_i hdel
      have hT := h.thr s.cur
      have hmem' : ∀ u, u ∈ s.bufs.eraseIdx s.i ↔ u ∈ s.bufs ∧ u ≠ s.cur := by
        exact mem_eraseIdx_nodup h.nodup hcur
      have hlen : (s.bufs.eraseIdx s.i).length = s.bufs.length - 1 := List.length_eraseIdx_of_lt hlt
      have hthr : ∀ u, TInv (upd s.thr s.cur { s.thr s.cur with freed := true } u)
          (u ∈ s.bufs.eraseIdx s.i) (byThr u s.encoded) := by
        intro u
        by_cases hu : u = s.cur
        · subst hu
          rw [upd_same]
          have hno : s.cur ∉ s.bufs.eraseIdx s.i := by rw [hmem']; simp
          have hpce := hT.dealloc hdel.1
          exact ⟨hT.log, fun hb => absurd hb (hT.alloc hmem).2, fun hi => absurd hi hno,
            fun _ => hdel.2, fun _ hf => by simp at hf, fun _ => hdel.1, fun _ => hpce,
            fun c hc => (by simp only at hc; rw [hpce] at hc; cases hc),
            fun c hc => (by simp only at hc; rw [hpce] at hc; cases hc),
            fun c hc => (by simp only at hc; rw [hpce] at hc; cases hc)⟩
        · rw [upd_other _ _ hu]
          have := h.thr u
          rw [show (u ∈ s.bufs.eraseIdx s.i) = (u ∈ s.bufs) by simp [hmem', hu]]
          exact this
      split at ha
      · rename_i he
        cases ha
        refine { h with thr := hthr, nodup := h.nodup.eraseIdx _, idx := .inr ⟨he, rfl⟩
                        scanI := by simp, curI := by simp, rem := by simp, pcAio := by simp
                        dead := by simp }
      · rename_i he
        have h0 : 0 < (s.bufs.eraseIdx s.i).length := List.length_pos_iff.2 he
        refine advance_cinv ?_ ha
        refine { h.scanned with thr := hthr, nodup := h.nodup.eraseIdx _, idx := ?_, scanI := by simp
                                curI := by simp, rem := by simp }
        left
        simp only
        rcases h.idx with hi | hi
        · split <;> omega
        · rw [hi.1] at hlt; simp at hlt
    · exact advance_cinv h.scanned ha
  case encode junk more =>
    split at ha
    · cases ha
    rename_i hpc
    simp only [ne_eq, Decidable.not_not] at hpc
    have hcur := h.curI (.inr hpc)
    have hlt : s.i < s.bufs.length := by
      by_contra hn
      rw [List.getElem?_eq_none (by omega)] at hcur; cases hcur
    have hrem := h.rem hpc
    split at ha
    · cases ha
    split at ha
    · cases ha
    rename_i b hb
    split at ha
    · rename_i e n he
      have hne := batch_nonempty hroom he
      have haio : ∀ a, s.aio = some a → a.buf = s.dbl ∧
          a.len = (upd s.mem s.encPtr e.buf s.dbl).length ∧ a.done ≤ a.len := by
        intro a ha
        rw [upd_other _ _ (by rw [h.ptr2]; simp)]
        exact h.aioOK a ha
      split at ha
      · refine advance_cinv ?_ ha
        exact { h.scanned with idx := .inl hlt, aioOK := haio, gB := by simp [Rt.setEnc, hne]
                               full := by simp [Rt.setEnc, hne], scanI := by simp, curI := by simp
                               rem := by simp, pcAio := by simp, dead := by simp }
      · split at ha
        · cases ha
        rename_i k hk
        have hkle := countBytes_le _ _ _ _ hk
        rw [List.length_take] at hkle
        have htk : ((s.thr s.cur).q.take s.rem).take k = (s.thr s.cur).q.take k := by
          rw [List.take_take]; congr 1; omega
        have hthr : ∀ u, TInv (upd s.thr s.cur { s.thr s.cur with q := (s.thr s.cur).q.drop k } u)
            (u ∈ s.bufs) (byThr u (s.closed.flatMap (·.2) ++ s.gD ++ s.gO ++ (s.gB ++
              (((s.thr s.cur).q.take s.rem).take k).map fun c => (s.cur, c)))) := by
          intro u
          have hT := h.thr u
          have he : s.closed.flatMap (·.2) ++ s.gD ++ s.gO ++ (s.gB ++
              (((s.thr s.cur).q.take s.rem).take k).map fun c => (s.cur, c)) = s.encoded ++
              (((s.thr s.cur).q.take s.rem).take k).map fun c => (s.cur, c) := by
            simp [Rt.encoded]
          rw [he, byThr_append]
          by_cases hu : u = s.cur
          · subst hu
            rw [upd_same, byThr_same, htk]
            refine ⟨?_, hT.nobuf, hT.alloc, ?_, hT.has, hT.freed, hT.dealloc, hT.take, hT.push,
              hT.write⟩
            · simp only [List.append_assoc, List.take_append_drop]; exact hT.log
            · intro hn
              simp [hT.out hn]
          · rw [upd_other _ _ hu, byThr_other (Ne.symm hu), List.append_nil]
            exact hT
        split at ha
        · refine advance_cinv ?_ ha
          exact { h.scanned with thr := hthr, aioOK := haio, gB := by simp [Rt.setEnc, Rt.setThr, hne]
                                 full := by simp [Rt.setEnc, Rt.setThr, hne], scanI := by simp
                                 curI := by simp, rem := by simp, pcAio := by simp
                                 dead := by simp }
        · cases ha
          exact { h with thr := hthr, aioOK := haio, gB := by simp [Rt.setEnc, Rt.setThr, hne]
                         full := by simp [Rt.setEnc, Rt.setThr, hne]
                         dead := by simp [Rt.setEnc, Rt.setThr, hpc]
                         rem := fun _ => by
                          simp only [Rt.setThr, Rt.setEnc, upd_same, List.length_drop]
                          omega }
    · cases ha

theorem actIo_cinv {s s' : Rt} {l : Lbl} (h : RtInv s) (ha : s.actIo l = .ok s') : RtInv s' := by
  cases l <;> simp only [Rt.actIo] at ha <;> try cases ha
  case scanned w =>
    split at ha
    · cases ha
    split at ha
    · cases ha
      exact { h.scanned with scanI := by simp, curI := by simp, rem := by simp, pcAio := by simp
                             dead := by simp }
    split at ha
    · cases ha
      exact { h.scanned with scanI := by simp, curI := by simp, rem := by simp, pcAio := by simp
                             dead := by simp }
    split at ha
    · refine notify_cinv ?_ ha
      exact { h.scanned with scanI := by simp, curI := by simp, rem := by simp, pcAio := by simp
                             dead := by simp }
    · cases ha
      exact { h.scanned with scanI := by simp, curI := by simp, rem := by simp, pcAio := by simp
                             dead := by simp }
  case aio =>
    split at ha
    · cases ha
    split at ha
    · cases ha
      rename_i hn
      exact { h.scanned with scanI := by simp, curI := by simp, rem := by simp, pcAio := fun _ => hn
                             dead := by simp }
    · rename_i a hs
      split at ha
      · cases ha
        refine { h.scanned with thr := ?_, scanI := by simp, curI := by simp, rem := by simp
                                pcAio := fun _ => rfl, dead := by simp, aioOK := by simp
                                aioNone := fun _ => rfl }
        intro u
        have := h.thr u
        simpa [Rt.encoded] using this
      · split at ha <;> cases ha
        exact { h.scanned with scanI := by simp, curI := by simp, rem := by simp, pcAio := by simp
                               dead := by simp }
  case aioDone w =>
    split at ha
    · cases ha
    rename_i hpc
    simp only [ne_eq, Decidable.not_not] at hpc
    have hn := h.pcAio (.inl hpc)
    split at ha
    · refine notify_cinv ?_ ha
      exact { h.scanned with scanI := by simp, curI := by simp, rem := by simp, pcAio := fun _ => hn
                             dead := by simp }
    · cases ha
      exact { h.scanned with scanI := by simp, curI := by simp, rem := by simp, pcAio := fun _ => hn
                             dead := by simp }
  case write =>
    split at ha
    · cases ha
    rename_i hpc
    simp only [ne_eq, Decidable.not_not] at hpc
    have hn := h.pcAio (.inr (.inl hpc))
    split at ha <;> cases ha
    · exact { h.scanned with scanI := by simp, curI := by simp, rem := by simp, pcAio := by simp
                             dead := by simp }
    · have hgO := h.aioNone hn
      refine { h.scanned with thr := ?_, scanI := by simp, curI := by simp, rem := by simp
                              pcAio := by simp, dead := by simp, ptr := rfl, ptr2 := ?_, aioOK := ?_
                              aioNone := by simp, gB := fun _ => rfl, full := by simp }
      · intro u
        have := h.thr u
        simpa [Rt.encoded, hgO] using this
      · simp only; rw [h.ptr, h.ptr2]; simp
      · intro a ha
        simp only [Option.some.injEq] at ha
        subst ha
        simp only
        rw [upd_other _ _ (by rw [h.ptr, h.ptr2]; simp), h.ptr]
        simp
  case disk n =>
    split at ha
    · cases ha
    rename_i a hs
    split at ha <;> try cases ha
    split at ha <;> cases ha
    refine { h with aioOK := ?_, aioNone := by simp, pcAio := ?_ }
    · intro b hb
      simp only [Option.some.injEq] at hb
      subst hb
      have := h.aioOK a hs
      exact ⟨this.1, this.2.1, by assumption⟩
    · intro hp
      have := h.pcAio hp
      rw [hs] at this; cases this

theorem act_cinv {cfg : Config} (hroom : 40 ≤ cfg.output) {prog : List Site} {s s' : Rt} {l : Lbl}
    (h : RtInv s) (ha : s.act cfg prog l = .ok s') : RtInv s' := by
  unfold Rt.act at ha
  split at ha <;> first
    | exact actLog_cinv h ha | exact actBuf_cinv h ha | exact actCtl_cinv h ha
    | exact actScan_cinv hroom h ha | exact actIo_cinv h ha

theorem init_cinv {cfg : Config} {jk : Nat} {c : Checkpoint} {s : Rt}
    (h : Rt.init cfg jk c = some s) : RtInv s := by
  unfold Rt.init at h
  split at h <;> cases h
  refine { thr := ?_, nodup := by simp, idx := by simp, scanI := by simp, curI := by simp
           rem := by simp, ptr := rfl, ptr2 := rfl, aioOK := by simp, aioNone := by simp
           pcAio := by simp, dead := by simp, gB := by simp, full := by simp }
  intro t
  exact ⟨rfl, by simp [Thr.init], by simp, by simp [Thr.init], by simp [Thr.init], by simp [Thr.init],
    by simp [Thr.init], by simp [Thr.init], by simp [Thr.init], by simp [Thr.init]⟩

end NanoLog
