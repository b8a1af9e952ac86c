import Verif.RuntimeInv
import Verif.OrderedSim
import Verif.FileProps
import Mathlib.Data.List.Perm.Subperm

/-! Helper lemmas: what the runtime has written to its log files. -/

namespace NanoLog

/-! ## Requirements on calls -/

/-- A log call of a registered statement, acceptable to `printf` and smaller than half a
staging buffer. -/
def CallOK (cfg : Config) (sites : List Site) (c : LogCall) : Prop :=
  ∃ site is ds, c.OK sites site ∧ site.Supported is ∧ FormatPrints (pieces is) c.args ds ∧
    c.size site < cfg.staging / 2

theorem CallOK.mono {cfg : Config} {sites : List Site} {c : LogCall} (h : CallOK cfg sites c)
    (new : List Site) : CallOK cfg (sites ++ new) c := by
  obtain ⟨site, is, ds, h1, h2⟩ := h
  exact ⟨site, is, ds, h1.mono, h2⟩

theorem CallOK.prints {cfg : Config} {sites : List Site} {c : LogCall} (h : CallOK cfg sites c)
    (tid : Nat) (ck : Checkpoint) : ∃ m, Prints sites tid ck c m := by
  obtain ⟨site, is, ds, h1, h2, h3, -⟩ := h
  exact ⟨_, .mk h1 h2 h3⟩

theorem CallOK.size {cfg : Config} {sites : List Site} {c : LogCall} (h : CallOK cfg sites c) :
    16 ≤ callSize sites c ∧ callSize sites c < cfg.staging / 2 := by
  obtain ⟨site, is, ds, h1, h2, h3, h4⟩ := h
  rw [callSize_eq h1]
  refine ⟨?_, h4⟩
  simp [LogCall.size]

theorem CallOK.all_prints {cfg : Config} {sites : List Site} {cs : List LogCall}
    (h : ∀ c ∈ cs, CallOK cfg sites c) (tid : Nat) (ck : Checkpoint) :
    ∃ ms, List.Forall₂ (Prints sites tid ck) cs ms := by
  induction cs with
  | nil => exact ⟨[], .nil⟩
  | cons c cs ih =>
    obtain ⟨m, hm⟩ := (h c (by simp)).prints tid ck
    obtain ⟨ms, hms⟩ := ih fun c hc => h c (by simp [hc])
    exact ⟨m :: ms, .cons hm hms⟩

/-- The call a thread is working on is acceptable. -/
def PcOK (cfg : Config) (prog sites : List Site) : TPc → Prop
  | .called k args | .reg k args => ∃ site, prog[k]? = some site ∧ ArgsOK cfg site args
  | .known id args => ∃ site, sites[id]? = some site ∧ ArgsOK cfg site args
  | .stamped c | .write c | .take (some c) | .push (some c) => CallOK cfg sites c
  | _ => True

theorem getElem?_mono {α : Type} {l : List α} {i : Nat} {a : α} (h : l[i]? = some a)
    (new : List α) : (l ++ new)[i]? = some a := by
  rw [List.getElem?_append_left]; exact h
  by_contra hc; rw [List.getElem?_eq_none (by omega)] at h; cases h

theorem PcOK.mono {cfg : Config} {prog sites : List Site} {pc : TPc} (h : PcOK cfg prog sites pc)
    (new : List Site) : PcOK cfg prog (sites ++ new) pc := by
  cases pc with
  | called k args => exact h
  | reg k args => exact h
  | known id args =>
    obtain ⟨site, h1, h2⟩ := h
    exact ⟨site, getElem?_mono h1 new, h2⟩
  | stamped c => exact CallOK.mono h new
  | write c => exact CallOK.mono h new
  | take c => cases c with | none => trivial | some c => exact CallOK.mono h new
  | push c => cases c with | none => trivial | some c => exact CallOK.mono h new
  | _ => trivial

/-! ## Identifiers -/

/-- `ks` lists the registered statements of the program by identifier. -/
def IdsInv (prog : List Site) (s : Rt) : Prop :=
  ∃ ks : List Nat, ks.Nodup ∧ s.sites.map some = ks.map (prog[·]?) ∧
    ∀ k i, s.ids k = some i ↔ ks[i]? = some k

theorem IdsInv.site {prog : List Site} {s : Rt} (h : IdsInv prog s) {k i : Nat}
    (hk : s.ids k = some i) : ∃ site, s.sites[i]? = some site ∧ prog[k]? = some site := by
  obtain ⟨ks, h1, h2, h3⟩ := h
  have h4 := (h3 k i).1 hk
  have h5 := congrArg (·[i]?) h2
  simp only [List.getElem?_map, h4, Option.map_some] at h5
  cases hs : s.sites[i]? with
  | none => rw [hs] at h5; cases h5
  | some site => rw [hs] at h5; simp at h5; exact ⟨site, rfl, h5.symm⟩

theorem IdsInv.count {prog : List Site} {s : Rt} (h : IdsInv prog s) :
    s.sites.length ≤ prog.length ∧ ∀ x ∈ s.sites, x ∈ prog := by
  obtain ⟨ks, h1, h2, h3⟩ := h
  have hlen := congrArg List.length h2
  simp only [List.length_map] at hlen
  have hk : ∀ k ∈ ks, ∃ site ∈ s.sites, prog[k]? = some site := by
    intro k hk
    have : prog[k]? ∈ s.sites.map some := by rw [h2]; exact List.mem_map_of_mem hk
    obtain ⟨site, hs, he⟩ := List.mem_map.1 this
    exact ⟨site, hs, he.symm⟩
  constructor
  · rw [hlen]
    have hsub : ks ⊆ List.range prog.length := by
      intro k hk'
      obtain ⟨site, -, hs⟩ := hk k hk'
      rw [List.mem_range]
      by_contra hn
      rw [List.getElem?_eq_none (by omega)] at hs; cases hs
    have := (h1.subperm hsub).length_le
    simpa using this
  · intro x hx
    have : some x ∈ ks.map (prog[·]?) := by rw [← h2]; exact List.mem_map_of_mem hx
    obtain ⟨k, -, he⟩ := List.mem_map.1 this
    exact List.mem_of_getElem? he

theorem IdsInv.register {prog : List Site} {s s' : Rt} (h : IdsInv prog s) {k : Nat} {site : Site}
    (hk : s.ids k = none) (hp : prog[k]? = some site)
    (hi : s'.ids = upd s.ids k (some s.sites.length)) (hs : s'.sites = s.sites ++ [site]) :
    IdsInv prog s' := by
  obtain ⟨ks, h1, h2, h3⟩ := h
  have hlen := congrArg List.length h2
  simp only [List.length_map] at hlen
  have hnk : k ∉ ks := by
    intro hm
    obtain ⟨i, hi⟩ := List.mem_iff_getElem?.1 hm
    rw [(h3 k i).2 hi] at hk; cases hk
  refine ⟨ks ++ [k], ?_, ?_, ?_⟩
  · rw [List.nodup_append]
    refine ⟨h1, by simp, ?_⟩
    intro a ha b hb hab
    simp only [List.mem_singleton] at hb
    subst hab; subst hb; exact hnk ha
  · simp [hs, h2, hp]
  · intro k' i
    rw [hi]
    by_cases he : k' = k
    · subst he
      rw [upd_same]
      constructor
      · intro h; cases h; rw [hlen, List.getElem?_concat_length]
      · intro h
        by_cases hlt : i < ks.length
        · rw [List.getElem?_append_left hlt] at h
          exact absurd (List.mem_of_getElem? h) hnk
        · have : i < (ks ++ [k']).length := by
            by_contra hn; rw [List.getElem?_eq_none (by omega)] at h; cases h
          simp at this
          rw [hlen]; congr 1; omega
    · rw [upd_other _ _ he, h3]
      by_cases hlt : i < ks.length
      · rw [List.getElem?_append_left hlt]
      · constructor
        · intro h; rw [List.getElem?_eq_none (by omega)] at h; cases h
        · intro h
          have hl : i < (ks ++ [k]).length := by
            by_contra hn; rw [List.getElem?_eq_none (by omega)] at h; cases h
          simp at hl
          have : i = ks.length := by omega
          rw [this, List.getElem?_concat_length] at h
          exact absurd (Option.some.inj h).symm he

/-! ## Parts of files -/

/-- Message `m` is what call `p.2` of thread `p.1` must print. -/
def Attr (sites : List Site) (bid : Nat → Option Nat) (c : Checkpoint) (p : Nat × LogCall)
    (m : OutMsg) : Prop :=
  ∃ b, bid p.1 = some b ∧ Prints sites b c p.2 m

/-- Records `rs` that hold the messages `g`; `k0`, `k1`: statements known before and after. -/
def Seg (cap : Nat) (sites : List Site) (bid : Nat → Option Nat) (c : Checkpoint) (k0 : List Site)
    (rs : List Rec) (g : List (Nat × LogCall)) (k1 : List Site) : Prop :=
  ∃ ms, Holds cap c k0 rs ms ∧ after c k0 rs = (c, k1) ∧ List.Forall₂ (Attr sites bid c) g ms

theorem Seg.nil {cap : Nat} {sites : List Site} {bid : Nat → Option Nat} {c : Checkpoint}
    {k : List Site} : Seg cap sites bid c k [] [] k := ⟨[], .nil, rfl, .nil⟩

theorem Seg.append {cap : Nat} {sites : List Site} {bid : Nat → Option Nat} {c : Checkpoint}
    {k0 k1 k2 : List Site} {rs rs' : List Rec} {g g' : List (Nat × LogCall)}
    (h : Seg cap sites bid c k0 rs g k1) (h' : Seg cap sites bid c k1 rs' g' k2) :
    Seg cap sites bid c k0 (rs ++ rs') (g ++ g') k2 := by
  obtain ⟨ms, h1, h2, h3⟩ := h
  obtain ⟨ms', h1', h2', h3'⟩ := h'
  refine ⟨ms ++ ms', h1.append (by rw [h2]; exact h1'), ?_, Forall₂.app h3 h3'⟩
  rw [after_append, h2, h2']

theorem Attr.mono {sites new : List Site} {bid bid' : Nat → Option Nat} {c : Checkpoint}
    {p : Nat × LogCall} {m : OutMsg} (h : Attr sites bid c p m)
    (hb : ∀ t b, bid t = some b → bid' t = some b) : Attr (sites ++ new) bid' c p m := by
  obtain ⟨b, h1, h2⟩ := h
  exact ⟨b, hb _ _ h1, h2.mono⟩

theorem Seg.mono {cap : Nat} {sites new : List Site} {bid bid' : Nat → Option Nat}
    {c : Checkpoint} {k0 k1 : List Site} {rs : List Rec} {g : List (Nat × LogCall)}
    (h : Seg cap sites bid c k0 rs g k1) (hb : ∀ t b, bid t = some b → bid' t = some b) :
    Seg cap (sites ++ new) bid' c k0 rs g k1 := by
  obtain ⟨ms, h1, h2, h3⟩ := h
  exact ⟨ms, h1, h2, h3.imp fun _ _ h => h.mono hb⟩

/-- The ids of the staging buffers. -/
def Rt.bids (s : Rt) (t : Nat) : Option Nat := (s.thr t).bid

/-- Records with static information or messages only. -/
def NoCkpt (rs : List Rec) : Prop := ∀ r ∈ rs, r.isData

theorem NoCkpt.append {a b : List Rec} (ha : NoCkpt a) (hb : NoCkpt b) : NoCkpt (a ++ b) := by
  intro r h
  rcases List.mem_append.1 h with h | h
  · exact ha r h
  · exact hb r h

theorem NoCkpt.nil : NoCkpt [] := by simp [NoCkpt]

/-- A closed log file `f` that holds the messages `g`. -/
def ClosedFile (cfg : Config) (sites : List Site) (bid : Nat → Option Nat) (f : List Byte)
    (g : List (Nat × LogCall)) : Prop :=
  ∃ c jk rs k, Seg (cfg.staging + 9) sites bid c [] (.ckpt jk c :: rs) g k ∧ k <+: sites ∧
    NoCkpt rs ∧ recBytes (.ckpt jk c :: rs) = f

/-- The current log file, the buffer being written and the buffer being filled. -/
def CurFile (cfg : Config) (s : Rt) : Prop :=
  ∃ c jk rsD rsO rsB rs' k1 k2,
    Seg (cfg.staging + 9) s.sites s.bids c [] rsD s.gD k1 ∧
    Seg (cfg.staging + 9) s.sites s.bids c k1 rsO s.gO k2 ∧
    Seg (cfg.staging + 9) s.sites s.bids c k2 rsB s.gB s.shadow ∧
    (rsD ++ rsO ++ rsB = .ckpt jk c :: rs' ∧ NoCkpt rs') ∧
    recBytes rsB = s.mem s.encPtr ∧
    match s.aio with
    | none => rsO = [] ∧ s.disk = recBytes rsD
    | some a => recBytes rsO = s.mem s.dbl ∧ s.disk = recBytes rsD ++ (s.mem s.dbl).take a.done

/-- Invariant of the data. -/
structure FInv (cfg : Config) (prog : List Site) (s : Rt) : Prop where
  ids : IdsInv prog s
  pc : ∀ t, PcOK cfg prog s.sites (s.thr t).pc
  log : ∀ t, ∀ c ∈ (s.thr t).log, CallOK cfg s.sites c
  bid : ∀ t b, (s.thr t).bid = some b → b < 2 ^ 32
  next : s.nextId < 2 ^ 32
  enc : s.enc.Inv cfg
  cur : CurFile cfg s
  closed : ∀ p ∈ s.closed, ClosedFile cfg s.sites s.bids p.1 p.2

theorem CurFile.mono {cfg : Config} {s s' : Rt} (h : CurFile cfg s) {new : List Site}
    (hs : s'.sites = s.sites ++ new) (hb : ∀ t b, s.bids t = some b → s'.bids t = some b)
    (h1 : s'.gD = s.gD) (h2 : s'.gO = s.gO) (h3 : s'.gB = s.gB) (h4 : s'.shadow = s.shadow)
    (h5 : s'.disk = s.disk) (h6 : s'.aio = s.aio) (h7 : s'.mem = s.mem)
    (h8 : s'.encPtr = s.encPtr) (h9 : s'.dbl = s.dbl) : CurFile cfg s' := by
  obtain ⟨c, jk, rsD, rsO, rsB, rs', k1, k2, e1, e2, e3, e4, e5, e6⟩ := h
  refine ⟨c, jk, rsD, rsO, rsB, rs', k1, k2, ?_⟩
  rw [hs, h1, h2, h3, h4, h5, h6, h7, h8, h9]
  exact ⟨e1.mono hb, e2.mono hb, e3.mono hb, e4, e5, e6⟩

theorem ClosedFile.mono {cfg : Config} {sites new : List Site} {bid bid' : Nat → Option Nat}
    {f : List Byte} {g : List (Nat × LogCall)} (h : ClosedFile cfg sites bid f g)
    (hb : ∀ t b, bid t = some b → bid' t = some b) : ClosedFile cfg (sites ++ new) bid' f g := by
  obtain ⟨c, jk, rs, k, h1, hk, h2⟩ := h
  exact ⟨c, jk, rs, k, h1.mono hb, hk.trans (List.prefix_append _ _), h2⟩

/-- Steps that leave files and statements alone. -/
theorem FInv.frame {cfg : Config} {prog : List Site} {s s' : Rt} (h : FInv cfg prog s)
    (hpc : ∀ t, PcOK cfg prog s.sites (s'.thr t).pc)
    (hlog : ∀ t, ∀ c ∈ (s'.thr t).log, CallOK cfg s.sites c)
    (hbid : ∀ t b, (s'.thr t).bid = some b → b < 2 ^ 32)
    (hb : ∀ t b, s.bids t = some b → s'.bids t = some b)
    (hn : s'.nextId < 2 ^ 32)
    (hi : s'.ids = s.ids) (hs : s'.sites = s.sites)
    (h1 : s'.gD = s.gD) (h2 : s'.gO = s.gO) (h3 : s'.gB = s.gB) (h4 : s'.shadow = s.shadow)
    (h5 : s'.disk = s.disk) (h6 : s'.aio = s.aio) (h7 : s'.mem = s.mem)
    (h8 : s'.encPtr = s.encPtr) (h9 : s'.dbl = s.dbl) (h10 : s'.pos = s.pos)
    (h11 : s'.closed = s.closed) : FInv cfg prog s' := by
  have hs' : s'.sites = s.sites ++ [] := by simp [hs]
  refine ⟨?_, by rw [hs]; exact hpc, by rw [hs]; exact hlog, hbid, hn, ?_,
    h.cur.mono hs' hb h1 h2 h3 h4 h5 h6 h7 h8 h9, ?_⟩
  · obtain ⟨ks, a, b, c⟩ := h.ids
    exact ⟨ks, a, by rw [hs]; exact b, by rw [hi]; exact c⟩
  · have : s'.enc = s.enc := by simp [Rt.enc, h4, h7, h8, h10, hs]
    rw [this]; exact h.enc
  · rw [h11, hs']
    exact fun p hp => (h.closed p hp).mono hb

/-- A step of one application thread. -/
theorem FInv.setThr {cfg : Config} {prog : List Site} {s : Rt} (h : FInv cfg prog s) (t : Nat)
    (th : Thr) (hpc : PcOK cfg prog s.sites th.pc) (hlog : ∀ c ∈ th.log, CallOK cfg s.sites c)
    (hbid : th.bid = (s.thr t).bid) : FInv cfg prog (s.setThr t th) := by
  have hb : ∀ u, (upd s.thr t th u).bid = (s.thr u).bid := by
    intro u
    by_cases hu : u = t
    · subst hu; rw [upd_same, hbid]
    · rw [upd_other _ _ hu]
  refine h.frame ?_ ?_ ?_ ?_ h.next rfl rfl rfl rfl rfl rfl rfl rfl rfl rfl rfl rfl rfl
  · intro u
    simp only [Rt.setThr]
    by_cases hu : u = t
    · subst hu; rw [upd_same]; exact hpc
    · rw [upd_other _ _ hu]; exact h.pc u
  · intro u
    simp only [Rt.setThr]
    by_cases hu : u = t
    · subst hu; rw [upd_same]; exact hlog
    · rw [upd_other _ _ hu]; exact h.log u
  · intro u b; simp only [Rt.setThr]; rw [hb]; exact h.bid u b
  · intro u b; simp only [Rt.setThr, Rt.bids]; rw [hb]; exact id

theorem FInv.setPc {cfg : Config} {prog : List Site} {s : Rt} (h : FInv cfg prog s) (t : Nat)
    {pc : TPc} (hpc : PcOK cfg prog s.sites pc) :
    FInv cfg prog (s.setThr t { s.thr t with pc := pc }) :=
  h.setThr t _ hpc (h.log t) rfl

/-- Variables without influence on the data. -/
theorem FInv.ctl {cfg : Config} {prog : List Site} {s s' : Rt} (h : FInv cfg prog s)
    (ht : s'.thr = s.thr) (hn : s'.nextId = s.nextId)
    (hi : s'.ids = s.ids) (hs : s'.sites = s.sites)
    (h1 : s'.gD = s.gD) (h2 : s'.gO = s.gO) (h3 : s'.gB = s.gB) (h4 : s'.shadow = s.shadow)
    (h5 : s'.disk = s.disk) (h6 : s'.aio = s.aio) (h7 : s'.mem = s.mem)
    (h8 : s'.encPtr = s.encPtr) (h9 : s'.dbl = s.dbl) (h10 : s'.pos = s.pos)
    (h11 : s'.closed = s.closed) : FInv cfg prog s' :=
  h.frame (by rw [ht]; exact h.pc) (by rw [ht]; exact h.log) (by rw [ht]; exact h.bid)
    (by simp only [Rt.bids, ht]; exact fun _ _ => id) (by rw [hn]; exact h.next) hi hs h1 h2 h3 h4
    h5 h6 h7 h8 h9 h10 h11

theorem argsOK_call {cfg : Config} (hst : cfg.staging < 2 ^ 31) {sites : List Site} {site : Site}
    {c : LogCall} (hs : sites[c.id]? = some site) (hn : sites.length < 2 ^ 31)
    (ha : ArgsOK cfg site c.args) (hts : c.ts < 2 ^ 64) : CallOK cfg sites c := by
  obtain ⟨is, ds, h1, h2⟩ := ha.prints
  have hsm := ha.small
  have hlt : c.id < sites.length := by
    by_contra hc; rw [List.getElem?_eq_none (by omega)] at hs; cases hs
  exact ⟨site, is, ds, ⟨hs, ha.tys, ha.valid, by omega, hts, by simp only [LogCall.size]; omega⟩,
    h1, h2, by simp only [LogCall.size]; omega⟩

theorem actLog_finv {cfg : Config} {prog : List Site} (hP : ProgOK cfg prog) {s s' : Rt} {l : Lbl}
    (h : FInv cfg prog s) (hl : l.OK cfg prog) (ha : s.actLog prog l = .ok s') :
    FInv cfg prog s' := by
  cases l <;> simp only [Rt.actLog] at ha <;> try cases ha
  case call t k args =>
    split at ha <;> try cases ha
    rename_i hpc hk
    split at ha <;> cases ha
    · exact h
    · exact h.setPc t ⟨_, hk, hl _ hk⟩
  case readId t stale =>
    split at ha <;> try cases ha
    rename_i k args hpc
    have hp := h.pc t
    rw [hpc] at hp
    split at ha <;> cases ha
    · exact h.setPc t hp
    · rename_i id hid
      refine h.setPc t ?_
      split
      · exact hp
      · obtain ⟨site, h1, h2⟩ := h.ids.site hid
        obtain ⟨site', h3, h4⟩ := hp
        rw [h2] at h3; cases h3
        exact ⟨site, h1, h4⟩
  case register t =>
    split at ha <;> try cases ha
    rename_i k args hpc
    have hp := h.pc t
    rw [hpc] at hp
    obtain ⟨site', h3, h4⟩ := hp
    split at ha <;> cases ha
    · rename_i id hid
      obtain ⟨site, h1, h2⟩ := h.ids.site hid
      rw [h2] at h3
      have h3' := Option.some.inj h3
      subst h3'
      exact h.setPc t ⟨site, h1, h4⟩
    · rename_i site hid hk
      rw [hk] at h3
      have h3' := Option.some.inj h3
      subst h3'
      have hb : ∀ u, (upd s.thr t { s.thr t with pc := .known s.sites.length args } u).bid =
          (s.thr u).bid := by
        intro u
        by_cases hu : u = t
        · subst hu; rw [upd_same]
        · rw [upd_other _ _ hu]
      have hbm : ∀ u b, s.bids u = some b → Rt.bids { s.setThr t { s.thr t with pc := .known s.sites.length args } with
              ids := upd s.ids k (some s.sites.length), sites := s.sites ++ [site] } u = some b := by
        intro u b hub
        simp only [Rt.bids, Rt.setThr]
        rw [hb]; exact hub
      have hids := h.ids.register (s' := { s.setThr t { s.thr t with pc := .known s.sites.length args } with
              ids := upd s.ids k (some s.sites.length), sites := s.sites ++ [site] }) hid hk rfl rfl
      refine ⟨hids, ?_, ?_, ?_, h.next, ?_,
        h.cur.mono rfl hbm rfl rfl rfl rfl rfl rfl rfl rfl rfl,
        fun p hp => (h.closed p hp).mono hbm⟩
      · intro u
        simp only [Rt.setThr]
        by_cases hu : u = t
        · subst hu; rw [upd_same]
          exact ⟨site, by rw [List.getElem?_concat_length], h4⟩
        · rw [upd_other _ _ hu]; exact (h.pc u).mono _
      · intro u c hc
        simp only [Rt.setThr] at hc
        have : c ∈ (s.thr u).log := by
          by_cases hu : u = t
          · subst hu; rw [upd_same] at hc; exact hc
          · rw [upd_other _ _ hu] at hc; exact hc
        exact (h.log u c this).mono _
      · intro u b; simp only [Rt.setThr]; rw [hb]; exact h.bid u b
      · obtain ⟨e1, e2, e3, e4⟩ := h.enc
        refine ⟨?_, ?_, e3, fun x hx => hP.sites x (hids.count.2 x hx)⟩
        · simp only [Rt.enc, Rt.setThr] at *
          rw [List.take_append_of_le_length e2]; exact e1
        · simp only [Rt.enc, Rt.setThr, List.length_append] at *; omega
  case stamp t ts =>
    split at ha <;> cases ha
    rename_i id args hpc
    have hp := h.pc t
    rw [hpc] at hp
    obtain ⟨site, h1, h2⟩ := hp
    have := h.ids.count.1
    have := hP.count
    exact h.setPc t (argsOK_call hP.staging (c := ⟨id, ts, args⟩) h1 (by omega) h2 hl)
  case reserve t =>
    split at ha <;> cases ha
    rename_i c hpc
    have hp := h.pc t
    rw [hpc] at hp
    refine h.setPc t ?_
    split <;> exact hp
  case commit t =>
    split at ha <;> try cases ha
    rename_i c hpc
    have hp := h.pc t
    rw [hpc] at hp
    split at ha <;> cases ha
    refine h.setThr t _ trivial ?_ rfl
    intro x hx
    rcases List.mem_append.1 hx with hx | hx
    · exact h.log t x hx
    · rw [List.mem_singleton.1 hx]; exact hp

theorem actBuf_finv {cfg : Config} {prog : List Site} {s s' : Rt} {l : Lbl}
    (hc : RtInv s) (h : FInv cfg prog s) (ha : s.actBuf l = .ok s') : FInv cfg prog s' := by
  cases l <;> simp only [Rt.actBuf] at ha <;> try cases ha
  case preallocate t =>
    split at ha <;> try cases ha
    split at ha <;> cases ha
    · exact h.setPc t trivial
    · exact h
  case takeId t =>
    split at ha <;> try cases ha
    rename_i c hpc
    split at ha <;> cases ha
    have hp := h.pc t
    rw [hpc] at hp
    have hnb := (hc.thr t).take c hpc
    refine h.frame ?_ ?_ ?_ ?_ ?_ rfl rfl rfl rfl rfl rfl rfl rfl rfl rfl rfl rfl rfl
    · intro u
      simp only [Rt.setThr]
      by_cases hu : u = t
      · subst hu; rw [upd_same]
        cases c <;> exact hp
      · rw [upd_other _ _ hu]; exact h.pc u
    · intro u
      simp only [Rt.setThr]
      by_cases hu : u = t
      · subst hu; rw [upd_same]; exact h.log u
      · rw [upd_other _ _ hu]; exact h.log u
    · intro u b
      simp only [Rt.setThr]
      by_cases hu : u = t
      · subst hu; rw [upd_same]; intro hb; cases hb; exact h.next
      · rw [upd_other _ _ hu]; exact h.bid u b
    · intro u b hub
      simp only [Rt.bids, Rt.setThr]
      rw [upd_other]
      · exact hub
      · rintro rfl
        simp only [Rt.bids] at hub
        rw [hnb] at hub; cases hub
    · exact Nat.mod_lt _ (by decide)
  case push t =>
    split at ha <;> try cases ha
    rename_i c hpc
    split at ha <;> cases ha
    have hp := h.pc t
    rw [hpc] at hp
    have := h.setPc t (pc := afterAlloc c) (by
      cases c <;> exact hp)
    exact this.ctl rfl rfl rfl rfl rfl rfl rfl rfl rfl rfl rfl rfl rfl rfl rfl
  case exitThread t =>
    split at ha <;> try cases ha
    split at ha
    · cases ha; exact h.setPc t trivial
    split at ha <;> cases ha
    exact h.setThr t _ trivial (h.log t) rfl

theorem notify_finv {cfg : Config} {prog : List Site} {s s' : Rt} {w : Option Nat}
    (h : FInv cfg prog s) (ha : s.notify w = .ok s') : FInv cfg prog s' := by
  unfold Rt.notify at ha
  split at ha
  · cases ha; exact h
  · rename_i w
    split at ha <;> cases ha
    exact h.setPc w trivial

theorem CurFile.close {cfg : Config} {s : Rt} (hc : RtInv s) (h : CurFile cfg s)
    (he : s.enc.Inv cfg) (hd : s.pc = .dead) : ClosedFile cfg s.sites s.bids s.disk s.gD := by
  obtain ⟨c, jk, rsD, rsO, rsB, rs', k1, k2, e1, e2, e3, e4, e5, e6⟩ := h
  have ha := hc.pcAio (.inr (.inr hd))
  have hgO := hc.aioNone ha
  have hgB := hc.gB (hc.dead hd)
  rw [ha] at e6
  rw [hgO] at e2
  rw [hgB] at e3
  have := (e1.append e2).append e3
  rw [e4.1] at this
  have hk : s.shadow <+: s.sites := by
    have := he.shadow
    simp only [Rt.enc] at this
    rw [this]; exact List.take_prefix _ _
  refine ⟨c, jk, rs', s.shadow, by simpa using this, hk, e4.2, ?_⟩
  rw [← e4.1, e6.2, e6.1]
  rw [hc.dead hd] at e5
  simp only [recBytes, List.append_nil, List.flatMap_append] at e5 ⊢
  rw [e5, List.append_nil]

theorem start_step {cfg : Config} {all : List Site} {jk : Nat} {c : Checkpoint} {e : EncSt}
    {n : Option Int}
    (h : EncSt.step cfg ⟨[], [], 0, [], all⟩ (.start jk c all) = some (e, n)) :
    e = ⟨[], checkpointBytes jk c, 0, [], all⟩ ∧ 40 ≤ cfg.output := by
  simp only [EncSt.step, insertCheckpoint] at h
  split at h
  · cases h
  split at h
  · cases h
  · rename_i he2
    split at he2 <;> cases he2
    cases h
    exact ⟨rfl, by omega⟩

theorem seg_ckpt {cap : Nat} {sites : List Site} {bid : Nat → Option Nat} {c : Checkpoint}
    (hc : c.Plain) {jk : Nat} (hj : jk < 2 ^ 62) :
    Seg cap sites bid c [] [.ckpt jk c] [] [] := ⟨[], .ckpt hc hj .nil, rfl, .nil⟩

theorem actCtl_finv {cfg : Config} {prog : List Site} (hP : ProgOK cfg prog) {s s' : Rt} {l : Lbl}
    (hc : RtInv s) (h : FInv cfg prog s) (hl : l.OK cfg prog) (ha : s.actCtl cfg l = .ok s') :
    FInv cfg prog s' := by
  cases l <;> simp only [Rt.actCtl] at ha <;> try cases ha
  case setLevel l => exact h.ctl rfl rfl rfl rfl rfl rfl rfl rfl rfl rfl rfl rfl rfl rfl rfl
  case sync t =>
    split at ha <;> cases ha
    exact (h.setPc t (pc := .sync false) trivial).ctl rfl rfl rfl rfl rfl rfl rfl rfl rfl rfl rfl rfl
      rfl rfl rfl
  case spurious t =>
    split at ha <;> cases ha
    exact h.setPc t trivial
  case ret t =>
    split at ha <;> cases ha
    refine h.setPc t ?_
    split <;> trivial
  case setFile t ok =>
    split at ha <;> try cases ha
    split at ha <;> cases ha
    · exact (h.setPc t (pc := .sync true) trivial).ctl rfl rfl rfl rfl rfl rfl rfl rfl rfl rfl rfl rfl
        rfl rfl rfl
    · exact h
  case stop t =>
    split at ha <;> cases ha
    exact (h.setPc t (pc := .join) trivial).ctl rfl rfl rfl rfl rfl rfl rfl rfl rfl rfl rfl rfl
      rfl rfl rfl
  case join t jk c =>
    split at ha <;> try cases ha
    rename_i hpc hdead
    split at ha <;> cases ha
    rename_i e _ he
    obtain ⟨rfl, -⟩ := start_step he
    have h1 := h.setPc t (pc := .idle) trivial
    have hcl := h.cur.close hc h.enc hdead
    have hlen := checkpointBytes_length (junk := jk) hl.1.1
    have hroom := hP.room
    have hno := hc.pcAio (.inr (.inr hdead))
    have hbm : ∀ u b, s.bids u = some b →
        Rt.bids (s.setThr t { s.thr t with pc := .idle }) u = some b := by
      intro u b hub
      simp only [Rt.bids, Rt.setThr]
      by_cases hu : u = t
      · subst hu; rw [upd_same]; exact hub
      · rw [upd_other _ _ hu]; exact hub
    refine ⟨h1.ids, h1.pc, h1.log, h1.bid, h1.next, ?_, ?_, ?_⟩
    · refine ⟨by simp [Rt.enc, Rt.setThr], by simp [Rt.enc], ?_, h.enc.sites⟩
      simp only [Rt.enc, upd_same]; omega
    · refine ⟨c, jk, [], [], [.ckpt jk c], [], [], [], .nil, .nil, seg_ckpt hl.1 hl.2, ⟨rfl, .nil⟩, ?_, ?_⟩
      · simp [recBytes, Rec.bytes]
      · simp [Rt.setThr, hno, recBytes]
    · intro p hp
      simp only at hp
      rcases List.mem_append.1 hp with hp | hp
      · exact h1.closed p hp
      · rw [List.mem_singleton.1 hp]
        have := hcl.mono (new := []) hbm
        rw [List.append_nil] at this
        exact this

/-! ## Encoder steps -/

theorem Rt.msgBytes_eq (s : Rt) (cs : List LogCall) : s.msgBytes cs = queueBytes s.sites cs := by
  induction cs with
  | nil => rfl
  | cons c cs ih => rw [Rt.msgBytes, queueBytes, ih]; cases s.sites[c.id]? <;> rfl

theorem Rt.msgSize_eq (s : Rt) : s.msgSize = callSize s.sites := by
  funext c; rfl

theorem countBytes_ok {size : LogCall → Nat} {cs : List LogCall} (h : ∀ c ∈ cs, 0 < size c)
    {k : Nat} (hk : k ≤ cs.length) : countBytes size cs ((cs.take k).map size).sum = some k := by
  induction cs generalizing k with
  | nil => simp at hk; subst hk; rfl
  | cons c cs ih =>
    cases k with
    | zero => simp [countBytes]
    | succ k =>
      have hc := h c (by simp)
      have hs : ((List.take (k + 1) (c :: cs)).map size).sum =
          size c + ((cs.take k).map size).sum := by simp
      have ht := ih (fun c hc => h c (by simp [hc])) (k := k) (by simpa using hk)
      rw [hs]
      obtain ⟨m, hm⟩ : ∃ m, size c + ((cs.take k).map size).sum = m + 1 := ⟨_, (Nat.succ_pred_eq_of_pos (by omega)).symm⟩
      rw [hm, countBytes, if_pos (by omega), ← hm]
      rw [show size c + ((cs.take k).map size).sum - size c = ((cs.take k).map size).sum by omega, ht]
      rfl

theorem logged_dict {cfg : Config} {ck : Checkpoint} {all : List Site} {k : Nat} {ns : List Int}
    {ms : List OutMsg} (h : Logged cfg ck all [.dict k] ns ms) : ms = [] := by
  cases h with | dict h => cases h; rfl

theorem logged_batch {cfg : Config} {ck : Checkpoint} {all : List Site} {junk : Nat → Nat}
    {cs : List LogCall} {mem : List Byte} {nbytes tid : Nat} {np : Bool} {ns : List Int}
    {ms : List OutMsg} (h : Logged cfg ck all [.batch junk cs mem nbytes tid np] ns ms) :
    ∃ k, k ≤ cs.length ∧ ns = [(queueSize all (cs.take k) : Int)] ∧
      List.Forall₂ (Prints all tid ck) (cs.take k) ms := by
  cases h with
  | @batch _ _ _ _ _ _ _ _ _ ns ms ms' k hb hk h =>
    cases h
    refine ⟨k, hk, rfl, ?_⟩
    rw [List.append_nil]
    have := hb.prints
    exact List.forall₂_take k this

theorem ProgOK.cfg {cfg : Config} {prog : List Site} (h : ProgOK cfg prog) : cfg.OK :=
  ⟨h.staging, h.output, h.room⟩

/-- Dictionary step. -/
theorem dict_step {cfg : Config} {prog : List Site} (hP : ProgOK cfg prog) {s : Rt}
    (h : FInv cfg prog s) (c : Checkpoint) (k : Nat) :
    ∃ e n rs, s.enc.step cfg (.dict k) = some (e, n) ∧ e.Inv cfg ∧ e.all = s.sites ∧
      (e.buf = s.mem s.encPtr ++ recBytes rs ∧ NoCkpt rs) ∧
      Seg (cfg.staging + 9) s.sites s.bids c s.shadow rs [] e.shadow := by
  obtain ⟨ck1, e, n, rs, ms, h1, -, -⟩ := step_ok cfg hP.cfg (ck := c) (op := .dict k) (ops := [])
    (st := s.enc) (.dict .nil) h.enc trivial
  obtain ⟨p1, p2, p3⟩ := encodeDict_prefix h1.step
  obtain ⟨hck, hnc, -⟩ := h1.exts (by simp)
  subst hck
  have hb := h1.bytes
  rw [p2] at hb
  have hm := logged_dict (h1.logged .nil)
  simp only [List.append_nil] at hm
  subst hm
  exact ⟨e, n, rs, h1.step, h1.inv, p3, ⟨by simpa [Rt.enc] using hb, hnc⟩, [], h1.holds, h1.after, .nil⟩

theorem batch_all {cfg : Config} {st e : EncSt} {junk : Nat → Nat}
    {cs : List LogCall} {mem : List Byte} {nbytes tid : Nat} {np : Bool} {n : Option Int}
    (h : st.step cfg (.batch junk cs mem nbytes tid np) = some (e, n)) :
    e.file = st.file ∧ e.all = st.all ∧ e.shadow = st.shadow ∧ e.pos = st.pos := by
  simp only [EncSt.step] at h
  split at h <;> cases h
  exact ⟨rfl, rfl, rfl, rfl⟩

/-- One chunk. -/
theorem batch_step {cfg : Config} {prog : List Site} (hP : ProgOK cfg prog) {s : Rt}
    (hc : RtInv s) (h : FInv cfg prog s) (c : Checkpoint) {b : Nat}
    (hb : (s.thr s.cur).bid = some b) (junk : Nat → Nat) (more : List Byte) :
    ∃ e rs k, s.enc.step cfg (.batch junk ((s.thr s.cur).q.take s.rem)
        (s.msgBytes ((s.thr s.cur).q.take s.rem) ++ more)
        (min cfg.release (s.msgBytes ((s.thr s.cur).q.take s.rem)).length) b s.wrap) =
          some (e, some (queueSize s.sites (((s.thr s.cur).q.take s.rem).take k) : Int)) ∧
      k ≤ ((s.thr s.cur).q.take s.rem).length ∧
      countBytes s.msgSize ((s.thr s.cur).q.take s.rem)
        (queueSize s.sites (((s.thr s.cur).q.take s.rem).take k)) = some k ∧
      e.Inv cfg ∧ e.all = s.sites ∧
      (e.buf = s.mem s.encPtr ++ recBytes rs ∧ NoCkpt rs) ∧
      Seg (cfg.staging + 9) s.sites s.bids c s.shadow rs
        ((((s.thr s.cur).q.take s.rem).take k).map fun x => (s.cur, x)) e.shadow := by
  have hall : ∀ x ∈ (s.thr s.cur).q.take s.rem, CallOK cfg s.sites x := by
    intro x hx
    apply h.log s.cur
    rw [(hc.thr s.cur).log]
    exact List.mem_append_right _ (List.mem_of_mem_take hx)
  generalize (s.thr s.cur).q.take s.rem = cs at hall ⊢
  obtain ⟨ms', hms'⟩ := CallOK.all_prints hall b c
  have hql := (queueBytes_length (queue_of_prints hms')).1
  rw [s.msgBytes_eq]
  have hbo : BatchOK cfg s.sites b c cs (queueBytes s.sites cs ++ more)
      (min cfg.release (queueBytes s.sites cs).length) ms' := by
    refine ⟨⟨more, rfl⟩, hms', by omega, ?_, fun x hx => (hall x hx).size.2, h.bid _ _ hb⟩
    have := hP.release
    omega
  obtain ⟨ck1, e, n, rs, ms, h1, -, -⟩ := step_ok cfg hP.cfg (ck := c)
    (op := .batch junk cs (queueBytes s.sites cs ++ more)
      (min cfg.release (queueBytes s.sites cs).length) b s.wrap) (ops := [])
    (st := s.enc) (.batch hbo .nil) h.enc trivial
  obtain ⟨p1, p2, p3, p4⟩ := batch_all h1.step
  obtain ⟨hck, hnc, -⟩ := h1.exts (by simp)
  subst hck
  have hby := h1.bytes
  rw [p1] at hby
  obtain ⟨k, hk, hn, hpr⟩ := logged_batch (h1.logged .nil)
  simp only [List.append_nil] at hn hpr
  have hn' : n = some (queueSize s.sites (cs.take k) : Int) := by
    cases n with
    | none => simp at hn
    | some n => simp at hn; rw [hn]; rfl
  subst hn'
  refine ⟨e, rs, k, h1.step, hk, ?_, h1.inv, p2, ⟨by simpa [Rt.enc] using hby, hnc⟩, ms, h1.holds,
    h1.after, ?_⟩
  · rw [s.msgSize_eq]
    exact countBytes_ok (fun x hx => by have := (hall x hx).size.1; omega) hk
  · rw [List.forall₂_map_left_iff]
    exact hpr.imp fun x m hx => ⟨b, hb, hx⟩

/-- The files after an encoder step. -/
theorem CurFile.encode {cfg : Config} {s s' : Rt} {e : EncSt}
    {g : List (Nat × LogCall)} (hci : RtInv s) (h : CurFile cfg s)
    (hst : ∀ c, ∃ rs, (e.buf = s.mem s.encPtr ++ recBytes rs ∧ NoCkpt rs) ∧
      Seg (cfg.staging + 9) s.sites s.bids c s.shadow rs g e.shadow)
    (h0 : s'.sites = s.sites) (h0' : s'.bids = s.bids)
    (h1 : s'.gD = s.gD) (h2 : s'.gO = s.gO) (h3 : s'.gB = s.gB ++ g) (h4 : s'.shadow = e.shadow)
    (h5 : s'.disk = s.disk) (h6 : s'.aio = s.aio) (h7 : s'.mem = upd s.mem s.encPtr e.buf)
    (h8 : s'.encPtr = s.encPtr) (h9 : s'.dbl = s.dbl) : CurFile cfg s' := by
  obtain ⟨c, jk, rsD, rsO, rsB, rs', k1, k2, e1, e2, e3, e4, e5, e6⟩ := h
  obtain ⟨rs, f1, f2⟩ := hst c
  refine ⟨c, jk, rsD, rsO, rsB ++ rs, rs' ++ rs, k1, k2, ?_⟩
  rw [h0, h0', h1, h2, h3, h4, h5, h6, h7, h8, h9, upd_same,
    upd_other _ _ (by rw [hci.ptr2]; simp)]
  refine ⟨e1, e2, e3.append f2, ?_, ?_, e6⟩
  · rw [← List.append_assoc, e4.1]; exact ⟨rfl, e4.2.append f1.2⟩
  · rw [f1.1, ← e5]; simp [recBytes]

theorem advance_thr {s s' : Rt} {j : Nat} (ha : s.advance j = .ok s') :
    s'.thr = s.thr ∧ s'.nextId = s.nextId ∧ s'.ids = s.ids ∧ s'.sites = s.sites ∧ s'.gD = s.gD ∧
    s'.gO = s.gO ∧ s'.gB = s.gB ∧ s'.shadow = s.shadow ∧ s'.disk = s.disk ∧ s'.aio = s.aio ∧
    s'.mem = s.mem ∧ s'.encPtr = s.encPtr ∧ s'.dbl = s.dbl ∧ s'.pos = s.pos ∧
    s'.closed = s.closed := by
  unfold Rt.advance at ha
  split at ha <;> cases ha
  exact ⟨rfl, rfl, rfl, rfl, rfl, rfl, rfl, rfl, rfl, rfl, rfl, rfl, rfl, rfl, rfl⟩

theorem advance_finv {cfg : Config} {prog : List Site} {s s' : Rt} {j : Nat}
    (h : FInv cfg prog s) (ha : s.advance j = .ok s') : FInv cfg prog s' := by
  obtain ⟨h1, h2, h3, h4, h5, h6, h7, h8, h9, h10, h11, h12, h13, h14, h15⟩ := advance_thr ha
  exact h.ctl h1 h2 h3 h4 h5 h6 h7 h8 h9 h10 h11 h12 h13 h14 h15

theorem actScan_finv {cfg : Config} {prog : List Site} (hP : ProgOK cfg prog) {s s' : Rt} {l : Lbl}
    (hc : RtInv s) (h : FInv cfg prog s) (ha : s.actScan cfg l = .ok s') : FInv cfg prog s' := by
  cases l <;> simp only [Rt.actScan] at ha <;> try cases ha
  case top =>
    split at ha
    · cases ha
    split at ha <;> cases ha
    · exact h.ctl rfl rfl rfl rfl rfl rfl rfl rfl rfl rfl rfl rfl rfl rfl rfl
    · exact h.ctl rfl rfl rfl rfl rfl rfl rfl rfl rfl rfl rfl rfl rfl rfl rfl
  case dict skip =>
    split at ha
    · cases ha
    split at ha
    · cases ha
      exact h.ctl rfl rfl rfl rfl rfl rfl rfl rfl rfl rfl rfl rfl rfl rfl rfl
    · split at ha <;> cases ha
      rename_i e n he
      have hst : ∀ c, ∃ rs, (e.buf = s.mem s.encPtr ++ recBytes rs ∧ NoCkpt rs) ∧
          Seg (cfg.staging + 9) s.sites s.bids c s.shadow rs [] e.shadow := by
        intro c
        obtain ⟨e', n', rs, q1, -, -, q2, q3⟩ := dict_step hP h c s.sites.length
        rw [he] at q1; cases q1
        exact ⟨rs, q2, q3⟩
      obtain ⟨e', n', rs, q1, q4, q5, -, -⟩ := dict_step hP h ⟨0, 0, [], 0, 0⟩ s.sites.length
      rw [he] at q1; cases q1
      refine ⟨h.ids, h.pc, h.log, h.bid, h.next, ?_, ?_, h.closed⟩
      · have : ({ s.setEnc e with pc := .scan } : Rt).enc = { e with file := [] } := by
          simp [Rt.enc, Rt.setEnc, q5]
        rw [this]
        exact ⟨q4.shadow, q4.pos, q4.buf, q4.sites⟩
      · exact h.cur.encode hc hst rfl rfl rfl rfl (by simp [Rt.setEnc]) rfl rfl rfl rfl rfl rfl
  case peek n =>
    split at ha
    · cases ha
    split at ha
    · cases ha
      exact h.ctl rfl rfl rfl rfl rfl rfl rfl rfl rfl rfl rfl rfl rfl rfl rfl
    split at ha
    · cases ha
    split at ha
    · cases ha
    split at ha
    · split at ha <;> cases ha
      exact h.ctl rfl rfl rfl rfl rfl rfl rfl rfl rfl rfl rfl rfl rfl rfl rfl
    · split at ha <;> cases ha
      exact h.ctl rfl rfl rfl rfl rfl rfl rfl rfl rfl rfl rfl rfl rfl rfl rfl
  case check =>
    split at ha
    · cases ha
    split at ha
    · have h1 := h.setThr s.cur { s.thr s.cur with freed := true } (h.pc _) (h.log _) rfl
      split at ha
      · cases ha
        exact h1.ctl rfl rfl rfl rfl rfl rfl rfl rfl rfl rfl rfl rfl rfl rfl rfl
      · refine advance_finv ?_ ha
        exact h1.ctl rfl rfl rfl rfl rfl rfl rfl rfl rfl rfl rfl rfl rfl rfl rfl
    · exact advance_finv h ha
  case encode junk more =>
    split at ha
    · cases ha
    split at ha
    · cases ha
    split at ha
    · cases ha
    rename_i b hb
    obtain ⟨e, rs, k, q1, q2, q3, q4, q5, q6, q7⟩ := batch_step hP hc h ⟨0, 0, [], 0, 0⟩ hb junk more
    have hsegs : ∀ c, ∃ rs, (e.buf = s.mem s.encPtr ++ recBytes rs ∧ NoCkpt rs) ∧
        Seg (cfg.staging + 9) s.sites s.bids c s.shadow rs
          ((((s.thr s.cur).q.take s.rem).take k).map fun x => (s.cur, x)) e.shadow := by
      intro c
      obtain ⟨e', rs, k', w1, w2, w3, w4, w5, w6, w7⟩ := batch_step hP hc h c hb junk more
      rw [q1] at w1
      simp only [Option.some.injEq, Prod.mk.injEq, Int.ofNat_inj] at w1
      obtain ⟨rfl, w1⟩ := w1
      rw [← w1, q3] at w3
      cases w3
      exact ⟨rs, w6, w7⟩
    rw [q1] at ha
    simp only at ha
    have henc : ∀ s1 : Rt, s1.sites = s.sites → s1.mem s1.encPtr = e.buf → s1.pos = e.pos →
        s1.shadow = e.shadow → s1.enc.Inv cfg := by
      intro s1 x1 x2 x3 x4
      have : s1.enc = { e with file := [] } := by
        simp [Rt.enc, x1, x2, x3, x4, q5]
      rw [this]
      exact ⟨q4.shadow, q4.pos, q4.buf, q4.sites⟩
    split at ha
    · rename_i hz
      have hz' : queueSize s.sites (((s.thr s.cur).q.take s.rem).take k) = 0 := by exact_mod_cast hz
      have hk0 : k = 0 := by
        rw [hz'] at q3
        simp [countBytes] at q3; omega
      subst hk0
      refine advance_finv ?_ ha
      refine ⟨h.ids, h.pc, h.log, h.bid, h.next, henc _ rfl (by simp [Rt.setEnc]) rfl rfl, ?_, h.closed⟩
      exact h.cur.encode hc hsegs rfl rfl rfl rfl (by simp [Rt.setEnc]) rfl rfl rfl rfl rfl rfl
    · rw [Int.toNat_natCast, q3] at ha
      simp only at ha
      have h1 := h.setThr s.cur { s.thr s.cur with q := (s.thr s.cur).q.drop k } (h.pc _) (h.log _) rfl
      have hbids : Rt.bids (s.setThr s.cur { s.thr s.cur with q := (s.thr s.cur).q.drop k }) =
          s.bids := by
        funext u
        simp only [Rt.bids, Rt.setThr]
        by_cases hu : u = s.cur
        · subst hu; rw [upd_same]
        · rw [upd_other _ _ hu]
      have h2 : FInv cfg prog { (s.setEnc e).setThr s.cur { s.thr s.cur with q := (s.thr s.cur).q.drop k } with
                          wrap := false, rem := s.rem - k
                          gB := s.gB ++ (((s.thr s.cur).q.take s.rem).take k).map fun c => (s.cur, c) } := by
        refine ⟨h1.ids, h1.pc, h1.log, h1.bid, h1.next,
          henc _ rfl (by simp [Rt.setEnc, Rt.setThr]) rfl rfl, ?_, h1.closed⟩
        exact h.cur.encode hc hsegs rfl hbids rfl rfl rfl rfl rfl rfl rfl rfl rfl
      split at ha
      · exact advance_finv h2 ha
      · cases ha; exact h2

theorem actIo_finv {cfg : Config} {prog : List Site} {s s' : Rt} {l : Lbl}
    (hc : RtInv s) (h : FInv cfg prog s) (ha : s.actIo l = .ok s') : FInv cfg prog s' := by
  cases l <;> simp only [Rt.actIo] at ha <;> try cases ha
  case scanned w =>
    split at ha
    · cases ha
    split at ha
    · cases ha
      exact h.ctl rfl rfl rfl rfl rfl rfl rfl rfl rfl rfl rfl rfl rfl rfl rfl
    split at ha
    · cases ha
      exact h.ctl rfl rfl rfl rfl rfl rfl rfl rfl rfl rfl rfl rfl rfl rfl rfl
    split at ha
    · refine notify_finv ?_ ha
      exact h.ctl rfl rfl rfl rfl rfl rfl rfl rfl rfl rfl rfl rfl rfl rfl rfl
    · cases ha
      exact h.ctl rfl rfl rfl rfl rfl rfl rfl rfl rfl rfl rfl rfl rfl rfl rfl
  case aio =>
    split at ha
    · cases ha
    split at ha
    · cases ha
      exact h.ctl rfl rfl rfl rfl rfl rfl rfl rfl rfl rfl rfl rfl rfl rfl rfl
    · rename_i a hs
      split at ha
      · cases ha
        rename_i hdone
        refine ⟨h.ids, h.pc, h.log, h.bid, h.next, h.enc, ?_, h.closed⟩
        obtain ⟨c, jk, rsD, rsO, rsB, rs', k1, k2, e1, e2, e3, e4, e5, e6⟩ := h.cur
        rw [hs] at e6
        obtain ⟨a1, a2, a3⟩ := hc.aioOK a hs
        refine ⟨c, jk, rsD ++ rsO, [], rsB, rs', k2, k2, e1.append e2, .nil, e3, by simpa using e4,
          e5, rfl, ?_⟩
        simp only
        rw [e6.2, hdone, a2, List.take_length, ← e6.1]
        simp [recBytes]
      · split at ha <;> cases ha
        exact h.ctl rfl rfl rfl rfl rfl rfl rfl rfl rfl rfl rfl rfl rfl rfl rfl
  case aioDone w =>
    split at ha
    · cases ha
    split at ha
    · refine notify_finv ?_ ha
      exact h.ctl rfl rfl rfl rfl rfl rfl rfl rfl rfl rfl rfl rfl rfl rfl rfl
    · cases ha
      exact h.ctl rfl rfl rfl rfl rfl rfl rfl rfl rfl rfl rfl rfl rfl rfl rfl
  case write =>
    split at ha
    · cases ha
    rename_i hpc
    simp only [ne_eq, Decidable.not_not] at hpc
    have hn := hc.pcAio (.inr (.inl hpc))
    split at ha <;> cases ha
    · exact h.ctl rfl rfl rfl rfl rfl rfl rfl rfl rfl rfl rfl rfl rfl rfl rfl
    · refine ⟨h.ids, h.pc, h.log, h.bid, h.next, ?_, ?_, h.closed⟩
      · exact ⟨h.enc.shadow, h.enc.pos, by simp [Rt.enc], h.enc.sites⟩
      · obtain ⟨c, jk, rsD, rsO, rsB, rs', k1, k2, e1, e2, e3, e4, e5, e6⟩ := h.cur
        rw [hn] at e6
        refine ⟨c, jk, rsD, rsO ++ rsB, [], rs', k1, s.shadow, e1, e2.append e3, .nil,
          by simpa using e4, by simp [recBytes], ?_, ?_⟩
        · simp only
          rw [upd_other _ _ (by rw [hc.ptr, hc.ptr2]; simp), hc.ptr, e6.1, ← e5]; rfl
        · simp [e6.2]
  case disk n =>
    split at ha
    · cases ha
    rename_i a hs
    split at ha <;> try cases ha
    split at ha <;> cases ha
    rename_i hle hub
    refine ⟨h.ids, h.pc, h.log, h.bid, h.next, h.enc, ?_, h.closed⟩
    obtain ⟨c, jk, rsD, rsO, rsB, rs', k1, k2, e1, e2, e3, e4, e5, e6⟩ := h.cur
    rw [hs] at e6
    obtain ⟨a1, a2, a3⟩ := hc.aioOK a hs
    refine ⟨c, jk, rsD, rsO, rsB, rs', k1, k2, e1, e2, e3, e4, e5, e6.1, ?_⟩
    simp only
    rw [e6.2, a1, List.append_assoc, List.take_add]

theorem act_finv {cfg : Config} {prog : List Site} (hP : ProgOK cfg prog) {s s' : Rt} {l : Lbl}
    (hc : RtInv s) (h : FInv cfg prog s) (hl : l.OK cfg prog) (ha : s.act cfg prog l = .ok s') :
    FInv cfg prog s' := by
  unfold Rt.act at ha
  split at ha <;> first
    | exact actLog_finv hP h hl ha | exact actBuf_finv hc h ha | exact actCtl_finv hP hc h hl ha
    | exact actScan_finv hP hc h ha | exact actIo_finv hc h ha

theorem init_finv {cfg : Config} {prog : List Site} {jk : Nat} {c : Checkpoint} (hcp : c.Plain)
    (hj : jk < 2 ^ 62) {s : Rt} (h : Rt.init cfg jk c = some s) : FInv cfg prog s := by
  unfold Rt.init at h
  split at h <;> cases h
  rename_i e n he
  obtain ⟨rfl, hroom⟩ := start_step he
  have hlen := checkpointBytes_length (junk := jk) hcp.1
  refine ⟨⟨[], by simp, by simp, by simp⟩, by simp [Thr.init, PcOK], by simp [Thr.init],
    by simp [Thr.init], by simp, ⟨by simp [Rt.enc], by simp [Rt.enc], ?_, by simp [Rt.enc, SitesOK]⟩,
    ?_, by simp⟩
  · simp only [Rt.enc, if_true]; omega
  · exact ⟨c, jk, [], [], [.ckpt jk c], [], [], [], .nil, .nil, seg_ckpt hcp hj, ⟨rfl, .nil⟩,
      by simp [recBytes, Rec.bytes], rfl, rfl⟩

/-! ## No undefined behaviour -/

theorem notify_noub {s : Rt} {w : Option Nat} : s.notify w ≠ .ub := by
  unfold Rt.notify
  split
  · simp
  · split <;> simp

theorem advance_noub {s : Rt} {j : Nat} (h : s.bufs ≠ []) : s.advance j ≠ .ub := by
  unfold Rt.advance
  rw [if_neg (by simpa using h)]
  simp

theorem act_noub {cfg : Config} {prog : List Site} (hP : ProgOK cfg prog) {s : Rt} {l : Lbl}
    (hc : RtInv s) (h : FInv cfg prog s) : s.act cfg prog l ≠ .ub := by
  cases l <;> simp only [Rt.act]
  case call t k args =>
    simp only [Rt.actLog]; split
    · split <;> simp
    · simp
  case readId t stale =>
    simp only [Rt.actLog]; split
    · split <;> simp
    · simp
  case register t =>
    simp only [Rt.actLog]; split
    · split <;> simp
    · simp
  case stamp t ts => simp only [Rt.actLog]; split <;> simp
  case reserve t => simp only [Rt.actLog]; split <;> simp
  case commit t =>
    simp only [Rt.actLog]; split
    · rename_i c hpc
      have := ((hc.thr t).alloc ((hc.thr t).write c hpc)).1
      simp [this]
    · simp
  case preallocate t =>
    simp only [Rt.actBuf]; split
    · split <;> simp
    · simp
  case takeId t =>
    simp only [Rt.actBuf]; split
    · split <;> simp
    · simp
  case push t =>
    simp only [Rt.actBuf]; split
    · split <;> simp
    · simp
  case exitThread t =>
    simp only [Rt.actBuf]; split
    · rename_i hpc
      have := ((hc.thr t).alive (by simp [hpc])).1
      split
      · simp
      · simp [this]
    · simp
  case setLevel l => simp [Rt.actCtl]
  case sync t => simp only [Rt.actCtl]; split <;> simp
  case spurious t => simp only [Rt.actCtl]; split <;> simp
  case ret t => simp only [Rt.actCtl]; split <;> simp
  case setFile t ok =>
    simp only [Rt.actCtl]; split
    · split <;> simp
    · simp
  case stop t => simp only [Rt.actCtl]; split <;> simp
  case join t jk c =>
    simp only [Rt.actCtl]; split
    · have := hP.room
      have he : EncSt.step cfg ⟨[], [], 0, [], s.sites⟩ (.start jk c s.sites) =
          some (⟨[], checkpointBytes jk c, 0, [], s.sites⟩, none) := by
        simp only [EncSt.step, insertCheckpoint]
        rw [if_neg (by simp), if_neg (by omega)]
      rw [he]; simp
    · simp
  case top => simp only [Rt.actScan]; split <;> [simp; (split <;> simp)]
  case dict skip =>
    simp only [Rt.actScan]
    split
    · simp
    split
    · simp
    · obtain ⟨e, n, rs, q1, -⟩ := dict_step hP h ⟨0, 0, [], 0, 0⟩ s.sites.length
      rw [q1]; simp
  case peek n =>
    simp only [Rt.actScan]
    split
    · simp
    rename_i hpc
    simp only [ne_eq, Decidable.not_not] at hpc
    split
    · simp
    rename_i hfb
    have hb : s.bufs ≠ [] := fun hb => hfb (.inr hb)
    have hi := hc.scanI (.inr hpc) hb
    rw [List.getElem?_eq_getElem hi]
    simp only
    have := ((hc.thr s.bufs[s.i]).alloc (List.getElem_mem hi)).1
    rw [if_neg (by simp [this])]
    split
    · split <;> simp
    · split <;> simp
  case check =>
    simp only [Rt.actScan]
    split
    · simp
    rename_i hpc
    simp only [ne_eq, Decidable.not_not] at hpc
    have hm := List.mem_of_getElem? (hc.curI (.inl hpc))
    split
    · split
      · simp
      · exact advance_noub (by assumption)
    · exact advance_noub (List.ne_nil_of_mem hm)
  case encode junk more =>
    simp only [Rt.actScan]
    split
    · simp
    rename_i hpc
    simp only [ne_eq, Decidable.not_not] at hpc
    have hm := List.mem_of_getElem? (hc.curI (.inr hpc))
    have hal := (hc.thr s.cur).alloc hm
    rw [if_neg (by simp [hal.1])]
    cases hb : (s.thr s.cur).bid with
    | none => exact absurd hb hal.2
    | some b =>
      obtain ⟨e, rs, k, q1, q2, q3, q4, q5, q6, q7⟩ := batch_step hP hc h ⟨0, 0, [], 0, 0⟩ hb junk more
      simp only
      rw [q1]
      simp only
      split
      · exact advance_noub (List.ne_nil_of_mem hm)
      · rw [Int.toNat_natCast, q3]
        simp only
        split
        · exact advance_noub (List.ne_nil_of_mem hm)
        · simp
  case scanned w =>
    simp only [Rt.actIo]
    split
    · simp
    split
    · simp
    split
    · simp
    split
    · exact notify_noub
    · simp
  case aio =>
    simp only [Rt.actIo]
    split
    · simp
    split
    · simp
    split
    · simp
    split <;> simp
  case aioDone w =>
    simp only [Rt.actIo]
    split
    · simp
    split
    · exact notify_noub
    · simp
  case write =>
    simp only [Rt.actIo]
    split
    · simp
    split <;> simp
  case disk n =>
    simp only [Rt.actIo]
    split
    · simp
    rename_i a hs
    obtain ⟨a1, a2, a3⟩ := hc.aioOK a hs
    split
    · rw [a1, if_neg (by omega)]; simp
    · simp

/-! ## Executions -/

theorem rtRun_inv {cfg : Config} {prog : List Site} (hP : ProgOK cfg prog) {ls : List Lbl} {s s' : Rt}
    (hc : RtInv s) (h : FInv cfg prog s) (hl : ∀ l ∈ ls, l.OK cfg prog)
    (hr : s.run cfg prog ls = .ok s') : RtInv s' ∧ FInv cfg prog s' := by
  induction ls generalizing s with
  | nil => cases hr; exact ⟨hc, h⟩
  | cons l ls ih =>
    simp only [Rt.run] at hr
    split at hr <;> try cases hr
    rename_i s1 ha
    exact ih (act_cinv hP.room hc ha) (act_finv hP hc h (hl l (by simp)) ha)
      (fun l hl' => hl l (by simp [hl'])) hr

theorem run_noub {cfg : Config} {prog : List Site} (hP : ProgOK cfg prog) {ls : List Lbl} {s : Rt}
    (hc : RtInv s) (h : FInv cfg prog s) (hl : ∀ l ∈ ls, l.OK cfg prog) :
    s.run cfg prog ls ≠ .ub := by
  induction ls generalizing s with
  | nil => simp [Rt.run]
  | cons l ls ih =>
    simp only [Rt.run]
    split
    · rename_i s1 ha
      exact ih (act_cinv hP.room hc ha) (act_finv hP hc h (hl l (by simp)) ha)
        (fun l hl' => hl l (by simp [hl']))
    · simp
    · rename_i ha
      exact absurd ha (act_noub hP hc h)

theorem RtExec.inv {cfg : Config} {prog : List Site} (hP : ProgOK cfg prog) {ls : List Lbl} {s : Rt}
    (h : RtExec cfg prog ls s) : RtInv s ∧ FInv cfg prog s := by
  obtain ⟨jk, c, s0, h1, h2, h3, h4, h5⟩ := h
  exact rtRun_inv hP (init_cinv h3) (init_finv h1 h2 h3) h4 h5

end NanoLog
