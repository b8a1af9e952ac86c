import Verif.ComposedSim

/-! The runtime with its staging buffers byte by byte behaves like the runtime with queues of messages: every step of a
thread. -/

namespace NanoLog

section
variable {s0 : Rt} {cfg : Config} {prog : List Site} {cls : List CLbl} {c c' : Cr} {als : List Lbl} {G G' : Ov}
  {kls : Nat → List (Nat × LogCall)} {r : Nat → List (Nat × List Arg)} {τ : Nat → List Nat} {held : Nat → Nat}

theorem TRel.inSync {ids : Nat → Option Nat} {sites : List Site} {s : SB} {ct ta : Thr} {hd : Nat}
    {k : List (Nat × LogCall)} {r : List (Nat × List Arg)} {τ : List Nat}
    (h : TRel cfg prog ids sites s ct ta hd k r τ) (hp : ct.pc.lags = false) : k = [] ∧ ta.pc = ct.pc := by
  have hk : k = [] := by
    cases k with
    | nil => rfl
    | cons p rest => have := (h.lag p rest rfl).2.1; rw [hp] at this; cases this
  refine ⟨hk, ?_⟩
  rw [h.sync hk, aim, if_neg]
  rintro ⟨e, -⟩
  rw [e] at hp; cases hp

theorem TRel.here {ids : Nat → Option Nat} {sites : List Site} {s : SB} {ct ta : Thr} {hd : Nat}
    {k : List (Nat × LogCall)} {r : List (Nat × List Arg)} {τ : List Nat}
    (h : TRel cfg prog ids sites s ct ta hd k r τ) (hp : ct.pc ≠ .exited) (hk : k = []) : ta.pc = ct.pc := by
  rw [h.sync hk, aim, if_neg]
  rintro ⟨e, -⟩
  exact hp e

theorem upd_self {α : Type} (f : Nat → α) (t : Nat) : upd f t (f t) = f := by
  funext u
  by_cases hu : u = t
  · subst hu; rw [upd_same]
  · rw [upd_other _ _ hu]

/-- The background thread is not involved. -/
theorem CcRel.congr {hd hd' : Nat → Nat} (h : CcRel c G hd) (h1 : c'.tgt = c.tgt) (h2 : c'.rt.pc = c.rt.pc)
    (h3 : c'.rt.cur = c.rt.cur) (h4 : c'.rt.i = c.rt.i) (h5 : c'.rt.full = c.rt.full)
    (h6 : ∃ b, c'.rt.bufs = c.rt.bufs ++ b) (h7 : ∀ u, (c'.sb u).cc = (c.sb u).cc ∧ (c'.sb u).got = (c.sb u).got)
    (h8 : G'.pc = G.pc) (h9 : G'.cur = G.cur) (h10 : G'.rem = G.rem) (h11 : hd' = hd) : CcRel c' G' hd' := by
  subst h11
  refine ⟨fun t ht => ?_, fun ht => ?_, fun hp => ?_, fun hp => ?_⟩
  · rw [h1] at ht
    obtain ⟨e1, e2, e3, p, v, e4, e5, e6⟩ := h.tgt t ht
    rw [h2, h4, h5, (h7 t).1, (h7 t).2, h8, h9]
    refine ⟨e1, e2, ?_, p, v, e4, e5, e6⟩
    obtain ⟨b, hb⟩ := h6
    rw [hb, List.getElem?_append_left (by by_contra hc; rw [List.getElem?_eq_none (by omega)] at e3; cases e3)]
    exact e3
  · rw [h1] at ht
    rw [h2, h3, h8, h9]
    exact h.none ht
  · rw [h2] at hp
    rw [h3, h10, (h7 _).1]
    exact h.enc hp
  · rw [h2] at hp
    rw [h3, (h7 _).1]
    exact h.check hp

/-- Steps of a logging thread that are done later in the other model. -/
def Lbl.aside (b : Lbl) : Prop :=
  (∀ u, b ≠ .spurious u) ∧ (∀ u, b ≠ .push u) ∧ b.ofBg = false ∧ (∀ u, b ≠ .register u) ∧
    (b.calm = true ∨ ∃ u, b = .commit u)

theorem RtFrom.one {a a' : Rt} (h : RtFrom s0 cfg prog als a) {l : Lbl} (ho : l.OK cfg prog) (ha : a.act cfg prog l = .ok a') :
    RtFrom s0 cfg prog (als ++ [l]) a' :=
  h.append (by intro x hx; simp only [List.mem_singleton] at hx; subst hx; exact ho) (by simp only [Rt.run, ha])

theorem recOf_none {l : Lbl} (hl : l.ofThr = none) (lv : Int) (u : Nat) :
    recOf prog u lv l = [] ∧ stampOf u l = [] := by
  cases l <;> simp only [Lbl.ofThr] at hl <;> first | exact ⟨rfl, rfl⟩ | cases hl

theorem isCommit_not {l : Lbl} (hr : l.replaced = false) (u : Nat) : isCommit u l = false := by
  cases l <;> simp only [Lbl.replaced] at hr <;> first | rfl | cases hr

theorem CRel.levels (h : CRel s0 cfg prog cls c als G kls r τ held) : levelAfter als = levelAfter (calls cls) :=
  h.levelA.trans h.level

/-- Steps of the background thread outside of the staging buffers, of the system, and `setLogLevel`. -/
theorem CSim.bg (h : CRel s0 cfg prog cls c als G kls r τ held) {l : Lbl} (hl : l.ofThr = none)
    (hr : l.replaced = false) (ho : l.OK cfg prog) {s' : Rt} (ha : c.rt.act cfg prog l = .ok s') :
    CSim s0 cfg prog (cls ++ [.rt l]) { c with rt := s' } (als ++ [l]) := by
  have hpc : (∀ n, l ≠ .disk n) → (∀ n, l ≠ .setLevel n) → G.pc = c.rt.pc := by
    intro h1 h2
    cases ht : c.tgt with
    | none => exact (h.cc.none ht).1
    | some t =>
      exfalso
      have hp := (h.cc.tgt t ht).1
      cases l <;> simp only [Lbl.ofThr, Lbl.replaced] at hl hr <;> try cases hl
      all_goals try cases hr
      all_goals simp only [Rt.act, Rt.actScan, Rt.actIo, Rt.actCtl, hp] at ha
      · exact h2 _ rfl
      · split at ha
        · rename_i h; cases h
        · cases ha
      all_goals first
        | (simp at ha; done)
        | exact h1 _ rfl
  obtain ⟨G', t, pc, e1, e2, e3, e4, e5, e6, e7, e8, e9, e10, e11, e12⟩ := act_bg_over hl hr ha hpc
    (fun w sw hw => ((h.thr w).inSync (by rw [hw]; rfl)).2.trans hw)
    (fun w hw => ((h.thr w).inSync (by rw [hw]; rfl)).2.trans hw) h.closed
  have hexec := h.exec.one ho e4
  have ht := h.thr t
  refine h.upd (c' := { c with rt := s' }) (G' := G') t (k' := kls t) (r' := r t) (τ' := τ t) (held' := held t)
    hexec e5 ?_ ?_ ?_ ?_ ?_ ?_ ?_ ?_ ?_ ?_ ?_ ?_
  · have := (C33_level hexec.rt).1
    rw [show (s'.over G').level = s'.level from rfl] at this
    rw [this, calls_snoc_rt, levelAfter_snoc, levelAfter_snoc, h.levels]
  · rw [calls_snoc_rt, allocs_snoc, allocs_snoc, h.alloc]
  · intro u hu
    rcases List.mem_append.1 hu with hu | hu
    · exact List.mem_append_left _ (h.exits u hu)
    · simp only [List.mem_singleton] at hu; subst hu; cases hr
  · intro u hu
    refine List.mem_append_left _ (h.exitd u ?_)
    simp only [e1] at hu
    by_cases hut : u = t
    · subst hut
      rw [upd_same] at hu
      simp only at hu
      rcases e3 with e | ⟨sw, -, e⟩ | ⟨-, e⟩
      · rw [e]; exact hu
      · rw [e] at hu; cases hu
      · rw [e] at hu; cases hu
    · rw [upd_other _ _ hut] at hu; exact hu
  · rw [upd_self]
    rcases e12 with ⟨f1, f2, f3, f4⟩ | ⟨f1, f2, f3, f4, f5, f6⟩
    · exact h.cc.congr rfl f1 e6 f3 f4 ⟨[], by rw [e11, List.append_nil]⟩ (fun _ => ⟨rfl, rfl⟩) f2 e7 e8 rfl
    · refine ⟨fun u hu => absurd (h.cc.tgt u hu).1 f4, fun _ => ⟨f1, fun h => ?_⟩, fun h => absurd h f6, fun h => absurd h f5⟩
      rcases h with h | h
      · exact absurd h f6
      · exact absurd h f5
  · rw [e9, e10]; exact Grows.refl _ _
  · intro u _; rfl
  · intro u hu; show s'.thr u = _; rw [e1, upd_other _ _ hu]
  · intro u hu; rw [e2, upd_other _ _ hu]
  · show TRel cfg prog s'.ids s'.sites (c.sb t) (s'.thr t) (G'.thr t) (held t) (kls t) (r t) (τ t)
    rw [e1, e2, e9, e10, upd_same, upd_same]
    rcases e3 with e | ⟨sw, f1, f2⟩ | ⟨f1, f2⟩
    · rw [if_pos e, ← e]; exact ht
    all_goals
      have hs := ht.inSync (by rw [f1]; rfl)
      rw [f1, f2, if_neg (by simp)]
      refine ⟨ht.buf, ht.valid, ht.kl, ?_, ht.pp0, ?_, ?_, ?_, ht.bid, ht.freed, ht.dealloc⟩
      · have := ht.prel
        simp only [PRel, f1] at this ⊢
        exact this
      · have := ht.pcr
        simp only [PcRec, f1] at this ⊢
        exact this
      · intro _; simp [aim]
      · intro p rest hp; rw [hs.1] at hp; cases hp
  · exact (h.obs t).both h.levels (isCommit_not hr t) (.inr (recOf_none hl _ _)) (.inr ⟨rfl, rfl⟩)
  · intro u _
    exact (h.obs u).both h.levels (isCommit_not hr u) (.inr (recOf_none hl _ _)) (.inr ⟨rfl, rfl⟩)

/-- Steps of application threads outside of the staging buffers. -/
theorem CSim.app (hP : ProgOK cfg prog) (h : CRel s0 cfg prog cls c als G kls r τ held) {l : Lbl} {t : Nat}
    (hl : l.ofThr = some t) (ho : l.OK cfg prog) (hk : l.locks = some t → (c.sb t).buf = []) {s' : Rt}
    (ha : c.rt.act cfg prog l = .ok s') :
    ∃ bls, CSim s0 cfg prog (cls ++ [.rt l]) { c with rt := s' } (als ++ bls) ∧ (∀ u, .spurious u ∈ bls → l = .spurious u) ∧
      (l.locks = some t ∨ kls t = [] → bls = [l]) ∧ (bls = [l] ∨ bls = []) := by
  have ht := h.thr t
  obtain ⟨hRI, hF⟩ := h.exec.inv hP
  have hlv : c.rt.level ≤ 4 := (C33_level h.exec.rt).2.2
  obtain ⟨n1, n2, n3, hpr, hgr, hbufs, hlev, hlag⟩ := act_pcRec (s := c.rt) hF.ids hl ho hlv ha ht.pcr
  have hidle : (c.sb t).pc = .idle := by
    have := ht.prel
    unfold PRel at this
    split at this
    · rename_i m hm; exact absurd hm (n2 m)
    · rename_i hm; exact absurd hm n1
    · exact this
  have hprel : ∀ ct : Thr, ct.pc ≠ .exited → PRel s'.sites ct (c.sb t).pc := by
    intro ct hct
    unfold PRel
    split
    · rw [hidle]; trivial
    · rename_i e; exact absurd e hct
    · exact hidle
  have hrep : l.replaced = false := by cases l <;> simp only [Lbl.ofThr] at hl <;> first | rfl | cases hl
  by_cases hkl : kls t = []
  · -- in both models
    have hpc := ht.here n1 hkl
    obtain ⟨pc, bid, e1, e2, e3, e4, e5, e6, e7, e8⟩ := act_thr_over hl ha hpc ht.bid h.locked
    have hexec := h.exec.one ho e2
    refine ⟨[l], ?_, fun u hu => by simpa [eq_comm] using hu, fun _ => rfl, .inl rfl⟩
    have htm := ht.mono hgr
    refine h.upd (c' := { c with rt := s' }) t (k' := []) (r' := r t ++ recOf prog t c.rt.level l)
      (τ' := τ t ++ stampOf t l) (held' := held t) hexec ?_ ?_ ?_ ?_ ?_ ?_ hgr ?_ ?_ ?_ ?_ ?_ ?_
    · show G.closed.map _ = s'.closed.map _
      rw [e7]; exact h.closed
    · have := (C33_level hexec.rt).1
      rw [show (s'.over _).level = s'.level from rfl] at this
      rw [this, calls_snoc_rt, levelAfter_snoc, levelAfter_snoc, h.levels]
    · rw [calls_snoc_rt, allocs_snoc, allocs_snoc, h.alloc]
    · intro u hu
      rcases List.mem_append.1 hu with hu | hu
      · exact List.mem_append_left _ (h.exits u hu)
      · simp only [List.mem_singleton] at hu; subst hu; cases hrep
    · intro u hu
      by_cases hut : u = t
      · subst hut; exact absurd hu n3
      · refine List.mem_append_left _ (h.exitd u ?_)
        simp only [e1, upd_other _ _ hut] at hu
        exact hu
    · rw [upd_self]
      exact h.cc.congr rfl e3 e4 e5 e6 hbufs (fun _ => ⟨rfl, rfl⟩) rfl rfl rfl rfl
    · intro u _; rfl
    · intro u hu; show s'.thr u = _; rw [e1, upd_other _ _ hu]
    · intro u hu; exact upd_other _ _ hu
    · show TRel cfg prog s'.ids s'.sites (c.sb t) (s'.thr t) (NanoLog.upd G.thr t _ t) (held t) [] _ _
      rw [upd_same]
      have hst : s'.thr t = { c.rt.thr t with pc := pc, bid := bid } := by rw [e1, upd_same]
      rw [hst] at hpr n3 ⊢
      rw [hkl] at htm
      refine ⟨htm.buf, htm.valid, htm.kl, hprel _ n3, htm.pp0, hpr, ?_, ?_, rfl, htm.freed, htm.dealloc⟩
      · intro _
        rw [aim, if_neg]
        rintro ⟨e, -⟩
        exact n3 e
      · intro p rest hp; cases hp
    · have := h.obs t
      rw [hkl] at this
      exact this.both h.levels (isCommit_not hrep t) (.inl rfl) (.inl rfl)
    · intro u hu
      exact (h.obs u).both h.levels (isCommit_not hrep u) (.inr (recOf_other hu hl _)) (.inr ⟨rfl, rfl⟩)
  · -- here only
    have hlk : l.locks ≠ some t := fun e => hkl (ht.buf.pending (hk e))
    obtain ⟨p, rest, hpk⟩ : ∃ p rest, kls t = p :: rest := by
      cases hx : kls t with
      | nil => exact absurd hx hkl
      | cons p rest => exact ⟨p, rest, rfl⟩
    obtain ⟨g1, g2, g3⟩ := ht.lag p rest hpk
    obtain ⟨pc, rfl, hpcl⟩ := hlag hlk g3 g2
    refine ⟨[], ?_, by simp, fun e => absurd e (by rintro (e | e); exact hlk e; exact hkl e), .inr rfl⟩
    rw [List.append_nil]
    have hspc : ((c.rt.setThr t { c.rt.thr t with pc := pc }).thr t) = { c.rt.thr t with pc := pc } := upd_same _ _ _
    rw [hspc] at hpr n3
    have hobs := (h.obs t).ahead hkl l
    rw [← h.level] at hobs
    have htake : isTake l = false := by
      cases hx : isTake l with
      | false => rfl
      | true =>
        cases l <;> simp [isTake] at hx
        simp only [Lbl.ofThr, Option.some.injEq] at hl
        subst hl
        exact absurd rfl hlk
    refine h.upd (c' := { c with rt := c.rt.setThr t { c.rt.thr t with pc := pc } }) (G' := G) t (k' := kls t)
      (r' := r t ++ recOf prog t c.rt.level l)
      (τ' := τ t ++ stampOf t l) (held' := held t) h.exec h.closed ?_ ?_ ?_ ?_ ?_ hgr ?_ ?_ ?_ ?_ hobs ?_
    · rw [calls_snoc_rt, levelAfter_snoc, ← h.level]
      show c.rt.level = _
      cases l <;> simp only [Lbl.ofThr] at hl <;> first | rfl | cases hl
    · rw [calls_snoc_rt, allocs_snoc, htake, h.alloc]; rfl
    · intro u hu; exact List.mem_append_left _ (h.exits u hu)
    · intro u hu
      by_cases hut : u = t
      · subst hut
        have : ((c.rt.setThr u { c.rt.thr u with pc := pc }).thr u).pc = pc := by rw [hspc]
        rw [this] at hu
        exact absurd hu n3
      · refine List.mem_append_left _ (h.exitd u ?_)
        simp only [Rt.setThr, upd_other _ _ hut] at hu
        exact hu
    · rw [upd_self]
      exact h.cc.congr rfl rfl rfl rfl rfl hbufs (fun _ => ⟨rfl, rfl⟩) rfl rfl rfl rfl
    · intro u _; rfl
    · intro u hu; exact upd_other _ _ hu
    · intro u _; rfl
    · show TRel cfg prog c.rt.ids c.rt.sites (c.sb t) ((c.rt.setThr t { c.rt.thr t with pc := pc }).thr t) (G.thr t) (held t)
        (kls t) _ _
      rw [hspc]
      refine ⟨ht.buf, ht.valid, ht.kl, hprel _ n3, ht.pp0, hpr, fun e => absurd e hkl, ?_, ht.bid, ht.freed, ht.dealloc⟩
      intro p' rest' hp
      exact ⟨(ht.lag p' rest' hp).1, hpcl, g3⟩
    · intro u hu
      have := (h.obs u)
      obtain ⟨f1, f2⟩ := recOf_other (prog := prog) hu hl (levelAfter (calls cls))
      refine ⟨?_, ?_, ?_⟩
      · rw [calls_snoc_rt, mustRecord_snoc, f1, List.append_nil]; exact this.rcd
      · rw [calls_snoc_rt, stamps_snoc, f2, List.append_nil]; exact this.st
      · rw [finished_snoc_rt]; exact this.ret

/-! ## Steps of a thread in its staging buffer -/

/-- The steps of the thread in the staging buffer (and the stores reaching memory). -/
def Act.byThr : Act → Prop
  | .reserve _ | .pstep | .put _ _ | .finish _ | .exit | .commit _ | .commitC => True
  | _ => False

/-- Steps of the thread leave the background thread where it is. -/
theorem producer_cc {N : Nat} {s s' : SB} {a : Act} (ha : s.act .tso N a = some s')
    (hp : a.byThr) : s'.cc = s.cc ∧ s'.got = s.got := by
  cases a <;> simp only [Act.byThr] at hp <;> simp only [SB.act] at ha
  all_goals (repeat' split at ha)
  all_goals (cases ha)
  all_goals first
    | exact ⟨rfl, rfl⟩
    | (rename_i w _; cases w <;> exact ⟨rfl, rfl⟩)

theorem commit_same {N : Nat} {s s' : SB} {g : Ghost} (hI : SInv .tso N s g) {k : Nat} (ha : s.act .tso N (.commit k) = some s') :
    s'.pc = s.pc ∧ s'.pp = s.pp ∧ s'.pub = s.pub ∧ s.memD = false ∧
    (s'.memD = s.memD ∨ s'.memD = true ∧ s.pc = .exited ∧ s.buf = [.setD]) := by
  have hne : s.buf ≠ [] := by
    intro h
    simp only [SB.act, h] at ha
    split at ha <;> simp at ha
  have hd := hI.d.1
  simp only [SB.act] at ha
  split at ha <;> try cases ha
  rename_i hk
  have hk : k = 0 := by simpa [canCommit] using hk
  subst hk
  split at ha <;> try cases ha
  rename_i w hw
  have hD : s.memD = false := by
    split at hd
    · rcases hd rfl with ⟨-, hb⟩ | ⟨hb, -⟩
      · exact absurd hb hne
      · exact hb
    · exact hd.1
  cases w <;> try exact ⟨rfl, rfl, rfl, hD, .inl rfl⟩
  refine ⟨rfl, rfl, rfl, hD, .inr ⟨rfl, ?_⟩⟩
  obtain ⟨rest, hb⟩ : ∃ rest, s.buf = .setD :: rest := by
    cases hb : s.buf with
    | nil => exact absurd hb hne
    | cons x y => rw [hb] at hw; simp at hw; subst hw; exact ⟨y, rfl⟩
  split at hd
  · rename_i hpc
    rcases hd rfl with ⟨-, hb'⟩ | ⟨-, a, ha1, ha2⟩
    · exact absurd hb' hne
    · refine ⟨hpc, ?_⟩
      cases a with
      | nil => exact ha1
      | cons x y =>
        rw [hb] at ha1
        simp only [List.cons_append, List.cons.injEq] at ha1
        rw [← ha1.1] at ha2
        simp at ha2
  · rw [hb] at hd; simp at hd

/-- The thread writes its message. -/
theorem CSim.write (hP : ProgOK cfg prog) (h : CRel s0 cfg prog cls c als G kls r τ held) {t : Nat} {a : Act}
    (ha : c.act cfg prog (.write t a) = .ok c') : CSim s0 cfg prog (cls ++ [.write t a]) c' als := by
  have ht := h.thr t
  obtain ⟨hRI, hF⟩ := h.exec.inv hP
  simp only [Cr.act, Cr.actThr] at ha
  split at ha <;> try cases ha
  rename_i m hpc
  split at ha
  · cases ha
  split at ha <;> try cases ha
  rename_i hok
  split at ha <;> cases ha
  rename_i s hs
  have hpr := ht.prel
  simp only [PRel, hpc] at hpr
  have hcall : CallOK cfg c.rt.sites m := by
    have := ht.pcr
    simp only [PcRec, hpc] at this
    obtain ⟨k, -, -, hk⟩ := this
    have hn := hF.ids.count.1
    have := hP.count
    exact hk.callOK hP (show c.rt.sites.length < _ from Nat.lt_of_le_of_lt hn this)
  have hsz := (img_size hcall).1
  rw [Rt.msgSize_eq, Rt.msgBytes_eq, ← hsz] at hok
  obtain ⟨p1, p2, p3⟩ := PWr.step hpr hok hs
  have hacts : a.byThr := by cases a <;> simp only [okWrite, Bool.false_eq_true] at hok <;> trivial
  obtain ⟨q1, q2⟩ := producer_cc hs hacts
  have hbuf := ht.buf.quiet hs
    (by cases a <;> simp only [okWrite, Bool.false_eq_true] at hok <;> (intro x es hes; exact hes))
    (by cases a <;> simp only [okWrite, Bool.false_eq_true] at hok <;> simp)
    (by cases a <;> simp only [okWrite, Bool.false_eq_true] at hok <;> (intro x; trivial))
    (by cases a <;> simp only [okWrite, Bool.false_eq_true] at hok <;> rfl)
  refine h.upd (c' := c.setSb t s) (G' := G) t (k' := kls t) (r' := r t) (τ' := τ t) (held' := held t) h.exec h.closed ?_ ?_
    (fun u hu => List.mem_append_left _ (h.exits u hu)) (fun u hu => List.mem_append_left _ (h.exitd u hu)) ?_
    (Grows.refl _ _) (fun u hu => upd_other _ _ hu) (fun _ _ => rfl) (fun _ _ => rfl) ?_
    ((h.obs t).silent (by simp) (by simp)) (fun u _ => (h.obs u).silent (by simp) (by simp))
  · rw [calls_snoc_other _ (by simp)]; exact h.level
  · rw [calls_snoc_other _ (by simp)]; exact h.alloc
  · rw [upd_self]
    refine h.cc.congr rfl rfl rfl rfl rfl ⟨[], (List.append_nil _).symm⟩ (fun u => ?_) rfl rfl rfl rfl
    by_cases hu : u = t
    · subst hu; simp only [Cr.setSb, upd_same]; exact ⟨q1, q2⟩
    · simp only [Cr.setSb, upd_other _ _ hu]; exact ⟨trivial, trivial⟩
  · show TRel cfg prog c.rt.ids c.rt.sites (NanoLog.upd c.sb t s t) (c.rt.thr t) (G.thr t) (held t) (kls t) (r t) (τ t)
    rw [upd_same]
    refine ⟨hbuf, ht.valid, ht.kl, ?_, ?_, ht.pcr, ?_, ht.lag, ht.bid, ht.freed, ?_⟩
    · simp only [PRel, hpc]; exact p1
    · rintro (e | e)
      · exact absurd e p2
      · rw [e] at p1; exact absurd p1 (by simp [PWr])
    · rw [p3]; exact ht.sync
    · rw [p3]; exact ht.dealloc

/-- The log call returns. -/
theorem CSim.finish (hP : ProgOK cfg prog) (h : CRel s0 cfg prog cls c als G kls r τ held) {t : Nat}
    (ha : c.act cfg prog (.finish t) = .ok c') : CSim s0 cfg prog (cls ++ [.finish t]) c' als := by
  have ht := h.thr t
  obtain ⟨hRI, hF⟩ := h.exec.inv hP
  simp only [Cr.act, Cr.actThr] at ha
  split at ha <;> try cases ha
  rename_i m hpc
  split at ha
  · cases ha
  split at ha <;> cases ha
  rename_i s hs
  have hpr := ht.prel
  simp only [PRel, hpc] at hpr
  have hpcr := ht.pcr
  simp only [PcRec, hpc] at hpcr
  obtain ⟨k, hr, hτ, hk⟩ := hpcr
  have hcall : CallOK cfg c.rt.sites m :=
    hk.callOK hP (show c.rt.sites.length < _ from Nat.lt_of_le_of_lt hF.ids.count.1 hP.count)
  obtain ⟨hsz, hne, -⟩ := img_size hcall
  rw [Rt.msgSize_eq, ← hsz] at hs
  obtain ⟨p1, p2, p3, p4⟩ := PWr.finish hpr hs
  obtain ⟨q1, q2⟩ := producer_cc hs trivial
  have hpos : 0 < (img c.rt.sites m).length := List.length_pos_iff.2 hne
  have hbuf := ht.buf.finish (k := k) hs hpos p1
  have hbid : (c.rt.thr t).bid ≠ none := by
    cases hkl : kls t with
    | nil =>
      have hp := ht.here (by rw [hpc]; simp) hkl
      have h1 := (hRI.thr t).write m (hp.trans hpc)
      have := ((hRI.thr t).alloc h1).2
      rw [← ht.bid]; exact this
    | cons p rest => exact (ht.lag p rest hkl).2.2
  have hspc : (c.rt.setThr t { c.rt.thr t with pc := .idle }).thr t = { c.rt.thr t with pc := .idle } := upd_same _ _ _
  refine h.upd (c' := { c.setSb t s with rt := c.rt.setThr t { c.rt.thr t with pc := .idle } }) (G' := G) t
    (k' := kls t ++ [(k, m)]) (r' := []) (τ' := []) (held' := held t) h.exec h.closed ?_ ?_
    (fun u hu => List.mem_append_left _ (h.exits u hu)) ?_ ?_
    (Grows.refl _ _) (fun u hu => upd_other _ _ hu) (fun u hu => upd_other _ _ hu) (fun _ _ => rfl) ?_
    ?_ (fun u hu => (h.obs u).silent (by simp) (by simpa using hu.symm))
  · rw [calls_snoc_other _ (by simp)]; exact h.level
  · rw [calls_snoc_other _ (by simp)]; exact h.alloc
  · intro u hu
    by_cases hut : u = t
    · subst hut
      have : ((c.rt.setThr u { c.rt.thr u with pc := .idle }).thr u).pc = .idle := by rw [hspc]
      rw [this] at hu; cases hu
    · refine List.mem_append_left _ (h.exitd u ?_)
      simp only [Rt.setThr, upd_other _ _ hut] at hu
      exact hu
  · rw [upd_self]
    refine h.cc.congr rfl rfl rfl rfl rfl ⟨[], (List.append_nil _).symm⟩ (fun u => ?_) rfl rfl rfl rfl
    by_cases hu : u = t
    · subst hu; simp only [Cr.setSb, upd_same]; exact ⟨q1, q2⟩
    · simp only [Cr.setSb, upd_other _ _ hu]; exact ⟨trivial, trivial⟩
  · show TRel cfg prog c.rt.ids c.rt.sites (NanoLog.upd c.sb t s t)
      ((c.rt.setThr t { c.rt.thr t with pc := .idle }).thr t) (G.thr t) (held t) (kls t ++ [(k, m)]) [] []
    rw [upd_same, hspc]
    refine ⟨hbuf, ht.valid, ?_, p2, ?_, ⟨rfl, rfl⟩, fun e => by simp at e, ?_, ht.bid, ht.freed, ?_⟩
    · intro p hp
      rcases List.mem_append.1 hp with hp | hp
      · exact ht.kl p hp
      · simp only [List.mem_singleton] at hp; subst hp; exact hk
    · intro _ h0
      rw [p3] at h0
      omega
    · intro p rest hp
      cases hkl : kls t with
      | nil =>
        rw [hkl] at hp
        simp only [List.nil_append, List.cons.injEq] at hp
        rw [← hp.1]
        exact ⟨(ht.here (by rw [hpc]; simp) hkl).trans hpc, rfl, hbid⟩
      | cons p' rest' =>
        rw [hkl] at hp
        simp only [List.cons_append, List.cons.injEq] at hp
        rw [← hp.1]
        exact ⟨(ht.lag p' rest' hkl).1, rfl, hbid⟩
    · rw [p4]; exact ht.dealloc
  · have ho := h.obs t
    refine ⟨?_, ?_, ?_⟩
    · rw [calls_snoc_other _ (by simp), ho.rcd, hr]
      cases kls t <;> simp [lagR]
    · rw [calls_snoc_other _ (by simp), ho.st, hτ]
      cases kls t <;> simp [lagT]
    · rw [finished_snoc, ho.ret]
      simp
      omega

/-- The thread ends. -/
theorem CSim.exit (h : CRel s0 cfg prog cls c als G kls r τ held) {t : Nat}
    (ha : c.act cfg prog (.exit t) = .ok c') :
    ∃ bls, CSim s0 cfg prog (cls ++ [.exit t]) c' (als ++ bls) ∧ bls.length ≤ 7 ∧ ∀ b ∈ bls, b.aside := by
  have ht := h.thr t
  simp only [Cr.act, Cr.actThr] at ha
  split at ha <;> try cases ha
  rename_i hpc
  have hpr := ht.prel
  simp only [PRel, hpc] at hpr
  have hpcr := ht.pcr
  simp only [PcRec, hpc] at hpcr
  have hspc : (c.rt.setThr t { c.rt.thr t with pc := .exited }).thr t = { c.rt.thr t with pc := .exited } := upd_same _ _ _
  have hexitd : ∀ u, ((c.rt.setThr t { c.rt.thr t with pc := .exited }).thr u).pc = .exited → .exit u ∈ cls ++ [CLbl.exit t] := by
    intro u hu
    by_cases hut : u = t
    · subst hut; simp
    · refine List.mem_append_left _ (h.exitd u ?_)
      simp only [Rt.setThr, upd_other _ _ hut] at hu
      exact hu
  split at ha
  · rename_i hb
    cases ha
    have hkl : kls t = [] := by
      cases hkl : kls t with
      | nil => rfl
      | cons p rest => exact absurd hb (ht.lag p rest hkl).2.2
    have hap : (G.thr t).pc = .idle := (ht.here (by rw [hpc]; simp) hkl).trans hpc
    have hab : (G.thr t).bid = none := ht.bid.trans hb
    have hact : (c.rt.over G).act cfg prog (.exitThread t) = .ok ((c.rt.setThr t { c.rt.thr t with pc := .exited }).over
        { G with thr := NanoLog.upd G.thr t { G.thr t with pc := .exited } }) := by
      simp only [Rt.act, Rt.actBuf]
      rw [show (c.rt.over G).thr t = G.thr t from rfl, hap]
      dsimp only
      rw [if_pos hab]
      rfl
    refine ⟨[.exitThread t], ?_, by simp [Lbl.aside, Lbl.ofBg, Lbl.calm, Lbl.quiet]⟩
    refine h.upd (c' := { c with rt := c.rt.setThr t { c.rt.thr t with pc := .exited } }) t
      (k' := []) (r' := []) (τ' := []) (held' := held t) (h.exec.one trivial hact) h.closed ?_ ?_
      ?_ hexitd ?_ (Grows.refl _ _) (fun u hu => rfl) (fun u hu => upd_other _ _ hu) (fun u hu => upd_other _ _ hu) ?_
      ?_ ?_
    · rw [calls_snoc_other _ (by simp)]; exact h.level
    · rw [calls_snoc_other _ (by simp), allocs_snoc]; exact h.alloc
    · intro u hu
      rcases List.mem_append.1 hu with hu | hu
      · exact List.mem_append_left _ (h.exits u hu)
      · simp only [List.mem_singleton, Lbl.exitThread.injEq] at hu; subst hu; simp
    · rw [upd_self]
      exact h.cc.congr rfl rfl rfl rfl rfl ⟨[], (List.append_nil _).symm⟩ (fun u => ⟨rfl, rfl⟩) rfl rfl rfl rfl
    · show TRel cfg prog c.rt.ids c.rt.sites (c.sb t)
        ((c.rt.setThr t { c.rt.thr t with pc := .exited }).thr t) (NanoLog.upd G.thr t _ t) (held t) [] [] []
      rw [upd_same, hspc]
      have hbuf := ht.buf
      rw [hkl] at hbuf
      refine ⟨hbuf, ht.valid, by simp, ?_, ht.pp0, ⟨rfl, rfl⟩, ?_, ?_, ht.bid, ht.freed, ht.dealloc⟩
      · simp only [PRel]; rw [if_pos hb]; exact hpr
      · intro _; simp [aim, hb]
      · intro p rest e; cases e
    · have ho := (h.obs t).adds (Adds.one prog (.exitThread t) (levelAfter als)) rfl rfl rfl rfl
      have ho := ho.silent (l := .exit t) (by simp) (by simp)
      rw [hkl] at ho
      exact ⟨ho.rcd, ho.st, ho.ret⟩
    · intro u _
      exact ((h.obs u).adds (Adds.one prog (.exitThread t) (levelAfter als)) rfl rfl rfl rfl).silent (by simp) (by simp)
  · rename_i hb
    split at ha
    · cases ha
    split at ha <;> cases ha
    rename_i s hs
    obtain ⟨q1, q2⟩ := producer_cc hs trivial
    have hbuf := ht.buf.quiet hs (fun x es hes => hes) (by simp) (fun x => trivial) rfl
    have hD : (c.sb t).memD = false := by
      obtain ⟨g, done, h1, h2⟩ := ht.buf
      have := h1.d.1
      rw [hpr] at this
      exact this.1
    have hs' : s.pc = .exited ∧ s.memD = (c.sb t).memD ∧ s.pp = (c.sb t).pp ∧ s.pub = (c.sb t).pub := by
      simp only [SB.act, hpr] at hs
      cases hs
      exact ⟨rfl, rfl, rfl, rfl⟩
    refine ⟨[], ?_, by simp⟩
    rw [List.append_nil]
    refine h.upd (c' := { c.setSb t s with rt := c.rt.setThr t { c.rt.thr t with pc := .exited } }) (G' := G) t
      (k' := kls t) (r' := []) (τ' := []) (held' := held t) h.exec h.closed ?_ ?_
      (fun u hu => List.mem_append_left _ (h.exits u hu)) hexitd ?_
      (Grows.refl _ _) (fun u hu => upd_other _ _ hu) (fun u hu => upd_other _ _ hu) (fun _ _ => rfl) ?_
      ?_ (fun u hu => (h.obs u).silent (by simp) (by simp))
    · rw [calls_snoc_other _ (by simp)]; exact h.level
    · rw [calls_snoc_other _ (by simp)]; exact h.alloc
    · rw [upd_self]
      refine h.cc.congr rfl rfl rfl rfl rfl ⟨[], (List.append_nil _).symm⟩ (fun u => ?_) rfl rfl rfl rfl
      by_cases hu : u = t
      · subst hu; simp only [Cr.setSb, upd_same]; exact ⟨q1, q2⟩
      · simp only [Cr.setSb, upd_other _ _ hu]; exact ⟨trivial, trivial⟩
    · show TRel cfg prog c.rt.ids c.rt.sites (NanoLog.upd c.sb t s t)
        ((c.rt.setThr t { c.rt.thr t with pc := .exited }).thr t) (G.thr t) (held t) (kls t) [] []
      rw [upd_same, hspc]
      refine ⟨hbuf, ht.valid, ht.kl, ?_, ?_, ⟨rfl, rfl⟩, ?_, ?_, ht.bid, ht.freed, ?_⟩
      · simp only [PRel]; rw [if_neg hb]; exact hs'.1
      · intro _ h0
        rw [hs'.2.2.1] at h0
        rw [hs'.2.2.2]
        exact ht.pp0 (.inl hpr) h0
      · intro e
        rw [(ht.here (by rw [hpc]; simp) e), hpc]
        rw [aim, if_pos ⟨rfl, hb, by rw [hs'.2.1, hD]⟩]
      · intro p rest e
        exact ⟨(ht.lag p rest e).1, rfl, hb⟩
      · rw [hs'.2.1]; exact ht.dealloc
    · have := (h.obs t).silent (l := .exit t) (by simp) (by simp)
      rw [hpcr.1, hpcr.2] at this
      exact this

/-- A store of the background thread into the buffer of `t` reaches memory. -/
theorem CSim.storeC (h : CRel s0 cfg prog cls c als G kls r τ held) {t : Nat}
    (ha : c.act cfg prog (.storeC t) = .ok c') : CSim s0 cfg prog (cls ++ [.storeC t]) c' als := by
  have ht := h.thr t
  simp only [Cr.act, Cr.actThr] at ha
  split at ha <;> cases ha
  rename_i s hs
  obtain ⟨q1, q2⟩ := producer_cc hs trivial
  have hbuf := ht.buf.quiet hs (fun x es hes => hes) (by simp) (fun x => trivial) rfl
  have hs' : s.pc = (c.sb t).pc ∧ s.memD = (c.sb t).memD ∧ s.pp = (c.sb t).pp ∧ s.pub = (c.sb t).pub := by
    simp only [SB.act] at hs
    split at hs <;> cases hs
    exact ⟨rfl, rfl, rfl, rfl⟩
  refine h.upd (c' := c.setSb t s) (G' := G) t
    (k' := kls t) (r' := r t) (τ' := τ t) (held' := held t) h.exec h.closed ?_ ?_
    (fun u hu => List.mem_append_left _ (h.exits u hu)) (fun u hu => List.mem_append_left _ (h.exitd u hu)) ?_
    (Grows.refl _ _) (fun u hu => upd_other _ _ hu) (fun u hu => rfl) (fun _ _ => rfl) ?_
    ((h.obs t).silent (by simp) (by simp)) (fun u hu => (h.obs u).silent (by simp) (by simp))
  · rw [calls_snoc_other _ (by simp)]; exact h.level
  · rw [calls_snoc_other _ (by simp)]; exact h.alloc
  · rw [upd_self]
    refine h.cc.congr rfl rfl rfl rfl rfl ⟨[], (List.append_nil _).symm⟩ (fun u => ?_) rfl rfl rfl rfl
    by_cases hu : u = t
    · subst hu; simp only [Cr.setSb, upd_same]; exact ⟨q1, q2⟩
    · simp only [Cr.setSb, upd_other _ _ hu]; exact ⟨trivial, trivial⟩
  · show TRel cfg prog c.rt.ids c.rt.sites (NanoLog.upd c.sb t s t) (c.rt.thr t) (G.thr t) (held t) (kls t) (r t) (τ t)
    rw [upd_same]
    exact ⟨hbuf, ht.valid, ht.kl, by rw [hs'.1]; exact ht.prel, by rw [hs'.1, hs'.2.2.1, hs'.2.2.2]; exact ht.pp0, ht.pcr,
      by rw [hs'.2.1]; exact ht.sync, ht.lag, ht.bid, ht.freed, by rw [hs'.2.1]; exact ht.dealloc⟩

/-- A store of thread `t` reaches memory. -/
theorem CSim.store (hP : ProgOK cfg prog) (h : CRel s0 cfg prog cls c als G kls r τ held) {t : Nat}
    (ha : c.act cfg prog (.store t) = .ok c') :
    ∃ bls, CSim s0 cfg prog (cls ++ [.store t]) c' (als ++ bls) ∧ bls.length ≤ 7 ∧ ∀ b ∈ bls, b.aside := by
  have ht := h.thr t
  simp only [Cr.act, Cr.actThr] at ha
  split at ha <;> try cases ha
  rename_i s hs
  split at ha <;> cases ha
  rename_i hfr
  have hfr : (c.rt.thr t).freed = false := by simpa using hfr
  obtain ⟨q1, q2⟩ := producer_cc hs trivial
  obtain ⟨g, done, hI, hQ⟩ := ht.buf
  obtain ⟨s1, s2, s3, s4, s5⟩ := commit_same hI hs
  have hcc : ∀ G', G'.pc = G.pc → G'.cur = G.cur → G'.rem = G.rem →
      CcRel (c.setSb t s) G' (NanoLog.upd held t (held t)) := by
    intro G' e1 e2 e3
    rw [upd_self]
    refine h.cc.congr rfl rfl rfl rfl rfl ⟨[], (List.append_nil _).symm⟩ (fun u => ?_) e1 e2 e3 rfl
    by_cases hu : u = t
    · subst hu; simp only [Cr.setSb, upd_same]; exact ⟨q1, q2⟩
    · simp only [Cr.setSb, upd_other _ _ hu]; exact ⟨trivial, trivial⟩
  have hlev : c.rt.level = levelAfter (calls (cls ++ [.store t])) := by
    rw [calls_snoc_other _ (by simp)]; exact h.level
  have hexd : ∀ u, (c.rt.thr u).pc = .exited → CLbl.exit u ∈ cls ++ [.store t] :=
    fun u hu => List.mem_append_left _ (h.exitd u hu)
  have hex : ∀ u, Lbl.exitThread u ∈ als → CLbl.exit u ∈ cls ++ [.store t] :=
    fun u hu => List.mem_append_left _ (h.exits u hu)
  by_cases hD : s.memD = (c.sb t).memD
  · rcases ht.buf.commit hs with hB | ⟨p, rest, hpk, hB⟩
    · -- nothing becomes visible
      refine ⟨[], ?_, by simp⟩
      rw [List.append_nil]
      refine h.upd (c' := c.setSb t s) (G' := G) t
        (k' := kls t) (r' := r t) (τ' := τ t) (held' := held t) h.exec h.closed hlev ?_
        hex hexd (hcc G rfl rfl rfl)
        (Grows.refl _ _) (fun u hu => upd_other _ _ hu) (fun u hu => rfl) (fun _ _ => rfl) ?_
        ((h.obs t).silent (by simp) (by simp)) (fun u hu => (h.obs u).silent (by simp) (by simp))
      · rw [calls_snoc_other _ (by simp)]; exact h.alloc
      · show TRel cfg prog c.rt.ids c.rt.sites (NanoLog.upd c.sb t s t) (c.rt.thr t) (G.thr t) (held t) (kls t) (r t) (τ t)
        rw [upd_same]
        exact ⟨hB, ht.valid, ht.kl, by rw [s1]; exact ht.prel, by rw [s1, s2, s3]; exact ht.pp0, ht.pcr,
          by rw [hD]; exact ht.sync, ht.lag, ht.bid, ht.freed, by rw [hD]; exact ht.dealloc⟩
    · -- a message becomes visible
      obtain ⟨g1, g2, g3⟩ := ht.lag p rest hpk
      have hpc0 : (G.thr t).pc = .write p.2 := g1
      have hkp := ht.kl p (by rw [hpk]; simp)
      have hpid : p.2.id < c.rt.sites.length := by
        obtain ⟨-, -, site, -, h4, -⟩ := hkp
        by_contra hc; rw [List.getElem?_eq_none (by omega)] at h4; cases h4
      -- where the thread goes, and what it does on the way
      obtain ⟨pc, r0, τ0, e1, e2, e3, e4, e5, e6⟩ : ∃ pc r0 τ0,
          PcRec cfg prog c.rt.ids c.rt.sites pc r0 τ0 ∧ pc.lags = true ∧ pc ≠ .exited ∧
          (rest = [] → pc = aim (c.rt.thr t) s.memD) ∧
          (∀ p' rest', rest = p' :: rest' → pc = .write p'.2) ∧
          (lagR (kls t) (r t) = r0 ++ lagR rest (r t) ∧ lagT (kls t) (τ t) = τ0 ++ lagT rest (τ t)) := by
        cases hrest : rest with
        | nil =>
          by_cases hx : (c.rt.thr t).pc = .exited
          · have hpcr := ht.pcr
            simp only [PcRec, hx] at hpcr
            refine ⟨.idle, [], [], ⟨rfl, rfl⟩, rfl, by simp, fun _ => ?_, by simp, ?_⟩
            · rw [aim, if_pos ⟨hx, g3, by rw [hD, s4]⟩]
            · rw [hpk, hrest, hpcr.1, hpcr.2]; exact ⟨rfl, rfl⟩
          · refine ⟨(c.rt.thr t).pc, r t, τ t, ht.pcr, g2, hx, fun _ => ?_, by simp, ?_⟩
            · rw [aim, if_neg]; rintro ⟨e, -⟩; exact hx e
            · rw [hpk, hrest]; simp [lagR, lagT]
        | cons p' rest' =>
          refine ⟨.write p'.2, [(p'.1, p'.2.args)], [p'.2.ts], ⟨p'.1, rfl, rfl, ht.kl p' (by rw [hpk, hrest]; simp)⟩, rfl,
            by simp, by simp, ?_, ?_⟩
          · intro p1 r1 e; cases e; rfl
          · rw [hpk, hrest]; simp [lagR, lagT]
      -- the message is put into the queue
      have hact : (c.rt.over G).act cfg prog (.commit t) = .ok (c.rt.over { G with
          thr := NanoLog.upd G.thr t { G.thr t with pc := .idle, q := (G.thr t).q ++ [p.2], log := (G.thr t).log ++ [p.2] } }) := by
        simp only [Rt.act, Rt.actLog]
        rw [show (c.rt.over G).thr t = G.thr t from rfl, hpc0]
        dsimp only
        rw [ht.freed, hfr]
        rfl
      have hlv := C33_level h.exec.rt
      obtain ⟨bls, b1, b2, ⟨bn, b3⟩, b4⟩ := catchUp (cfg := cfg) (prog := prog) (a := c.rt.over { G with
          thr := NanoLog.upd G.thr t { G.thr t with pc := .idle, q := (G.thr t).q ++ [p.2], log := (G.thr t).log ++ [p.2] } })
        (t := t) (pc := pc) (r := r0) (τ := τ0)
        (by simp only [Rt.over, upd_same]) (by simp only [Rt.over, upd_same]; rw [ht.bid]; exact g3)
        hlv.2.1 hlv.2.2 e1 e2 e3
      have hexec := (h.exec.one (l := .commit t) trivial hact).append b2 b1
      have hadd := (Adds.one prog (.commit t) c.rt.level).append (l3 := c.rt.level) b4
      have hover : (c.rt.over { G with
          thr := NanoLog.upd G.thr t { G.thr t with pc := .idle, q := (G.thr t).q ++ [p.2], log := (G.thr t).log ++ [p.2] } }).setThr t
          { (c.rt.over { G with
            thr := NanoLog.upd G.thr t { G.thr t with pc := .idle, q := (G.thr t).q ++ [p.2], log := (G.thr t).log ++ [p.2] } }).thr t
            with pc := pc } =
          c.rt.over { G with
            thr := NanoLog.upd G.thr t { G.thr t with pc := pc, q := (G.thr t).q ++ [p.2], log := (G.thr t).log ++ [p.2] } } := by
        simp only [Rt.setThr, Rt.over, upd_same]
        congr 1
        funext v
        by_cases hv : v = t
        · subst hv; rw [upd_same, upd_same]
        · rw [upd_other _ _ hv, upd_other _ _ hv, upd_other _ _ hv]
      rw [hover, List.append_assoc] at hexec
      refine ⟨[.commit t] ++ bls, ?_, ?_⟩
      · obtain ⟨o1, o2, o3⟩ := hadd.obs als h.levelA
        refine h.upd (c' := c.setSb t s) t
          (k' := rest) (r' := r t) (τ' := τ t) (held' := held t) hexec h.closed hlev ?_
          ?_ hexd (hcc _ rfl rfl rfl)
          (Grows.refl _ _) (fun u hu => upd_other _ _ hu) (fun u hu => rfl) (fun u hu => upd_other _ _ hu) ?_ ?_ ?_
        · rw [calls_snoc_other _ (by simp), o2]; exact h.alloc
        · intro u hu
          rcases List.mem_append.1 hu with hu | hu
          · exact hex u hu
          · rcases List.mem_append.1 hu with hu | hu
            · simp at hu
            · exact absurd rfl ((b3 _ hu).2.1 u)
        · show TRel cfg prog c.rt.ids c.rt.sites (NanoLog.upd c.sb t s t) (c.rt.thr t) (NanoLog.upd G.thr t _ t) (held t) rest
            (r t) (τ t)
          rw [upd_same, upd_same]
          refine ⟨hB, ?_, fun x hx => ht.kl x (by rw [hpk]; simp [hx]), by rw [s1]; exact ht.prel,
            by rw [s1, s2, s3]; exact ht.pp0, ht.pcr, e4, ?_, ht.bid, ht.freed, by rw [hD]; exact ht.dealloc⟩
          · intro x hx
            rcases List.mem_append.1 hx with hx | hx
            · exact ht.valid x hx
            · simp only [List.mem_singleton] at hx; subst hx; exact hpid
          · intro p' rest' hp'
            exact ⟨e5 p' rest' hp', g2, g3⟩
        · have ho := h.obs t
          obtain ⟨f1, f2, f3⟩ := o3 t
          refine ⟨?_, ?_, ?_⟩
          · rw [calls_snoc_other _ (by simp), f1, ho.rcd, e6.1]
            simp [recOf, recordStep]
          · rw [calls_snoc_other _ (by simp), f2, ho.st, e6.2]
            simp [stampOf]
          · rw [finished_snoc, f3, ho.ret, hpk]
            simp [isCommit]
            omega
        · intro u hu
          have ho := (h.obs u).adds hadd h.levelA (by simp [recOf, recordStep, hu]) (by simp [stampOf, hu])
            (by simp [isCommit, hu.symm])
          exact ho.silent (by simp) (by simp)
      · refine ⟨by simpa using by omega, fun b hu => ?_⟩
        rcases List.mem_append.1 hu with hu | hu
        · simp only [List.mem_singleton] at hu; subst hu; simp [Lbl.aside, Lbl.ofBg, Lbl.calm, Lbl.quiet]
        · exact ⟨(b3 _ hu).1, (b3 _ hu).2.2.1, (b3 _ hu).2.2.2.1, (b3 _ hu).2.2.2.2.1, .inl (b3 _ hu).2.2.2.2.2⟩
  · -- the thread's end becomes visible
    rcases s5 with e | ⟨e1, e2, e3⟩
    · exact absurd e hD
    have hkl : kls t = [] := by
      have := hQ.pend
      rw [e3] at this
      exact List.map_eq_nil_iff.1 this
    have hct : (c.rt.thr t).pc = .exited ∧ (c.rt.thr t).bid ≠ none := by
      have := ht.prel
      unfold PRel at this
      rw [e2] at this
      split at this
      · exact absurd this (by simp [PWr])
      · rename_i hx
        refine ⟨hx, fun hb => ?_⟩
        rw [if_pos hb] at this; cases this
      · cases this
    have hap : (G.thr t).pc = .idle := by
      rw [ht.sync hkl, aim, if_pos ⟨hct.1, hct.2, s4⟩]
    have hact : (c.rt.over G).act cfg prog (.exitThread t) = .ok (c.rt.over { G with
        thr := NanoLog.upd G.thr t { G.thr t with pc := .exited, dealloc := true } }) := by
      simp only [Rt.act, Rt.actBuf]
      rw [show (c.rt.over G).thr t = G.thr t from rfl, hap]
      dsimp only
      rw [if_neg (by rw [ht.bid]; exact hct.2), ht.freed, hfr]
      rfl
    have hB : BRel cfg.staging c.rt.sites s (G.thr t).q (held t) [] := by
      rcases ht.buf.commit hs with hB | ⟨p, rest, hpk, -⟩
      · rw [hkl] at hB; exact hB
      · rw [hkl] at hpk; cases hpk
    refine ⟨[.exitThread t], ?_, by simp [Lbl.aside, Lbl.ofBg, Lbl.calm, Lbl.quiet]⟩
    refine h.upd (c' := c.setSb t s) t
      (k' := []) (r' := r t) (τ' := τ t) (held' := held t) (h.exec.one (l := .exitThread t) trivial hact) h.closed hlev ?_
      ?_ hexd (hcc _ rfl rfl rfl)
      (Grows.refl _ _) (fun u hu => upd_other _ _ hu) (fun u hu => rfl) (fun u hu => upd_other _ _ hu) ?_ ?_ ?_
    · rw [calls_snoc_other _ (by simp), allocs_snoc]; exact h.alloc
    · intro u hu
      rcases List.mem_append.1 hu with hu | hu
      · exact hex u hu
      · simp only [List.mem_singleton, Lbl.exitThread.injEq] at hu
        subst hu
        exact hexd u hct.1
    · show TRel cfg prog c.rt.ids c.rt.sites (NanoLog.upd c.sb t s t) (c.rt.thr t) (NanoLog.upd G.thr t _ t) (held t) []
        (r t) (τ t)
      rw [upd_same, upd_same]
      refine ⟨hB, ht.valid, by simp, by rw [s1]; exact ht.prel, by rw [s1, s2, s3]; exact ht.pp0, ht.pcr, ?_, by simp,
        ht.bid, ht.freed, e1.symm⟩
      intro _
      rw [aim, if_neg (by rintro ⟨-, -, e⟩; rw [e1] at e; cases e), hct.1]
    · have ho := (h.obs t).adds (Adds.one prog (.exitThread t) (levelAfter als)) rfl rfl rfl rfl
      have ho := ho.silent (l := .store t) (by simp) (by simp)
      rw [hkl] at ho
      exact ho
    · intro u _
      exact ((h.obs u).adds (Adds.one prog (.exitThread t) (levelAfter als)) rfl rfl rfl rfl).silent (by simp) (by simp)

end

end NanoLog
