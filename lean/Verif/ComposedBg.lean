import Verif.ComposedStep

/-! The runtime with its staging buffers byte by byte behaves like the runtime with queues of messages: every step of
the background thread, and whole executions. -/

namespace NanoLog

section
variable {s0 : Rt} {cfg : Config} {prog : List Site} {cls : List CLbl} {c c' : Cr} {als : List Lbl} {G G' : Ov}
  {kls : Nat → List (Nat × LogCall)} {r : Nat → List (Nat × List Arg)} {τ : Nat → List Nat} {held : Nat → Nat}

/-- The steps of the background thread in the staging buffer. -/
def Act.byBg : Act → Prop
  | .peek | .cstep | .look _ | .consume _ | .release | .canDelete => True
  | _ => False

theorem bg_same {N : Nat} {s s' : SB} {a : Act} (ha : s.act .tso N a = some s') (hp : a.byBg) :
    s'.pc = s.pc ∧ s'.pp = s.pp ∧ s'.pub = s.pub ∧ s'.memD = s.memD := by
  cases a <;> simp only [Act.byBg] at hp <;> simp only [SB.act] at ha
  all_goals (repeat' split at ha)
  all_goals (cases ha)
  all_goals exact ⟨rfl, rfl, rfl, rfl⟩

theorem TRel.bg {ids : Nat → Option Nat} {sites : List Site} {s s' : SB} {ct ta ct' ta' : Thr} {hd hd' : Nat}
    {k : List (Nat × LogCall)} {r : List (Nat × List Arg)} {τ : List Nat}
    (h : TRel cfg prog ids sites s ct ta hd k r τ) {a : Act} (ha : s.act .tso cfg.staging a = some s') (hp : a.byBg)
    (hB : BRel cfg.staging sites s' ta'.q hd' k) (hv : ∀ c ∈ ta'.q, c.id < sites.length)
    (h1 : ct'.pc = ct.pc) (h2 : ct'.bid = ct.bid) (h3 : ta'.pc = ta.pc) (h4 : ta'.bid = ta.bid)
    (h5 : ta'.freed = ct'.freed) (h6 : ta'.dealloc = ta.dealloc) : TRel cfg prog ids sites s' ct' ta' hd' k r τ := by
  obtain ⟨e1, e2, e3, e4⟩ := bg_same ha hp
  refine ⟨hB, hv, h.kl, ?_, by rw [e1, e2, e3]; exact h.pp0, by rw [h1]; exact h.pcr, ?_, by rw [h1, h2, h3]; exact h.lag,
    by rw [h2, h4]; exact h.bid, h5, by rw [h6, e4]; exact h.dealloc⟩
  · have := h.prel
    unfold PRel at this ⊢
    rw [h1, h2, e1]
    exact this
  · intro hk
    rw [h3, h.sync hk, aim, aim, h1, h2, e4]

/-- The steps of the background thread that the two models do in different ways. -/
def Lbl.byBg (b : Lbl) : Prop := (∃ n, b = .peek n) ∨ b = .check ∨ ∃ j m, b = .encode j m

theorem CRel.bgUpd (h : CRel s0 cfg prog cls c als G kls r τ held) (t : Nat) {l : CLbl} (hl1 : ∀ m, l ≠ .rt m)
    (hl2 : ∀ u, l ≠ .finish u) {bl : Option Lbl} (hb : ∀ b, bl = some b → b.byBg) {held' : Nat}
    (hexec : RtFrom s0 cfg prog (als ++ bl.toList) (c'.rt.over G')) (hclosed : G'.closed = G.closed)
    (hcl : c'.rt.closed = c.rt.closed) (hlevel : c'.rt.level = c.rt.level)
    (hpc : (c'.rt.thr t).pc = (c.rt.thr t).pc) (hcc : CcRel c' G' (NanoLog.upd held t held'))
    (hids : c'.rt.ids = c.rt.ids) (hsites : c'.rt.sites = c.rt.sites)
    (hsb : ∀ u, u ≠ t → c'.sb u = c.sb u) (hthr : ∀ u, u ≠ t → c'.rt.thr u = c.rt.thr u)
    (hG : ∀ u, u ≠ t → G'.thr u = G.thr u)
    (hT : TRel cfg prog c.rt.ids c.rt.sites (c'.sb t) (c'.rt.thr t) (G'.thr t) held' (kls t) (r t) (τ t)) :
    CSim s0 cfg prog (cls ++ [l]) c' (als ++ bl.toList) := by
  have hobs : ∀ u, ObsRel prog u (cls ++ [l]) (als ++ bl.toList) (kls u) (r u) (τ u) := by
    intro u
    refine ObsRel.silent ?_ hl1 (hl2 u)
    cases bl with
    | none => rw [Option.toList_none, List.append_nil]; exact h.obs u
    | some b =>
      rcases hb b rfl with ⟨n, rfl⟩ | rfl | ⟨j, m, rfl⟩
      · exact (h.obs u).adds (Adds.one prog (.peek n) (levelAfter als)) rfl rfl rfl rfl
      · exact (h.obs u).adds (Adds.one prog .check (levelAfter als)) rfl rfl rfl rfl
      · exact (h.obs u).adds (Adds.one prog (.encode j m) (levelAfter als)) rfl rfl rfl rfl
  refine h.upd (c' := c') t hexec (by rw [hclosed, hcl]; exact h.closed) ?_ ?_ ?_ ?_ hcc (by rw [hids, hsites]; exact Grows.refl _ _)
    hsb hthr hG (by rw [hids, hsites]; exact hT) (hobs t) (fun u _ => hobs u)
  · rw [calls_snoc_other _ hl1, hlevel]; exact h.level
  · rw [calls_snoc_other _ hl1, ← h.alloc]
    cases bl with
    | none => simp
    | some b =>
      rw [Option.toList_some, allocs_snoc]
      rcases hb b rfl with ⟨n, rfl⟩ | rfl | ⟨j, m, rfl⟩ <;> rfl
  · intro u hu
    refine List.mem_append_left _ (h.exits u ?_)
    rcases List.mem_append.1 hu with hu | hu
    · exact hu
    · cases bl with
      | none => simp at hu
      | some b =>
        simp only [Option.toList_some, List.mem_singleton] at hu
        subst hu
        rcases hb _ rfl with ⟨n, e⟩ | e | ⟨j, m, e⟩ <;> cases e
  · intro u hu
    refine List.mem_append_left _ (h.exitd u ?_)
    by_cases hut : u = t
    · subst hut; rw [← hpc]; exact hu
    · rw [← hthr u hut]; exact hu

/-- Steps of the background thread, other than loads of the bytes of messages. -/
def CLbl.ofBg : CLbl → Bool
  | .rt l => l.ofBg
  | .peek | .follow | .encode .. | .check => true
  | _ => false

/-- Bounds the number of steps of the background thread that are nothing in the other model. -/
def Cr.rank (c : Cr) : Nat :=
  match c.tgt with
  | some t => match (c.sb t).cc with | .loaded .. => 4 | _ => 3
  | none =>
    match c.rt.pc with
    | .scan => 5
    | .check => match (c.sb c.rt.cur).cc with | .dead => 1 | _ => 2
    | _ => 0

/-- What the step `l` from `c` to `c'` is in the other model: the steps `bls`. -/
structure Echo (c c' : Cr) (l : CLbl) (bls : List Lbl) : Prop where
  spurious : ∀ u, .spurious u ∈ bls → l = .rt (.spurious u)
  push : ∀ u, .push u ∈ bls → l = .rt (.push u)
  len : bls.length ≤ 8
  one : bls.length ≤ 1 ∨ ∀ b ∈ bls, b.ofBg = false ∧ ∀ u, b ≠ .register u
  mine : ∀ b ∈ bls, b.ofBg = true → b.byBg ∨ l = .rt b
  ctl : ∀ m, l = .rt m → (m.ofThr = none ∨ (∃ t, m = .stop t) ∨ ∃ t, m = .ret t) → bls = [m]
  bg : l.ofBg = true → (∃ b, bls = [b] ∧ b.ofBg = true) ∨ bls = [] ∧ c'.rank < c.rank
  seen : .peek 0 ∈ bls → l = .peek
  loud : ∀ b ∈ bls, b.calm = false → (∃ u, b = .commit u) ∨ l = .rt b

theorem Echo.silent {l : CLbl} (h1 : ∀ m, l ≠ .rt m) (h2 : l.ofBg = false) : Echo c c' l [] :=
  ⟨by simp, by simp, by simp, .inl (by simp), by simp, fun m e => absurd e (h1 m), fun e => (by rw [h2] at e; cases e),
    by simp, by simp⟩

theorem Echo.of_aside {l : CLbl} (h1 : ∀ m, l ≠ .rt m) (h2 : l.ofBg = false) {bls : List Lbl} (hl : bls.length ≤ 7)
    (h : ∀ b ∈ bls, b.aside) : Echo c c' l bls :=
  ⟨fun u hu => absurd rfl ((h _ hu).1 u), fun u hu => absurd rfl ((h _ hu).2.1 u), by omega,
    .inr fun b hb => ⟨(h b hb).2.2.1, (h b hb).2.2.2.1⟩, fun b hb e => (by rw [(h b hb).2.2.1] at e; cases e),
    fun m e => absurd e (h1 m),
    fun e => (by rw [h2] at e; cases e), fun e => (by have := (h _ e).2.2.1; cases this),
    fun b hb e => (h b hb).2.2.2.2.elim (fun e' => by rw [e'] at e; cases e) .inl⟩

theorem Echo.same {l : Lbl} (h : l.replaced = false) : Echo c c' (.rt l) [l] :=
  ⟨by simp [eq_comm], by simp [eq_comm], by simp, .inl (by simp), by simp, by simp, fun e => .inl ⟨l, rfl, e⟩,
    fun e => (by simp only [List.mem_singleton] at e; subst e; cases h), by simp⟩

/-- What a step leads to. -/
def Good (s0 : Rt) (cfg : Config) (prog : List Site) (cls : List CLbl) (als : List Lbl) (c : Cr) (l : CLbl) (o : COut) : Prop :=
  match o with
  | .ok c' => ∃ bls, CSim s0 cfg prog (cls ++ [l]) c' (als ++ bls) ∧ Echo c c' l bls
  | .off => True
  | .ub => False

theorem Good.of {l : CLbl} {bl : Option Lbl} (hb : ∀ b, bl = some b → b.byBg)
    (h : CSim s0 cfg prog (cls ++ [l]) c' (als ++ bl.toList))
    (hr : bl = none → l.ofBg = true → c'.rank < c.rank := by simp) (hl : ∀ m, l ≠ .rt m := by simp)
    (hs : bl = some (.peek 0) → l = .peek := by simp) :
    Good s0 cfg prog cls als c l (.ok c') := by
  refine ⟨bl.toList, h, ?_⟩
  cases bl with
  | none => exact ⟨by simp, by simp, by simp, .inl (by simp), by simp, fun m e => absurd e (hl m), fun e => .inr ⟨rfl, hr rfl e⟩, by simp, by simp⟩
  | some b =>
    have hbb := hb b rfl
    have ho : b.ofBg = true := by rcases hbb with ⟨n, rfl⟩ | rfl | ⟨j, m, rfl⟩ <;> rfl
    refine ⟨fun u hu => ?_, fun u hu => ?_, by simp, .inl (by simp), ?_, fun m e => absurd e (hl m), fun _ => .inl ⟨b, rfl, ho⟩,
      fun e => hs (by simpa [eq_comm] using e), ?_⟩
    · simp only [Option.toList_some, List.mem_singleton] at hu
      subst hu; cases ho
    · simp only [Option.toList_some, List.mem_singleton] at hu
      subst hu; cases ho
    · intro x hx _
      simp only [Option.toList_some, List.mem_singleton] at hx
      subst hx; exact .inl hbb
    · intro x hx e
      simp only [Option.toList_some, List.mem_singleton] at hx
      subst hx
      rcases hbb with ⟨n, rfl⟩ | rfl | ⟨j, m, rfl⟩ <;> cases e

theorem advance_over (s : Rt) (G : Ov) (j : Nat) :
    s.advance j = .ub ∧ (s.over G).advance j = .ub ∨
    ∃ s', s.advance j = .ok s' ∧ (s.over G).advance j = .ok (s'.over { G with pc := s'.pc }) ∧
      (s'.pc = .scan ∨ s'.pc = .scanned) ∧ s'.thr = s.thr ∧ s'.closed = s.closed ∧ s'.level = s.level ∧ s'.ids = s.ids ∧
      s'.sites = s.sites := by
  unfold Rt.advance
  by_cases hb : s.bufs.length = 0
  · exact .inl ⟨by rw [if_pos hb], by rw [if_pos (show (s.over G).bufs.length = 0 from hb)]⟩
  · refine .inr ⟨{ s with i := j % s.bufs.length, wrap := s.wrap || j % s.bufs.length = 0
                          pc := if j % s.bufs.length = s.last then .scanned else .scan },
      by rw [if_neg hb], by rw [if_neg (show ¬ (s.over G).bufs.length = 0 from hb)]; rfl, ?_, rfl, rfl, rfl, rfl, rfl⟩
    dsimp only
    split
    · exact .inr rfl
    · exact .inl rfl

/-- The background thread comes to a point between two buffers. -/
theorem between_cc (h0 : c'.tgt = none) (h1 : c'.rt.pc = .scan ∨ c'.rt.pc = .scanned) (h2 : G'.pc = c'.rt.pc) {hd : Nat → Nat} :
    CcRel c' G' hd := by
  have h3 : c'.rt.pc ≠ .encode ∧ c'.rt.pc ≠ .check := by rcases h1 with h | h <;> rw [h] <;> simp
  exact ⟨fun t ht => (by rw [h0] at ht; cases ht), fun _ => ⟨h2, fun h => (by rcases h with h | h <;> simp [h3] at h)⟩,
    fun h => absurd h h3.1, fun h => absurd h h3.2⟩

theorem BRel.release {N : Nat} {sites : List Site} {s s' : SB} {q : List LogCall} {hd : Nat} {k : List (Nat × LogCall)}
    (h : BRel N sites s q hd k) (ha : s.act .tso N .release = some s') : BRel N sites s' q hd k :=
  h.quiet ha (fun x es hes => hes) (by simp) (fun x => trivial) rfl

/-- `peek`. -/
theorem Good.peek (hP : ProgOK cfg prog) (h : CRel s0 cfg prog cls c als G kls r τ held) :
    Good s0 cfg prog cls als c .peek (c.act cfg prog .peek) := by
  obtain ⟨hRI, hF⟩ := h.exec.inv hP
  simp only [Cr.act, Cr.actBg]
  split
  · trivial
  rename_i hpt
  have hpc : c.rt.pc = .scan := by by_contra hc; exact hpt (.inl hc)
  have htg : c.tgt = none := by by_contra hc; exact hpt (.inr hc)
  have hgp : G.pc = .scan := (h.cc.none htg).1.trans hpc
  split
  · rename_i hfb
    have hact : (c.rt.over G).act cfg prog (.peek 0) = .ok (({ c.rt with pc := .scanned } : Rt).over { G with pc := .scanned }) := by
      simp only [Rt.act, Rt.actScan]
      rw [if_neg (by rw [show (c.rt.over G).pc = G.pc from rfl, hgp]; simp), if_pos (show (c.rt.over G).full = true ∨ (c.rt.over G).bufs = [] from hfb)]
      rfl
    refine Good.of (bl := some (.peek 0)) (by rintro b ⟨⟩; exact .inl ⟨_, rfl⟩) ?_
    refine h.bgUpd (c' := { c with rt := { c.rt with pc := .scanned } }) 0 (by simp) (by simp)
      (by rintro b ⟨⟩; exact .inl ⟨_, rfl⟩) (held' := held 0) (h.exec.one (l := .peek 0) trivial hact) rfl rfl rfl rfl
      (by apply between_cc; exact htg; exact .inr rfl; rfl) rfl rfl (fun _ _ => rfl) (fun _ _ => rfl) (fun _ _ => rfl) (h.thr 0)
  rename_i hfb
  have hfull : c.rt.full = false := by
    cases hf : c.rt.full with
    | false => rfl
    | true => exact absurd (.inl hf) hfb
  have hub := act_noub hP (l := .peek 0) hRI hF
  simp only [Rt.act, Rt.actScan] at hub
  rw [if_neg (by rw [show (c.rt.over G).pc = G.pc from rfl, hgp]; simp), if_neg (show ¬ ((c.rt.over G).full ∨ (c.rt.over G).bufs = []) from hfb),
    show (c.rt.over G).bufs[(c.rt.over G).i]? = c.rt.bufs[c.rt.i]? from rfl] at hub
  split
  · rename_i hb; rw [hb] at hub; exact hub rfl
  rename_i t hb
  rw [hb] at hub
  dsimp only at hub
  have ht := h.thr t
  split
  · rename_i hf
    rw [if_pos (show ((c.rt.over G).thr t).freed = true from ht.freed.trans hf)] at hub
    exact hub rfl
  rename_i hf
  split
  · trivial
  rename_i s hs
  have hcc : s.cc = .loaded (c.sb t).memP (c.sb t).vis ∧ s.got = (c.sb t).got := by
    simp only [SB.act] at hs
    split at hs <;> cases hs
    exact ⟨rfl, rfl⟩
  have hne : ∀ u, u ≠ t → (upd c.sb t s) u = c.sb u := fun u hu => upd_other _ _ hu
  by_cases hv : (c.sb t).vis = (c.sb t).got.length
  · obtain ⟨hq, hB⟩ := (ht.buf.peek hs).1 hv
    have hact : (c.rt.over G).act cfg prog (.peek 0) = .ok (c.rt.over { G with pc := .check, cur := t }) := by
      simp only [Rt.act, Rt.actScan]
      rw [if_neg (by rw [show (c.rt.over G).pc = G.pc from rfl, hgp]; simp),
        if_neg (show ¬ ((c.rt.over G).full ∨ (c.rt.over G).bufs = []) from hfb),
        show (c.rt.over G).bufs[(c.rt.over G).i]? = c.rt.bufs[c.rt.i]? from rfl, hb]
      dsimp only
      rw [if_neg (show ¬ ((c.rt.over G).thr t).freed = true by show ¬ (G.thr t).freed = true; rw [ht.freed]; exact hf),
        if_pos trivial, if_pos (show ((c.rt.over G).thr t).q = [] from hq)]
      rfl
    refine Good.of (bl := some (.peek 0)) (by rintro b ⟨⟩; exact .inl ⟨_, rfl⟩) ?_
    refine h.bgUpd (c' := { c.setSb t s with tgt := some t }) t (by simp) (by simp)
      (by rintro b ⟨⟩; exact .inl ⟨_, rfl⟩) (held' := 0) (h.exec.one (l := .peek 0) trivial hact) rfl rfl rfl rfl
      ?_ rfl rfl hne (fun _ _ => rfl) (fun _ _ => rfl) ?_
    · refine ⟨fun u hu => ?_, fun hn => (by cases hn), fun e => ?_, fun e => ?_⟩
      · simp only [Option.some.injEq] at hu
        subst hu
        refine ⟨hpc, hfull, hb, (c.sb t).memP, (c.sb t).vis, ?_⟩
        simp only [Cr.setSb, upd_same]
        refine ⟨.inl hcc.1, fun _ => ⟨trivial, trivial⟩, fun hne => ?_⟩
        rw [hcc.2] at hne
        exact absurd hv hne
      · have := hpc.symm.trans e; cases this
      · have := hpc.symm.trans e; cases this
    · show TRel cfg prog c.rt.ids c.rt.sites (NanoLog.upd c.sb t s t) (c.rt.thr t) (G.thr t) 0 (kls t) (r t) (τ t)
      rw [upd_same]
      exact ht.bg hs trivial hB ht.valid rfl rfl rfl rfl ht.freed rfl
  · have hB := (ht.buf.peek hs).2 hv
    refine Good.of (bl := none) (by simp) ?_ (hr := fun _ _ => by simp [Cr.rank, htg, hpc, Cr.setSb, upd_same, hcc.1])
    refine h.bgUpd (c' := { c.setSb t s with tgt := some t }) (G' := G) t (by simp) (by simp)
      (by simp) (held' := held t) (by rw [Option.toList_none, List.append_nil]; exact h.exec) rfl rfl rfl rfl
      ?_ rfl rfl hne (fun _ _ => rfl) (fun _ _ => rfl) ?_
    · refine ⟨fun u hu => ?_, fun hn => (by cases hn), fun e => ?_, fun e => ?_⟩
      · simp only [Option.some.injEq] at hu
        subst hu
        refine ⟨hpc, hfull, hb, (c.sb t).memP, (c.sb t).vis, ?_⟩
        simp only [Cr.setSb, upd_same]
        refine ⟨.inl hcc.1, fun e => ?_, fun _ => hgp⟩
        rw [hcc.2] at e
        exact absurd e hv
      · have := hpc.symm.trans e; cases this
      · have := hpc.symm.trans e; cases this
    · show TRel cfg prog c.rt.ids c.rt.sites (NanoLog.upd c.sb t s t) (c.rt.thr t) (G.thr t) (held t) (kls t) (r t) (τ t)
      rw [upd_same]
      exact ht.bg hs trivial hB ht.valid rfl rfl rfl rfl ht.freed rfl

/-- The rest of `peek`. -/
theorem Good.follow (hP : ProgOK cfg prog) (h : CRel s0 cfg prog cls c als G kls r τ held) :
    Good s0 cfg prog cls als c .follow (c.act cfg prog .follow) := by
  obtain ⟨hRI, hF⟩ := h.exec.inv hP
  simp only [Cr.act, Cr.actBg]
  split
  · trivial
  rename_i t htg
  split
  · trivial
  rename_i s hs
  obtain ⟨hpc, hfull, hb, p, v, hcc, hk1, hk2⟩ := h.cc.tgt t htg
  have ht := h.thr t
  have hne : ∀ u, u ≠ t → (upd c.sb t s) u = c.sb u := fun u hu => upd_other _ _ hu
  obtain ⟨g, done, hI, hQ⟩ := ht.buf
  have hB := ht.buf.cstep hs
  obtain ⟨hgot, hr | ⟨avail, hav, hz⟩⟩ := cstep_avail hI hcc hs
  · rw [hr] at hB ⊢
    dsimp only at hB ⊢
    refine Good.of (bl := none) (by simp) ?_ (hr := fun _ _ => ?_)
    case refine_2 =>
      rcases hcc with hcc | hcc
      · simp [Cr.rank, htg, Cr.setSb, upd_same, hr, hcc]
      · simp only [SB.act, hcc] at hs
        cases hs; cases hr
    refine h.bgUpd (c' := c.setSb t s) (G' := G) t (by simp) (by simp)
      (by simp) (held' := held t) (by rw [Option.toList_none, List.append_nil]; exact h.exec) rfl rfl rfl rfl
      ?_ rfl rfl hne (fun _ _ => rfl) (fun _ _ => rfl) ?_
    · refine ⟨fun u hu => ?_, fun hn => ?_, fun e => ?_, fun e => ?_⟩
      · have : u = t := by rw [show (c.setSb t s).tgt = c.tgt from rfl, htg] at hu; cases hu; rfl
        subst this
        refine ⟨hpc, hfull, hb, p, v, ?_⟩
        simp only [Cr.setSb, upd_same]
        rw [hgot]
        exact ⟨.inr hr, hk1, hk2⟩
      · rw [show (c.setSb t s).tgt = c.tgt from rfl, htg] at hn; cases hn
      · rw [show (c.setSb t s).rt.pc = c.rt.pc from rfl, hpc] at e; cases e
      · rw [show (c.setSb t s).rt.pc = c.rt.pc from rfl, hpc] at e; cases e
    · show TRel cfg prog c.rt.ids c.rt.sites (NanoLog.upd c.sb t s t) (c.rt.thr t) (G.thr t) (held t) (kls t) (r t) (τ t)
      rw [upd_same]
      exact ht.bg hs trivial hB ht.valid rfl rfl rfl rfl ht.freed rfl
  · rw [hav] at hB ⊢
    dsimp only at hB ⊢
    by_cases ha0 : avail = 0
    · obtain ⟨hgp, hgc⟩ := hk1 (hz.1 ha0)
      have hB : BRel cfg.staging c.rt.sites s (G.thr t).q (held t) (kls t) := by
        rcases hB with ⟨-, hB⟩ | ⟨n, -, -, hp, -⟩
        · exact hB
        · omega
      refine Good.of (bl := none) (by simp) ?_ (hr := fun _ _ => ?_)
      case refine_2 =>
        rcases hcc with hcc | hcc <;> simp [Cr.rank, Cr.peeked, ha0, htg, Cr.setSb, upd_same, hav, hcc]
      refine h.bgUpd (c' := (c.setSb t s).peeked t avail) (G' := G) t (by simp) (by simp)
        (by simp) (held' := held t) ?_ rfl rfl rfl rfl
        ?_ rfl rfl hne (fun _ _ => rfl) (fun _ _ => rfl) ?_
      · rw [Option.toList_none, List.append_nil]; exact h.exec
      · refine ⟨fun u hu => (by cases hu), fun _ => ?_, fun e => ?_, fun e => ?_⟩
        · simp only [Cr.peeked, ha0, if_true]
          exact ⟨hgp, fun _ => hgc⟩
        · simp only [Cr.peeked, ha0, if_true] at e; cases e
        · left
          simp only [Cr.peeked, Cr.setSb, upd_same]
          exact ⟨_, by rw [hav, ha0]⟩
      · show TRel cfg prog c.rt.ids c.rt.sites (NanoLog.upd c.sb t s t) (c.rt.thr t) (G.thr t) (held t) (kls t) (r t) (τ t)
        rw [upd_same]
        exact ht.bg hs trivial hB ht.valid rfl rfl rfl rfl ht.freed rfl
    · have hgp : G.pc = .scan := hk2 fun e => ha0 (hz.2 e)
      obtain ⟨n, hn0, hnq, -, hB⟩ : ∃ n, 0 < n ∧ n ≤ (G.thr t).q.length ∧ 0 < avail ∧
          BRel cfg.staging c.rt.sites s (G.thr t).q n (kls t) := by
        rcases hB with ⟨e, -⟩ | hB
        · exact absurd e ha0
        · exact hB
      have hmem : t ∈ c.rt.bufs := List.mem_of_getElem? hb
      have hfr : (G.thr t).freed = false := ((hRI.thr t).alloc hmem).1
      have hact : (c.rt.over G).act cfg prog (.peek n) =
          .ok (((c.setSb t s).peeked t avail).rt.over { G with pc := .encode, cur := t, rem := n }) := by
        simp only [Rt.act, Rt.actScan]
        rw [if_neg (by rw [show (c.rt.over G).pc = G.pc from rfl, hgp]; simp), if_neg,
          show (c.rt.over G).bufs[(c.rt.over G).i]? = c.rt.bufs[c.rt.i]? from rfl, hb]
        · dsimp only
          rw [if_neg (show ¬ ((c.rt.over G).thr t).freed = true by show ¬ (G.thr t).freed = true; rw [hfr]; simp),
            if_neg (by omega), if_pos (show n ≤ ((c.rt.over G).thr t).q.length from hnq)]
          rfl
        · rintro (e | e)
          · rw [show (c.rt.over G).full = c.rt.full from rfl, hfull] at e; cases e
          · rw [show (c.rt.over G).bufs = c.rt.bufs from rfl] at e
            rw [e] at hmem; cases hmem
      refine Good.of (bl := some (.peek n)) (by rintro b ⟨⟩; exact .inl ⟨_, rfl⟩) ?_
        (hs := fun e => (by simp only [Option.some.injEq, Lbl.peek.injEq] at e; omega))
      refine h.bgUpd (c' := (c.setSb t s).peeked t avail) t (by simp) (by simp)
        (by rintro b ⟨⟩; exact .inl ⟨_, rfl⟩) (held' := n) (h.exec.one (l := .peek n) trivial hact) rfl rfl rfl rfl
        ?_ rfl rfl hne (fun _ _ => rfl) (fun _ _ => rfl) ?_
      · refine ⟨fun u hu => (by cases hu), fun _ => ?_, fun e => ?_, fun e => ?_⟩
        · simp only [Cr.peeked, ha0, if_false]
          exact ⟨trivial, fun _ => trivial⟩
        · simp only [Cr.peeked, Cr.setSb, upd_same]
          exact ⟨⟨_, _, hav⟩, trivial⟩
        · simp only [Cr.peeked, ha0, if_false] at e; cases e
      · show TRel cfg prog c.rt.ids c.rt.sites (NanoLog.upd c.sb t s t) (c.rt.thr t) (G.thr t) n (kls t) (r t) (τ t)
        rw [upd_same]
        exact ht.bg hs trivial hB ht.valid rfl rfl rfl rfl ht.freed rfl

theorem CRel.atBuf (h : CRel s0 cfg prog cls c als G kls r τ held) (hpc : c.rt.pc = .encode ∨ c.rt.pc = .check) :
    c.tgt = none ∧ G.pc = c.rt.pc ∧ G.cur = c.rt.cur := by
  have htg : c.tgt = none := by
    cases ht : c.tgt with
    | none => rfl
    | some t =>
      have := (h.cc.tgt t ht).1
      rcases hpc with e | e <;> rw [e] at this <;> cases this
  exact ⟨htg, (h.cc.none htg).1, (h.cc.none htg).2 hpc⟩

/-- The background thread loads a byte of a message. -/
theorem Good.look (h : CRel s0 cfg prog cls c als G kls r τ held) (i : Nat) :
    Good s0 cfg prog cls als c (.look i) (c.act cfg prog (.look i)) := by
  simp only [Cr.act, Cr.actBg]
  split
  · trivial
  rename_i hpc
  have hpc : c.rt.pc = .encode := by by_contra hc; exact hpc hc
  split
  · trivial
  rename_i s hs
  obtain ⟨htg, hgp, hgc⟩ := h.atBuf (.inl hpc)
  obtain ⟨⟨av, view, hcc⟩, hrem⟩ := h.cc.enc hpc
  have ht := h.thr c.rt.cur
  have hne : ∀ u, u ≠ c.rt.cur → (upd c.sb c.rt.cur s) u = c.sb u := fun u hu => upd_other _ _ hu
  have hB : BRel cfg.staging c.rt.sites s (G.thr c.rt.cur).q (held c.rt.cur) (kls c.rt.cur) :=
    ht.buf.quiet hs (fun x es hes => hes) (by simp) (fun x => trivial) rfl
  have hcc' : ∃ view', s.cc = .holding av view' := by
    simp only [SB.act, hcc] at hs
    split at hs <;> cases hs
    exact ⟨_, rfl⟩
  refine Good.of (bl := none) (by simp) ?_ (hr := fun _ e => by simp [CLbl.ofBg] at e)
  refine h.bgUpd (c' := c.setSb c.rt.cur s) (G' := G) c.rt.cur (by simp) (by simp)
    (by simp) (held' := held c.rt.cur) (by rw [Option.toList_none, List.append_nil]; exact h.exec) rfl rfl rfl rfl
    ?_ rfl rfl hne (fun _ _ => rfl) (fun _ _ => rfl) ?_
  · rw [upd_self]
    refine ⟨fun u hu => ?_, fun _ => ⟨hgp, fun _ => hgc⟩, fun _ => ?_, fun e => ?_⟩
    · rw [show (c.setSb c.rt.cur s).tgt = c.tgt from rfl, htg] at hu; cases hu
    · simp only [Cr.setSb, upd_same]
      obtain ⟨v', hv'⟩ := hcc'
      exact ⟨⟨_, _, hv'⟩, hrem⟩
    · rw [show (c.setSb c.rt.cur s).rt.pc = c.rt.pc from rfl, hpc] at e; cases e
  · show TRel cfg prog c.rt.ids c.rt.sites (NanoLog.upd c.sb c.rt.cur s c.rt.cur) (c.rt.thr c.rt.cur) (G.thr c.rt.cur)
      (held c.rt.cur) (kls c.rt.cur) (r c.rt.cur) (τ c.rt.cur)
    rw [upd_same]
    exact ht.bg hs trivial hB ht.valid rfl rfl rfl rfl ht.freed rfl

/-- `checkCanDelete`. -/
theorem Good.check (hP : ProgOK cfg prog) (h : CRel s0 cfg prog cls c als G kls r τ held) :
    Good s0 cfg prog cls als c .check (c.act cfg prog .check) := by
  obtain ⟨hRI, hF⟩ := h.exec.inv hP
  have hub := act_noub hP (l := .check) hRI hF
  simp only [Cr.act, Cr.actBg]
  split
  · trivial
  rename_i hpc
  have hpc : c.rt.pc = .check := by by_contra hc; exact hpc hc
  obtain ⟨htg, hgp, hgc⟩ := h.atBuf (.inr hpc)
  have ht := h.thr c.rt.cur
  obtain ⟨g, done, hI, hQ⟩ := ht.buf
  have habs : (c.rt.over G).act cfg prog .check =
      if (G.thr c.rt.cur).dealloc ∧ (G.thr c.rt.cur).q = [] then (c.rt.over G).remove
      else (c.rt.over G).advance (c.rt.i + 1) := by
    simp only [Rt.act, Rt.actScan]
    rw [if_neg (by rw [show (c.rt.over G).pc = G.pc from rfl, hgp, hpc]; simp),
      show (c.rt.over G).cur = c.rt.cur from hgc]
    simp only [Rt.remove]
    rw [show (c.rt.over G).cur = c.rt.cur from hgc]
    rfl
  rw [habs] at hub
  split
  · -- not yet
    rename_i hs
    have hcond : ¬ ((G.thr c.rt.cur).dealloc = true ∧ (G.thr c.rt.cur).q = []) := by
      rintro ⟨e1, e2⟩
      rw [ht.dealloc] at e1
      rcases h.cc.check hpc with ⟨view, hcc⟩ | hcc
      · simp [SB.act, hcc, e1] at hs
      · have hcp : (c.sb c.rt.cur).cp ≠ (c.sb c.rt.cur).memP := by
          intro e
          simp [SB.act, hcc, e] at hs
        refine hQ.dead_ne hI hcc hcp (fun e => ht.pp0 (.inr e)) ?_
        show (G.thr c.rt.cur).q.map _ = []
        rw [e2]; rfl
    rw [if_neg hcond] at hub habs
    unfold Cr.next
    split
    · trivial
    rename_i s hs
    have hB := ht.buf.release hs
    rcases advance_over c.rt G (c.rt.i + 1) with ⟨e1, e2⟩ | ⟨s', e1, e2, e3, e4, e5, e6, e7, e8⟩
    · exact absurd e2 hub
    · rw [show (c.setSb c.rt.cur s).lift (c.rt.advance (c.rt.i + 1)) = .ok { c.setSb c.rt.cur s with rt := s' } by rw [e1]; rfl]
      rw [e2] at habs
      refine Good.of (bl := some .check) (by rintro b ⟨⟩; exact .inr (.inl rfl)) ?_
      refine h.bgUpd (c' := { c.setSb c.rt.cur s with rt := s' }) c.rt.cur (by simp) (by simp)
        (by rintro b ⟨⟩; exact .inr (.inl rfl)) (held' := held c.rt.cur) (h.exec.one (l := .check) trivial habs) rfl e5 e6
        (by show (s'.thr _).pc = _; rw [e4]) (by apply between_cc; exact htg; exact e3; rfl) e7 e8 (fun u hu => upd_other _ _ hu)
        (fun u _ => by show s'.thr u = _; rw [e4]) (fun _ _ => rfl) ?_
      show TRel cfg prog c.rt.ids c.rt.sites (NanoLog.upd c.sb c.rt.cur s c.rt.cur) (s'.thr c.rt.cur) (G.thr c.rt.cur)
        (held c.rt.cur) (kls c.rt.cur) (r c.rt.cur) (τ c.rt.cur)
      rw [upd_same, e4]
      exact ht.bg hs trivial hB ht.valid rfl rfl rfl rfl ht.freed rfl
  · rename_i s hs
    obtain ⟨hB, hq⟩ := ht.buf.canDelete hs
    have hcc : (s.cc = .dead ∧ ∃ view, (c.sb c.rt.cur).cc = .holding 0 view) ∨ (s.cc = .freed ∧ (c.sb c.rt.cur).cc = .dead) := by
      rcases h.cc.check hpc with ⟨view, hcc⟩ | hcc
      · simp only [SB.act, hcc] at hs
        split at hs <;> cases hs
        rename_i hd
        exact .inl ⟨rfl, view, hcc⟩
      · simp only [SB.act, hcc] at hs
        split at hs <;> cases hs
        exact .inr ⟨rfl, hcc⟩
    rcases hcc with ⟨hcc, view0, hcv⟩ | ⟨hcc, hcc0⟩
    · rw [hcc]
      dsimp only
      refine Good.of (bl := none) (by simp) ?_ (hr := fun _ _ => by simp [Cr.rank, htg, hpc, Cr.setSb, upd_same, hcc, hcv])
      refine h.bgUpd (c' := c.setSb c.rt.cur s) (G' := G) c.rt.cur (by simp) (by simp)
        (by simp) (held' := held c.rt.cur) (by rw [Option.toList_none, List.append_nil]; exact h.exec) rfl rfl rfl rfl
        ?_ rfl rfl (fun u hu => upd_other _ _ hu) (fun _ _ => rfl) (fun _ _ => rfl) ?_
      · rw [upd_self]
        refine ⟨fun u hu => ?_, fun _ => ⟨hgp, fun _ => hgc⟩, fun e => ?_, fun _ => ?_⟩
        · rw [show (c.setSb c.rt.cur s).tgt = c.tgt from rfl, htg] at hu; cases hu
        · rw [show (c.setSb c.rt.cur s).rt.pc = c.rt.pc from rfl, hpc] at e; cases e
        · right
          simp only [Cr.setSb, upd_same]
          exact hcc
      · show TRel cfg prog c.rt.ids c.rt.sites (NanoLog.upd c.sb c.rt.cur s c.rt.cur) (c.rt.thr c.rt.cur) (G.thr c.rt.cur)
          (held c.rt.cur) (kls c.rt.cur) (r c.rt.cur) (τ c.rt.cur)
        rw [upd_same]
        exact ht.bg hs trivial hB ht.valid rfl rfl rfl rfl ht.freed rfl
    · rw [hcc]
      dsimp only
      have hD : (c.sb c.rt.cur).memD = true := by have := hI.c; simpa only [CInv, hcc0] using this
      have hcond : (G.thr c.rt.cur).dealloc = true ∧ (G.thr c.rt.cur).q = [] := ⟨ht.dealloc.trans hD, hq hcc⟩
      rw [if_pos hcond] at hub habs
      -- what `remove` does in both
      obtain ⟨s', e1, e2, e3, e4, e5, e6, e7, e8⟩ : ∃ s', c.rt.remove = .ok s' ∧
          (c.rt.over G).remove = .ok (s'.over { G with pc := s'.pc, thr := (upd G.thr c.rt.cur { G.thr c.rt.cur with freed := true }) }) ∧
          (s'.pc = .scan ∨ s'.pc = .scanned) ∧
          s'.thr = upd c.rt.thr c.rt.cur { c.rt.thr c.rt.cur with freed := true } ∧
          s'.closed = c.rt.closed ∧ s'.level = c.rt.level ∧ s'.ids = c.rt.ids ∧ s'.sites = c.rt.sites := by
        simp only [Rt.remove] at hub ⊢
        rw [show (c.rt.over G).cur = c.rt.cur from hgc] at hub ⊢
        by_cases hbe : c.rt.bufs.eraseIdx c.rt.i = []
        · rw [if_pos hbe, if_pos (show (c.rt.over G).bufs.eraseIdx (c.rt.over G).i = [] from hbe)]
          exact ⟨_, rfl, rfl, .inr rfl, rfl, rfl, rfl, rfl, rfl⟩
        · rw [if_neg hbe]
          rw [if_neg (show ¬ (c.rt.over G).bufs.eraseIdx (c.rt.over G).i = [] from hbe)] at hub ⊢
          rcases advance_over { c.rt.setThr c.rt.cur { c.rt.thr c.rt.cur with freed := true } with
              bufs := c.rt.bufs.eraseIdx c.rt.i
              last := if c.rt.last ≥ c.rt.i ∧ c.rt.last > 0 then c.rt.last - 1 else c.rt.last }
            { G with thr := upd G.thr c.rt.cur { G.thr c.rt.cur with freed := true } } c.rt.i with
            ⟨f1, f2⟩ | ⟨s', f1, f2, f3, f4, f5, f6, f7, f8⟩
          · exact absurd f2 hub
          · exact ⟨s', f1, f2, f3, f4, f5, f6, f7, f8⟩
      rw [show (c.setSb c.rt.cur s).lift c.rt.remove = .ok { c.setSb c.rt.cur s with rt := s' } by rw [e1]; rfl]
      rw [e2] at habs
      refine Good.of (bl := some .check) (by rintro b ⟨⟩; exact .inr (.inl rfl)) ?_
      refine h.bgUpd (c' := { c.setSb c.rt.cur s with rt := s' }) c.rt.cur (by simp) (by simp)
        (by rintro b ⟨⟩; exact .inr (.inl rfl)) (held' := held c.rt.cur) (h.exec.one (l := .check) trivial habs) rfl e5 e6
        (by show (s'.thr _).pc = _; rw [e4, upd_same]) (by apply between_cc; exact htg; exact e3; rfl) e7 e8 (fun u hu => upd_other _ _ hu)
        (fun u hu => by show s'.thr u = _; rw [e4, upd_other _ _ hu]) (fun u hu => upd_other _ _ hu) ?_
      show TRel cfg prog c.rt.ids c.rt.sites (NanoLog.upd c.sb c.rt.cur s c.rt.cur) (s'.thr c.rt.cur)
        (NanoLog.upd G.thr c.rt.cur _ c.rt.cur) (held c.rt.cur) (kls c.rt.cur) (r c.rt.cur) (τ c.rt.cur)
      rw [upd_same, upd_same, e4, upd_same]
      exact ht.bg hs trivial hB ht.valid rfl rfl rfl rfl rfl rfl

theorem queue_msgLen {cfg : Config} {sites : List Site} {cs : List LogCall} (h : ∀ c ∈ cs, CallOK cfg sites c) :
    queueSize sites cs = msgLen (cs.map (img sites)) := by
  obtain ⟨ms, hms⟩ := CallOK.all_prints h 0 ⟨0, 0, [], 0, 0⟩
  rw [← (queueBytes_length (queue_of_prints hms)).1, queueBytes_imgs]
  rfl

theorem next_good {c0 : Cr} {l : CLbl} {rt : Rt} {j t : Nat} {s : SB} (ht : c.rt.cur = t) (hs : c.sb t = s)
    (h : Good s0 cfg prog cls als c0 l (match s.act .tso cfg.staging .release with
      | none => .off
      | some s2 => (c.setSb t s2).lift (rt.advance j))) : Good s0 cfg prog cls als c0 l (c.next cfg rt j) := by
  subst ht hs
  exact h

/-- One chunk of messages is encoded. -/
theorem Good.encode (hP : ProgOK cfg prog) (h : CRel s0 cfg prog cls c als G kls r τ held) (junk : Nat → Nat) (more : List Byte) :
    Good s0 cfg prog cls als c (.encode junk more) (c.act cfg prog (.encode junk more)) := by
  obtain ⟨hRI, hF⟩ := h.exec.inv hP
  have hub := act_noub hP (l := .encode junk more) hRI hF
  simp only [Cr.act, Cr.actBg]
  split
  · trivial
  rename_i hpc
  have hpc : c.rt.pc = .encode := by by_contra hc; exact hpc hc
  obtain ⟨htg, hgp, hgc⟩ := h.atBuf (.inl hpc)
  obtain ⟨⟨av, view, hcc⟩, hrem⟩ := h.cc.enc hpc
  generalize hT : c.rt.cur = t at *
  have ht := h.thr t
  obtain ⟨g, done, hI, hQ⟩ := ht.buf
  have hcur := hRI.curI (.inr (hgp.trans hpc))
  have hmem : t ∈ c.rt.bufs := by
    have : c.rt.bufs[c.rt.i]? = some G.cur := hcur
    rw [hgc] at this
    exact List.mem_of_getElem? this
  obtain ⟨hfr, hbid⟩ := (hRI.thr t).alloc hmem
  have hfr : (c.rt.thr t).freed = false := ht.freed.symm.trans hfr
  have hbid : (c.rt.thr t).bid ≠ none := ht.bid ▸ hbid
  split
  · rename_i e; rw [hfr] at e; cases e
  split
  · rename_i e; exact hbid e
  · rename_i b avail view' hb hcc'
    rw [hcc] at hcc'
    cases hcc'
    split
    · trivial
    rename_i bs hbs
    have hview := hQ.viewed hI hcc hbs
    have hQc := hQ.cc
    rw [hcc] at hQc
    obtain ⟨hheld, hav⟩ := hQc
    simp only at hview hheld hav
    rw [← List.map_take, ← queueBytes_imgs] at hview
    rw [List.length_map] at hheld
    have hcall : ∀ x ∈ (G.thr t).q, CallOK cfg c.rt.sites x := by
      intro x hx
      have := hF.log t x
      rw [show ((c.rt.over G).thr t).log = _ from (hRI.thr t).log] at this
      exact this (List.mem_append_right _ hx)
    have hab : ((c.rt.over G).thr (c.rt.over G).cur).bid = some b := by
      show (G.thr G.cur).bid = _
      rw [hgc, ht.bid, hb]
    obtain ⟨e, rs, k, hstep, hkl, hcnt, -⟩ := batch_step hP hRI hF ⟨0, 0, [], 0, 0⟩ hab junk more
    have hrm : (c.rt.over G).rem = held t := hrem
    have hq0 : ((c.rt.over G).thr (c.rt.over G).cur) = G.thr t := by show G.thr G.cur = _; rw [hgc]
    rw [hq0, hrm] at hstep hcnt hkl
    have hstep' : c.rt.enc.step cfg (.batch junk [] (bs ++ more) (min cfg.release bs.length) b c.rt.wrap) =
        some (e, some (queueSize c.rt.sites (((G.thr t).q.take (held t)).take k) : Int)) := by
      refine Eq.trans ?_ hstep
      rw [hview, Rt.msgBytes_eq]
      rfl
    have habs : (c.rt.over G).act cfg prog (.encode junk more) =
        if (queueSize c.rt.sites (((G.thr t).q.take (held t)).take k) : Int) = 0 then
          Rt.advance { (c.rt.over G).setEnc e with last := c.rt.i, full := true } (c.rt.i + 1)
        else
          if held t - k = 0 then
            Rt.advance { ((c.rt.over G).setEnc e).setThr t { G.thr t with q := (G.thr t).q.drop k } with
                          wrap := false, rem := held t - k
                          gB := G.gB ++ (((G.thr t).q.take (held t)).take k).map fun c => (t, c) } (c.rt.i + 1)
          else .ok { ((c.rt.over G).setEnc e).setThr t { G.thr t with q := (G.thr t).q.drop k } with
                          wrap := false, rem := held t - k
                          gB := G.gB ++ (((G.thr t).q.take (held t)).take k).map fun c => (t, c) } := by
      simp only [Rt.act, Rt.actScan]
      rw [if_neg (by rw [show (c.rt.over G).pc = G.pc from rfl, hgp, hpc]; simp),
        if_neg (by rw [hq0, ht.freed, hfr]; simp)]
      split
      · rename_i e0; rw [hab] at e0; cases e0
      rename_i b' e0
      rw [hab] at e0
      cases e0
      rw [hq0, hrm, hstep]
      dsimp only
      by_cases hz : (queueSize c.rt.sites (((G.thr t).q.take (held t)).take k) : Int) = 0
      · rw [if_pos hz]
        exact if_pos hz
      · rw [if_neg hz]
        refine (if_neg hz).trans ?_
        rw [Int.toNat_natCast, hcnt, show (c.rt.over G).cur = t from hgc]
        by_cases hz2 : held t - k = 0
        · rw [if_pos hz2]
          exact if_pos hz2
        · rw [if_neg hz2]
          exact if_neg hz2
    rw [habs] at hub
    rw [hstep']
    dsimp only
    have htake : ((G.thr t).q.take (held t)).take k = (G.thr t).q.take k := by
      rw [List.length_take] at hkl
      rw [List.take_take, Nat.min_eq_left (by omega)]
    have hkh : k ≤ held t := by rw [List.length_take] at hkl; omega
    have hn : queueSize c.rt.sites (((G.thr t).q.take (held t)).take k) = msgLen (((G.thr t).q.map (img c.rt.sites)).take k) := by
      rw [htake, ← List.map_take]
      exact queue_msgLen fun x hx => hcall x (List.mem_of_mem_take hx)
    have hsplit := msgLen_held (q := (G.thr t).q.map (img c.rt.sites)) hkh
    split
    · -- nothing fits
      rename_i hn0
      rw [if_pos hn0] at hub habs
      unfold Cr.next
      rw [hT]
      split
      · trivial
      rename_i s hs
      have hB := ht.buf.release hs
      rcases advance_over { c.rt.setEnc e with last := c.rt.i, full := true } G (c.rt.i + 1) with
        ⟨e1, e2⟩ | ⟨s', e1, e2, e3, e4, e5, e6, e7, e8⟩
      · exact absurd e2 hub
      · rw [e1]
        have habs := habs.trans e2
        refine Good.of (c' := { c.setSb t s with rt := s' }) (bl := some (.encode junk more))
          (by rintro b ⟨⟩; exact .inr (.inr ⟨_, _, rfl⟩)) ?_
        refine h.bgUpd (c' := { c.setSb t s with rt := s' }) t (by simp) (by simp)
          (by rintro b ⟨⟩; exact .inr (.inr ⟨_, _, rfl⟩)) (held' := held t) (h.exec.one (l := .encode junk more) trivial habs) rfl e5 e6
          (by show (s'.thr _).pc = _; rw [e4]; rfl) (by apply between_cc; exact htg; exact e3; rfl) e7 e8 (fun u hu => upd_other _ _ hu)
          (fun u _ => by show s'.thr u = _; rw [e4]; rfl) (fun _ _ => rfl) ?_
        show TRel cfg prog c.rt.ids c.rt.sites (NanoLog.upd c.sb t s t) (s'.thr t) (G.thr t)
          (held t) (kls t) (r t) (τ t)
        rw [upd_same, e4]
        exact ht.bg hs trivial hB ht.valid rfl rfl rfl rfl ht.freed rfl
    · rename_i hn0
      rw [if_neg hn0] at hub habs
      rw [Int.toNat_natCast, hn]
      -- `consume` is possible
      obtain ⟨bs', hbs'⟩ := imageBytes_le (m := msgLen (((G.thr t).q.map (img c.rt.sites)).take k)) hbs
        (by omega)
      have hs : ∃ s, (c.sb t).act .tso cfg.staging (.consume (msgLen (((G.thr t).q.map (img c.rt.sites)).take k))) = some s ∧
          s.cc = .holding (av - msgLen (((G.thr t).q.map (img c.rt.sites)).take k))
            (fun j => view (j + msgLen (((G.thr t).q.map (img c.rt.sites)).take k))) := by
        simp only [SB.act, hcc]
        rw [if_pos (by omega), hbs']
        exact ⟨_, rfl, rfl⟩
      obtain ⟨s, hs, hscc⟩ := hs
      rw [hs]
      dsimp only
      have hB := ht.buf.consume hkh ⟨_, _, hcc⟩ rfl hs
      have hzero : av - msgLen (((G.thr t).q.map (img c.rt.sites)).take k) = 0 ↔ held t - k = 0 := by
        rw [hav, hsplit]
        constructor
        · intro h0
          have := msgLen_zero (a := (((G.thr t).q.map (img c.rt.sites)).drop k).take (held t - k))
            (fun m hm => hQ.ne m (by
              have := List.mem_of_mem_drop (List.mem_of_mem_take hm)
              simp only [List.mem_append]
              exact .inl (.inr this))) (by omega)
          have := congrArg List.length this
          rw [List.length_take, List.length_drop, List.length_map, List.length_nil] at this
          omega
        · intro h0
          rw [h0, List.take_zero, msgLen_nil]
          omega
      have hvalid : ∀ x ∈ (G.thr t).q.drop k, x.id < c.rt.sites.length := fun x hx => ht.valid x (List.mem_of_mem_drop hx)
      split
      · -- the last chunk of this buffer
        rename_i h0
        rw [if_pos (hzero.1 h0)] at hub habs
        refine next_good (c := { c.setSb t s with rt := { c.rt.setEnc e with wrap := false } })
          (rt := { c.rt.setEnc e with wrap := false }) hT (upd_same _ _ _) ?_
        split
        · trivial
        rename_i s2 hs2
        have hB2 := hB.release hs2
        rcases advance_over { c.rt.setEnc e with wrap := false } { G with
            thr := NanoLog.upd G.thr t { G.thr t with q := (G.thr t).q.drop k }, rem := held t - k
            gB := G.gB ++ (((G.thr t).q.take (held t)).take k).map fun c => (t, c) } (c.rt.i + 1) with
          ⟨e1, e2⟩ | ⟨s', e1, e2, e3, e4, e5, e6, e7, e8⟩
        · exact absurd e2 hub
        · rw [e1]
          have habs := habs.trans e2
          have hsb : ∀ u, ({ ({ c.setSb t s with rt := { c.rt.setEnc e with wrap := false } } : Cr).setSb t s2 with rt := s' } : Cr).sb u =
              NanoLog.upd c.sb t s2 u := by
            intro u
            show NanoLog.upd (NanoLog.upd c.sb t s) t s2 u = _
            by_cases hu : u = t
            · subst hu; rw [upd_same, upd_same]
            · rw [upd_other _ _ hu, upd_other _ _ hu, upd_other _ _ hu]
          refine Good.of (c' := { ({ c.setSb t s with rt := { c.rt.setEnc e with wrap := false } } : Cr).setSb t s2 with rt := s' })
            (bl := some (.encode junk more)) (by rintro b ⟨⟩; exact .inr (.inr ⟨_, _, rfl⟩)) ?_
          refine h.bgUpd (c' := { ({ c.setSb t s with rt := { c.rt.setEnc e with wrap := false } } : Cr).setSb t s2 with rt := s' })
            t (by simp) (by simp)
            (by rintro b ⟨⟩; exact .inr (.inr ⟨_, _, rfl⟩)) (held' := held t - k)
            (h.exec.one (l := .encode junk more) trivial habs) rfl e5 e6
            (by show (s'.thr _).pc = _; rw [e4]; rfl) (by apply between_cc; exact htg; exact e3; rfl) e7 e8
            (fun u hu => (hsb u).trans (upd_other _ _ hu))
            (fun u _ => by show s'.thr u = _; rw [e4]; rfl) (fun u hu => upd_other _ _ hu) ?_
          rw [hsb t]
          show TRel cfg prog c.rt.ids c.rt.sites (NanoLog.upd c.sb t s2 t) (s'.thr t) (NanoLog.upd G.thr t _ t)
            (held t - k) (kls t) (r t) (τ t)
          rw [upd_same, upd_same, e4]
          exact (ht.bg (ta' := { G.thr t with q := (G.thr t).q.drop k }) hs trivial hB hvalid rfl rfl rfl rfl ht.freed rfl).bg
            hs2 trivial hB2 hvalid rfl rfl rfl rfl ht.freed rfl
      · -- there is more in this buffer
        rename_i h0
        rw [if_neg (fun e => h0 (hzero.2 e))] at habs
        refine Good.of (bl := some (.encode junk more)) (by rintro b ⟨⟩; exact .inr (.inr ⟨_, _, rfl⟩)) ?_
        refine h.bgUpd (c' := { c.setSb t s with rt := { c.rt.setEnc e with wrap := false } }) (G' := { G with
            thr := NanoLog.upd G.thr t { G.thr t with q := (G.thr t).q.drop k }, rem := held t - k
            gB := G.gB ++ (((G.thr t).q.take (held t)).take k).map fun c => (t, c) }) t (by simp) (by simp)
          (by rintro b ⟨⟩; exact .inr (.inr ⟨_, _, rfl⟩)) (held' := held t - k)
          (h.exec.one (l := .encode junk more) trivial habs) rfl rfl rfl rfl ?_ rfl rfl
          (fun u hu => upd_other _ _ hu) (fun u _ => rfl) (fun u hu => upd_other _ _ hu) ?_
        · refine ⟨fun u hu => ?_, fun _ => ⟨hgp, fun _ => hgc.trans hT.symm⟩, fun _ => ?_, fun e => ?_⟩
          · have := htg.symm.trans hu; cases this
          · show (∃ av' view', (NanoLog.upd c.sb t s c.rt.cur).cc = .holding av' view') ∧ held t - k = NanoLog.upd held t (held t - k) c.rt.cur
            rw [hT, upd_same, upd_same]
            exact ⟨⟨_, _, hscc⟩, rfl⟩
          · have := hpc.symm.trans e; cases this
        · show TRel cfg prog c.rt.ids c.rt.sites (NanoLog.upd c.sb t s t) (c.rt.thr t) (NanoLog.upd G.thr t _ t)
            (held t - k) (kls t) (r t) (τ t)
          rw [upd_same, upd_same]
          exact ht.bg (ta' := { G.thr t with q := (G.thr t).q.drop k }) hs trivial hB hvalid rfl rfl rfl rfl ht.freed rfl
  · trivial

/-- A deleted buffer is the buffer of a thread that has ended. -/
theorem CRel.alive (hP : ProgOK cfg prog) (h : CRel s0 cfg prog cls c als G kls r τ held) {t : Nat}
    (hp : (c.rt.thr t).pc ≠ .exited ∨ (c.sb t).memD = false) : (c.rt.thr t).freed = false := by
  obtain ⟨hRI, hF⟩ := h.exec.inv hP
  have ht := h.thr t
  by_contra hf
  have h1 : (c.sb t).memD = true := ht.dealloc.symm.trans ((hRI.thr t).freed (ht.freed.trans (by simpa using hf)))
  rcases hp with hp | hp
  · obtain ⟨g, done, hI, hQ⟩ := ht.buf
    have hd := hI.d.1
    have hpr := ht.prel
    unfold PRel at hpr
    have hpc : (c.sb t).pc = .exited := by
      cases hpc : (c.sb t).pc with
      | exited => rfl
      | _ => rw [hpc] at hd; rw [h1] at hd; cases hd.1
    rw [hpc] at hpr
    split at hpr
    · simp [PWr] at hpr
    · rename_i e; exact hp e
    · cases hpr
  · rw [hp] at h1; cases h1

theorem Good.rt (hP : ProgOK cfg prog) (h : CRel s0 cfg prog cls c als G kls r τ held) {l : Lbl} (ho : l.OK cfg prog) :
    Good s0 cfg prog cls als c (.rt l) (c.act cfg prog (.rt l)) := by
  obtain ⟨hRI, hF⟩ := h.exec.inv hP
  simp only [Cr.act, Cr.actRt]
  split
  · trivial
  rename_i hr
  have hr : l.replaced = false := by simpa using hr
  have key : (∀ t, l.locks = some t → (c.sb t).buf = []) → Good s0 cfg prog cls als c (.rt l) (c.lift (c.rt.act cfg prog l)) := by
    intro hk
    cases ha : c.rt.act cfg prog l with
    | off => trivial
    | ub =>
      refine act_noub hP (l := l) hRI hF (act_ub_over hr ha ?_ ?_)
      · intro h1 h2 hl
        cases ht : c.tgt with
        | none => exact (h.cc.none ht).1
        | some t =>
          exfalso
          have hp := (h.cc.tgt t ht).1
          cases l <;> simp only [Lbl.ofThr, Lbl.replaced] at hl hr <;> try cases hl
          all_goals try cases hr
          all_goals simp only [Rt.act, Rt.actScan, Rt.actIo, Rt.actCtl, hp] at ha
          · exact h2 _ rfl
          · split at ha
            · rename_i h; cases h
            · cases ha
          all_goals first
            | (simp at ha; done)
            | exact h1 _ rfl
      · intro w hw
        exact ((h.thr w).inSync (by rw [hw]; rfl)).2.trans hw
    | ok s' =>
      cases hl : l.ofThr with
      | none =>
        exact ⟨[l], CSim.bg h hl hr ho ha, Echo.same (by simpa using hr)⟩
      | some t =>
        have hlk : l.locks = some t → (c.sb t).buf = [] := hk t
        obtain ⟨bls, h1, -, h3, rfl | rfl⟩ := CSim.app hP h hl ho hlk ha
        · exact ⟨[l], h1, Echo.same (by simpa using hr)⟩
        · refine ⟨[], h1, by simp, by simp, by simp, .inl (by simp), by simp, fun m e => ?_, fun e => ?_, by simp, by simp⟩
          · cases e
            rintro (e | ⟨u, rfl⟩ | ⟨u, rfl⟩)
            · rw [hl] at e; cases e
            · simp only [Lbl.ofThr, Option.some.injEq] at hl
              subst hl
              exact h3 (.inl rfl)
            · simp only [Lbl.ofThr, Option.some.injEq] at hl
              subst hl
              refine h3 (.inr ((h.thr u).inSync ?_).1)
              simp only [Rt.act, Rt.actCtl] at ha
              split at ha <;> cases ha
              rename_i hw
              rw [hw]; rfl
          · exfalso
            cases l <;> simp only [Lbl.ofThr, reduceCtorEq, CLbl.ofBg, Lbl.ofBg] at hl e
  cases hlk : l.locks with
  | none => exact key (by rw [hlk]; intro t ht; cases ht)
  | some t =>
    dsimp only
    split
    · rename_i hb
      refine key ?_
      rw [hlk]
      intro u hu
      cases hu
      exact hb
    · trivial

/-- Every step. -/
theorem Good.act (hP : ProgOK cfg prog) (h : CRel s0 cfg prog cls c als G kls r τ held) {l : CLbl} (ho : l.OK cfg prog) :
    Good s0 cfg prog cls als c l (c.act cfg prog l) := by
  cases l with
  | rt l => exact Good.rt hP h ho
  | peek => exact Good.peek hP h
  | follow => exact Good.follow hP h
  | look i => exact Good.look h i
  | encode j m => exact Good.encode hP h j m
  | check => exact Good.check hP h
  | write t a =>
    cases ha : c.act cfg prog (.write t a) with
    | off => trivial
    | ok c' => exact ⟨[], by rw [List.append_nil]; exact CSim.write hP h ha, Echo.silent (by simp) rfl⟩
    | ub =>
      simp only [Cr.act, Cr.actThr] at ha
      split at ha <;> try cases ha
      rename_i m hpc
      rw [h.alive hP (.inl (by rw [hpc]; simp))] at ha
      simp only [Bool.false_eq_true, if_false] at ha
      (repeat' split at ha) <;> cases ha
  | finish t =>
    cases ha : c.act cfg prog (.finish t) with
    | off => trivial
    | ok c' => exact ⟨[], by rw [List.append_nil]; exact CSim.finish hP h ha, Echo.silent (by simp) rfl⟩
    | ub =>
      simp only [Cr.act, Cr.actThr] at ha
      split at ha <;> try cases ha
      rename_i m hpc
      rw [h.alive hP (.inl (by rw [hpc]; simp))] at ha
      simp only [Bool.false_eq_true, if_false] at ha
      (repeat' split at ha) <;> cases ha
  | exit t =>
    cases ha : c.act cfg prog (.exit t) with
    | off => trivial
    | ok c' =>
      obtain ⟨bls, h1, h0, h2⟩ := CSim.exit h ha
      exact ⟨bls, h1, Echo.of_aside (by simp) rfl h0 h2⟩
    | ub =>
      simp only [Cr.act, Cr.actThr] at ha
      split at ha <;> try cases ha
      rename_i hpc
      rw [h.alive hP (.inl (by rw [hpc]; simp))] at ha
      simp only [Bool.false_eq_true, if_false] at ha
      (repeat' split at ha) <;> cases ha
  | store t =>
    cases ha : c.act cfg prog (.store t) with
    | off => trivial
    | ok c' =>
      obtain ⟨bls, h1, h0, h2⟩ := CSim.store hP h ha
      exact ⟨bls, h1, Echo.of_aside (by simp) rfl h0 h2⟩
    | ub =>
      simp only [Cr.act, Cr.actThr] at ha
      split at ha <;> try cases ha
      rename_i s hs
      obtain ⟨g, done, hI, hQ⟩ := (h.thr t).buf
      rw [h.alive hP (.inr (commit_same hI hs).2.2.2.1)] at ha
      cases ha
  | storeC t =>
    cases ha : c.act cfg prog (.storeC t) with
    | off => trivial
    | ok c' => exact ⟨[], by rw [List.append_nil]; exact CSim.storeC h ha, Echo.silent (by simp) rfl⟩
    | ub =>
      simp only [Cr.act, Cr.actThr] at ha
      split at ha <;> cases ha

/-- The start. -/
theorem CSim.init (hP : ProgOK cfg prog) (h0 : 0 < cfg.staging) {jk : Nat} {k : Checkpoint} {c0 : Cr} (hk : k.Plain)
    (hj : jk < 2 ^ 62) (hi : Cr.init cfg jk k = some c0) : CSim c0.rt cfg prog [] c0 [] := by
  simp only [Cr.init, Option.map_eq_some_iff] at hi
  obtain ⟨s, hs, rfl⟩ := hi
  have hex : RtExec cfg prog [] s := ⟨jk, k, s, hk, hj, hs, by simp, rfl⟩
  have hthr : ∀ t, (s.thr t).pc = .idle ∧ (s.thr t).q = [] ∧ (s.thr t).dealloc = false := by
    intro t
    simp only [Rt.init] at hs
    split at hs <;> cases hs
    exact ⟨rfl, rfl, rfl⟩
  have hlv : s.level = levelAfter [] := (C33_level hex).1
  have hpc : s.pc = .top := by
    simp only [Rt.init] at hs
    split at hs <;> cases hs
    rfl
  have hst := hP.staging
  refine ⟨⟨s.thr, s.rem, s.closed, s.gD, s.gO, s.gB, s.pc, s.cur⟩, fun _ => [], fun _ => [], fun _ => [], fun _ => 0, ⟨hex, by simp, rfl⟩, rfl,
    hlv, rfl, by simp, ?_, ?_, ?_, ?_⟩
  · intro u hu; rw [(hthr u).1] at hu; cases hu
  · exact ⟨fun t ht => (by cases ht), fun _ => ⟨rfl, fun _ => rfl⟩, fun e => (by have := hpc.symm.trans e; cases this),
      fun e => (by have := hpc.symm.trans e; cases this)⟩
  · intro t
    refine ⟨⟨_, [], SInv.init .tso h0 (by omega), ?_⟩, ?_, by simp, ?_, fun _ _ => rfl, ?_, ?_, by simp, rfl, rfl, (hthr t).2.2⟩
    · show QRel (SB.init cfg.staging) ⟨(s.thr t).q.map _, 0⟩ [] []
      rw [(hthr t).2.1]
      exact ⟨rfl, rfl, rfl, by simp, rfl, ⟨[], [], rfl, rfl⟩, trivial⟩
    · rw [(hthr t).2.1]; simp
    · simp only [PRel, (hthr t).1]; rfl
    · simp only [PcRec, (hthr t).1]; exact ⟨trivial, trivial⟩
    · intro _
      rw [aim, if_neg]
      rintro ⟨e, -⟩
      rw [(hthr t).1] at e; cases e
  · intro t
    exact ⟨rfl, rfl, rfl⟩

/-- Runs. -/
theorem CSim.run (hP : ProgOK cfg prog) {ls : List CLbl} (ho : ∀ l ∈ ls, l.OK cfg prog) {c0 : Cr}
    (h : CSim s0 cfg prog cls c0 als) :
    match c0.run cfg prog ls with
    | .ok c => ∃ bls, CSim s0 cfg prog (cls ++ ls) c (als ++ bls) ∧ ∀ u, .spurious u ∈ bls → .rt (.spurious u) ∈ ls
    | .off => True
    | .ub => False := by
  induction ls generalizing cls c0 als with
  | nil => exact ⟨[], by simpa using h, by simp⟩
  | cons l ls ih =>
    obtain ⟨G, kls, r, τ, held, hR⟩ := h
    have hg := Good.act hP hR (ho l (by simp))
    simp only [Cr.run]
    cases ha : c0.act cfg prog l with
    | off => trivial
    | ub => rw [ha] at hg; exact hg
    | ok c1 =>
      rw [ha] at hg
      obtain ⟨b1, h1, h2⟩ := hg
      have := ih (fun x hx => ho x (by simp [hx])) h1
      dsimp only
      revert this
      cases c1.run cfg prog ls with
      | off => exact id
      | ub => exact id
      | ok c2 =>
        rintro ⟨b2, h3, h4⟩
        refine ⟨b1 ++ b2, ?_, ?_⟩
        · simpa [List.append_assoc] using h3
        · intro u hu
          rcases List.mem_append.1 hu with hu | hu
          · rw [← h2.spurious u hu]; simp
          · exact List.mem_cons_of_mem _ (h4 u hu)

end

end NanoLog
