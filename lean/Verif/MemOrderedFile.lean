import Verif.MemOrderedSim
import Verif.OrderedFile
import Verif.Props.PreMode

/-! Ordered decompression of files of preprocessor mode: specification of the extents of a run, and helper
lemmas (compare `OrderedSpec.lean`, `OrderedFile.lean`). -/

namespace NanoLog

/-! ## Specification -/

/-- The extents of an execution: the flag and the calls, each with thread and checkpoint times. -/
abbrev ExtsP := List (Bool × List (Nat × Checkpoint × PCall))

/-- `RunExtsP cfg es fns c st ops G`: the operations of one execution (no further start), begun in state
`st`, write the extents `G`: of every batch that puts anything into the output buffer the flag and the
calls that make up the bytes reported as consumed (compare `RunExts`). -/
inductive RunExtsP (cfg : Config) (es : List PEntry) (fns : GenFns) (c : Checkpoint) :
    PSt → List POp → ExtsP → Prop where
  | nil {st} : RunExtsP cfg es fns c st [] []
  | flush {st st1 n ops G} (hs : st.step cfg es fns .flush = some (st1, n))
      (h : RunExtsP cfg es fns c st1 ops G) : RunExtsP cfg es fns c st (.flush :: ops) G
  | batch {st junk cs mem nbytes tid np st1 ops G k} (hk : k ≤ cs.length)
      (hs : st.step cfg es fns (.batch junk cs mem nbytes tid np) =
        some (st1, some (pSizes fns (cs.take k) : Int)))
      (hw : st1.buf ≠ st.buf) (h : RunExtsP cfg es fns c st1 ops G) :
      RunExtsP cfg es fns c st (.batch junk cs mem nbytes tid np :: ops)
        ((np, (cs.take k).map (tid, c, ·)) :: G)
  | skip {st junk cs mem nbytes tid np st1 n ops G}
      (hs : st.step cfg es fns (.batch junk cs mem nbytes tid np) = some (st1, n))
      (hw : st1.buf = st.buf) (h : RunExtsP cfg es fns c st1 ops G) :
      RunExtsP cfg es fns c st (.batch junk cs mem nbytes tid np :: ops) G

/-- One execution of the program writes `file`, whose extents are `G`. -/
def ExecFile (cfg : Config) (es : List PEntry) (fns : GenFns) (file : List Byte) (G : ExtsP) : Prop :=
  ∃ junk j c ops st ns b, OpsP cfg es fns none true (.start junk j c :: ops ++ [.flush]) ∧
    PSt.run cfg es fns ⟨[], []⟩ (.start junk j c :: ops ++ [.flush]) = some (st, ns) ∧ st.file = file ∧
    checkpointP junk j cfg.output c es = some b ∧ RunExtsP cfg es fns c ⟨[], b⟩ (ops ++ [.flush]) G

/-- Files of one execution each, appended; `Gs` are their extents. -/
inductive ExecFiles (cfg : Config) (es : List PEntry) (fns : GenFns) : List Byte → List ExtsP → Prop where
  | nil : ExecFiles cfg es fns [] []
  | cons {file G files Gs} (h : ExecFile cfg es fns file G) (ht : ExecFiles cfg es fns files Gs) :
      ExecFiles cfg es fns (file ++ files) (G :: Gs)

/-- `F` are the extents `G` as they must be printed. -/
def ShowsExts (ss : List PStmt) (G : ExtsP) (F : Exts) : Prop :=
  All2 (fun g f => g.1 = f.1 ∧ All2 (PPrints ss) g.2 f.2) G F

/-- A message of which only the time stamp matters. -/
def stamp (t : Nat) : OutMsg := ⟨0, 0, t, ⟨0, 0, [], 0, 0⟩, [], 0, 0, []⟩

/-- The time stamps of the calls. -/
def stampsOf (G : ExtsP) : Exts := G.map fun g => (g.1, g.2.map fun c => stamp c.2.2.ts)

/-! ## Conditions on time stamps -/

/-- Only the time stamps. -/
def blank (m : OutMsg) : OutMsg := stamp m.ts

theorem stagesOf_blank (F : Exts) (acc : List (List OutMsg)) :
    stagesOf (acc.map (List.map blank)) (F.map fun f => (f.1, f.2.map blank)) =
      (stagesOf acc F).map (List.map blank) := by
  induction F generalizing acc with
  | nil =>
    simp only [List.map_nil, stagesOf, List.map_eq_nil_iff]
    split
    · rfl
    · simp
  | cons f F ih =>
    obtain ⟨np, ms⟩ := f
    cases np with
    | true =>
      simp only [List.map_cons, stagesOf, if_true]
      rw [show ([] : List (List OutMsg)) = ([] : List (List OutMsg)).map (List.map blank) from rfl, ih]
      simp
    | false =>
      simp only [List.map_cons, stagesOf, Bool.false_eq_true, if_false]
      rw [← ih]
      simp

theorem Ordered.of_blank {F : Exts} {b : Bool} (h : Ordered (F.map fun f => (f.1, f.2.map blank)) b) :
    Ordered F b := by
  have hst := stagesOf_blank F []
  rw [List.map_nil] at hst
  have get : ∀ {i : Nat} {gi : List OutMsg}, (stagesOf [] F)[i]? = some gi →
      (stagesOf [] (F.map fun f => (f.1, f.2.map blank)))[i]? = some (gi.map blank) := by
    intro i gi hi
    rw [hst, List.getElem?_map, hi]; rfl
  refine ⟨?_, ?_, ⟨?_, ?_⟩, ?_⟩
  · intro e he
    have := h.chrono _ (List.mem_map_of_mem he)
    exact (List.pairwise_map.1 this).imp fun h => h
  · intro i j x y gi gj hij hi hj hx hy
    exact h.apart i j (blank x) (blank y) _ _ hij (get hi) (get hj) (List.mem_map_of_mem hx)
      (List.mem_map_of_mem hy)
  · intro g hg h0
    subst h0
    refine h.prog.1 [] ?_ rfl
    rw [hst]
    exact List.mem_map.2 ⟨[], hg, rfl⟩
  · intro i x gi gj hi hj hx
    obtain ⟨y, hy, hxy⟩ := h.prog.2 i (blank x) _ _ (get hi) (get hj) (List.mem_map_of_mem hx)
    obtain ⟨y', hy', rfl⟩ := List.mem_map.1 hy
    exact ⟨y', hy', hxy⟩
  · intro hb e he h0
    exact h.empty hb _ (List.mem_map_of_mem he) (by simp [h0])

theorem PPrints.ts {ss : List PStmt} {c : Nat × Checkpoint × PCall} {m : OutMsg} (h : PPrints ss c m) :
    m.ts = c.2.2.ts := by cases h; rfl

theorem ShowsExts.stamps {ss : List PStmt} {G : ExtsP} {F : Exts} (h : ShowsExts ss G F) :
    stampsOf G = F.map fun f => (f.1, f.2.map blank) := by
  have inner : ∀ {cs ms}, All2 (PPrints ss) cs ms →
      cs.map (fun c => stamp c.2.2.ts) = ms.map blank := by
    intro cs ms h
    induction h with
    | nil => rfl
    | cons hp _ ih => simp only [List.map_cons, ih, blank, hp.ts]
  induction h with
  | nil => rfl
  | cons hp _ ih =>
    simp only [stampsOf, List.map_cons] at ih ⊢
    rw [ih, hp.1, inner hp.2]

theorem ShowsExts.ordered {ss : List PStmt} {G : ExtsP} {F : Exts} {b : Bool} (h : ShowsExts ss G F)
    (ho : Ordered (stampsOf G) b) : Ordered F b := Ordered.of_blank (h.stamps ▸ ho)

/-! ## The extents of a run -/

theorem pSizes_take_inj {fns : GenFns} : ∀ {cs : List PCall}, (∀ c ∈ cs, ∃ fs, c.OK fns fs) → ∀ {k k'},
    k ≤ cs.length → k' ≤ cs.length → pSizes fns (cs.take k) = pSizes fns (cs.take k') → k = k' := by
  intro cs
  induction cs with
  | nil => intro _ k k' h1 h2 _; simp at h1 h2; omega
  | cons c cs ih =>
    intro hok k k' h1 h2 h
    obtain ⟨fs, ok⟩ := hok c List.mem_cons_self
    obtain ⟨bytes, -, hb, -⟩ := call_facts ok
    cases k with
    | zero =>
      cases k' with
      | zero => rfl
      | succ k' => simp [pSizes] at h; omega
    | succ k =>
      cases k' with
      | zero => simp [pSizes] at h; omega
      | succ k' =>
        rw [List.take_succ_cons, List.take_succ_cons, pSizes_cons, pSizes_cons] at h
        have := ih (fun x hx => hok x (List.mem_cons_of_mem _ hx)) (k := k) (k' := k')
          (by simpa using h1) (by simpa using h2) (by omega)
        omega

theorem QueuedP.oks {fns : GenFns} {cs : List PCall} {q : List Byte} (h : QueuedP fns cs q) :
    ∀ c ∈ cs, ∃ fs, c.OK fns fs := by
  induction h with
  | nil => simp
  | @cons c fs cs b q ok he hq ih =>
    intro x hx
    rcases List.mem_cons.1 hx with rfl | hx
    · exact ⟨fs, ok⟩
    · exact ih x hx

/-- The extents are determined. -/
theorem RunExtsP.unique {cfg : Config} {es : List PEntry} {fns : GenFns} {c : Checkpoint} {st : PSt}
    {ops : List POp} {G1 G2 : ExtsP} {ck : Option Checkpoint} {e : Bool} (ho : OpsP cfg es fns ck e ops)
    (h1 : RunExtsP cfg es fns c st ops G1) (h2 : RunExtsP cfg es fns c st ops G2) : G1 = G2 := by
  induction h1 generalizing G2 ck e with
  | nil => cases h2; rfl
  | flush hs h ih =>
    cases ho with
    | flush ho =>
    cases h2 with
    | flush hs' h' =>
      rw [hs] at hs'; simp only [Option.some.injEq, Prod.mk.injEq] at hs'
      obtain ⟨rfl, -⟩ := hs'
      exact ih ho h'
  | @batch st junk cs mem nbytes tid np st1 ops G k hk hs hw h ih =>
    cases ho with
    | batch hq hlim hhalf hsmall ht ho =>
    cases h2 with
    | @batch _ _ _ _ _ _ _ st1' _ G' k' hk' hs' hw' h' =>
      rw [hs] at hs'; simp only [Option.some.injEq, Prod.mk.injEq] at hs'
      obtain ⟨rfl, hq'⟩ := hs'
      have : k = k' := pSizes_take_inj hq.oks hk hk' (by exact_mod_cast hq')
      rw [this, ih ho h']
    | skip hs' hw' h' =>
      rw [hs] at hs'; simp only [Option.some.injEq, Prod.mk.injEq] at hs'
      obtain ⟨rfl, -⟩ := hs'
      exact absurd hw' hw
  | @skip st junk cs mem nbytes tid np st1 n ops G hs hw h ih =>
    cases ho with
    | batch hq hlim hhalf hsmall ht ho =>
    cases h2 with
    | batch hk' hs' hw' h' =>
      rw [hs] at hs'; simp only [Option.some.injEq, Prod.mk.injEq] at hs'
      obtain ⟨rfl, -⟩ := hs'
      exact absurd hw hw'
    | skip hs' hw' h' =>
      rw [hs] at hs'; simp only [Option.some.injEq, Prod.mk.injEq] at hs'
      obtain ⟨rfl, -⟩ := hs'
      exact ih ho h'

/-- What the operations of an execution write. -/
theorem runP_body {ss es fns} (hp : Program ss es fns) {cfg : Config} (hcap : cfg.staging + 9 < 2 ^ 32)
    {c : Checkpoint} {e : Bool} {ck : Option Checkpoint} {ops : List POp} (h : OpsP cfg es fns ck e ops)
    (hck : ck = some c) (hno : ∀ op ∈ ops, ∀ jk j c, op ≠ .start jk j c) (st : PSt) :
    ∃ st' ns G F X, PSt.run cfg es fns st ops = some (st', ns) ∧
      ConsumedP fns (some c) ops ns (G.map Prod.snd).flatten ∧
      st'.file ++ st'.buf = st.file ++ st.buf ++ X ∧ RunExtsP cfg es fns c st ops G ∧ ShowsExts ss G F ∧
      ∀ tail, BodyM (cfg.staging + 9) es (fileCk es c) tail F (X ++ tail) := by
  induction h generalizing st with
  | nil => exact ⟨st, [], [], [], [], rfl, .nil, by simp, .nil, .nil, fun tail => .nil⟩
  | @start ck junk j c ops hc hj hfit h ih => exact absurd rfl (hno _ List.mem_cons_self junk j c)
  | @flush ck e ops h ih =>
    obtain ⟨st', ns, G, F, X, i1, i2, i3, i4, i5, i6⟩ := ih hck (fun op ho => hno op (List.mem_cons_of_mem _ ho))
      ⟨st.file ++ st.buf, []⟩
    refine ⟨st', ns, G, F, X, ?_, .flush i2, by simpa using i3, .flush rfl i4, i5, i6⟩
    rw [PSt.run, PSt.step]
    simp [i1]
  | @batch ck e junk cs q more nbytes tid np ops hq hlim hhalf hsmall ht h ih =>
    obtain rfl := Option.some.inj hck
    have hno' : ∀ op ∈ ops, ∀ jk j c, op ≠ .start jk j c := fun op ho => hno op (List.mem_cons_of_mem _ ho)
    by_cases h9 : 9 > cfg.output - st.buf.length
    · obtain ⟨st', ns, G, F, X, i1, i2, i3, i4, i5, i6⟩ := ih rfl hno' ⟨st.file, st.buf⟩
      have hs : st.step cfg es fns (.batch junk cs (q ++ more) nbytes tid np) = some (⟨st.file, st.buf⟩, some 0) := by
        rw [PSt.step, encodeLogMsgsP, if_pos h9]; simp
      refine ⟨st', 0 :: ns, G, F, X, ?_, ?_, i3, .skip hs rfl i4, i5, i6⟩
      · rw [PSt.run, hs]
        simp [i1]
      · simpa [pSizes] using ConsumedP.batch (junk := junk) (cs := cs) (mem := q ++ more) (nbytes := nbytes)
          (tid := tid) (np := np) (k := 0) (by omega) i2
    · obtain ⟨k, body, k1, k2, k3, k4, k5, -⟩ := encodeLogMsgsP_queue cfg junk more hq
        (cfg.output - st.buf.length) nbytes tid np ht (by omega) hlim hsmall
      obtain ⟨st', ns, G, F, X, i1, i2, i3, i4, i5, i6⟩ := ih rfl hno' ⟨st.file, st.buf ++ extentBytes tid np body⟩
      have hl := extentBytes_length tid np body
      have hh := extentHeaderSize_le ht
      have hs : st.step cfg es fns (.batch junk cs (q ++ more) nbytes tid np) =
          some (⟨st.file, st.buf ++ extentBytes tid np body⟩, some (pSizes fns (cs.take k) : Int)) := by
        rw [PSt.step, k2]; simp
      obtain ⟨ms, m1, m2⟩ := k3.encM hp (ck := ck) (ck' := fileCk es ck) ⟨rfl, rfl, rfl⟩ tid
      obtain ⟨x, xs, hx, -⟩ := extentBytes_head tid np body ht
      refine ⟨st', (pSizes fns (cs.take k) : Int) :: ns, _, (np, ms) :: F, extentBytes tid np body ++ X, ?_, ?_,
        by rw [i3]; simp, .batch k1 hs (by simp [hx]) i4, .cons ⟨rfl, m2⟩ i5, fun tail => ?_⟩
      · rw [PSt.run, hs]
        simp [i1]
      · simpa using ConsumedP.batch (junk := junk) (mem := q ++ more) (nbytes := nbytes)
          (tid := tid) (np := np) k1 i2
      · rw [List.append_assoc]
        exact .ext m1 ht (by omega) hcap (i6 tail)

/-- A whole execution. -/
theorem execFile_body {ss es fns} (hp : Program ss es fns) {cfg : Config} (hcap : cfg.staging + 9 < 2 ^ 32)
    {junk : Nat → Nat} {j : Nat} {c : Checkpoint} {ops : List POp}
    (h : OpsP cfg es fns none true (.start junk j c :: ops ++ [.flush]))
    (hno : ∀ op ∈ ops, ∀ jk j c, op ≠ .start jk j c) :
    ∃ st ns G F b X, PSt.run cfg es fns ⟨[], []⟩ (.start junk j c :: ops ++ [.flush]) = some (st, ns) ∧
      ConsumedP fns none (.start junk j c :: ops ++ [.flush]) ns (G.map Prod.snd).flatten ∧ st.buf = [] ∧
      c.TimesOK ∧ checkpointP junk j cfg.output c es = some b ∧
      RunExtsP cfg es fns c ⟨[], b⟩ (ops ++ [.flush]) G ∧ st.file = b ++ X ∧ ShowsExts ss G F ∧
      ∀ tail, BodyM (cfg.staging + 9) es (fileCk es c) tail F (X ++ tail) := by
  obtain ⟨st0, ns0, l0, b0, X0, g1, -, g3, -⟩ := runP_file cfg h
  rw [List.cons_append] at h g1 ⊢
  cases h with
  | start hc hj hfit h =>
  obtain ⟨b, hb⟩ := hfit
  obtain ⟨st, ns, G, F, X, i1, i2, i3, i4, i5, i6⟩ := runP_body hp hcap h rfl
    (by
      intro op ho
      rcases List.mem_append.1 ho with ho | ho
      · exact hno op ho
      · rw [List.mem_singleton.1 ho]; intros; simp) ⟨[], b⟩
  have hrun : PSt.run cfg es fns ⟨[], []⟩ (.start junk j c :: (ops ++ [.flush])) = some (st, ns) := by
    rw [PSt.run, PSt.step, if_neg (by simp), hb]
    simp [i1]
  rw [hrun] at g1
  simp only [Option.some.injEq, Prod.mk.injEq] at g1
  obtain ⟨rfl, rfl⟩ := g1
  refine ⟨st, ns, G, F, b, X, hrun, .start i2, g3, hc, hb, i4, ?_, i5, i6⟩
  rw [g3, List.append_nil, List.nil_append] at i3
  exact i3

theorem RunExtsP.noStart {cfg : Config} {es : List PEntry} {fns : GenFns} {c : Checkpoint} {st : PSt}
    {ops : List POp} {G : ExtsP} (h : RunExtsP cfg es fns c st ops G) :
    ∀ op ∈ ops, ∀ jk j c, op ≠ .start jk j c := by
  induction h with
  | nil => intro op h; simp at h
  | flush _ _ ih => intro op h; rcases List.mem_cons.1 h with rfl | h; · intros; simp
                    exact ih op h
  | batch _ _ _ _ ih => intro op h; rcases List.mem_cons.1 h with rfl | h; · intros; simp
                        exact ih op h
  | skip _ _ _ ih => intro op h; rcases List.mem_cons.1 h with rfl | h; · intros; simp
                     exact ih op h

theorem ExecFile.body {ss es fns} (hp : Program ss es fns) {cfg : Config} (hcap : cfg.staging + 9 < 2 ^ 32)
    {file : List Byte} {G : ExtsP} (h : ExecFile cfg es fns file G) :
    ∃ junk j c b X F, c.TimesOK ∧ checkpointP junk j cfg.output c es = some b ∧ file = b ++ X ∧ ShowsExts ss G F ∧
      ∀ tail, BodyM (cfg.staging + 9) es (fileCk es c) tail F (X ++ tail) := by
  obtain ⟨junk, j, c, ops, st, ns, b, h1, h2, rfl, h4, h5⟩ := h
  obtain ⟨st', ns', G', F, b', X, g1, g2, g3, g4, g5, g6, g7, g8, g9⟩ := execFile_body hp hcap h1
    (fun op ho => h5.noStart op (List.mem_append_left _ ho))
  rw [h2] at g1
  simp only [Option.some.injEq, Prod.mk.injEq] at g1
  obtain ⟨rfl, rfl⟩ := g1
  rw [h4] at g5
  obtain rfl := Option.some.inj g5
  rw [List.cons_append] at h1
  cases h1 with
  | start hc hj hfit h1 =>
  obtain rfl := h5.unique h1 g6
  exact ⟨junk, j, c, b, X, F, g4, h4, g7, g8, g9⟩

/-! ## Several executions -/

/-- Executions with their extents as messages. -/
inductive ExecsM (cfg : Config) (es : List PEntry) : List Byte → List Exts → Prop where
  | nil : ExecsM cfg es [] []
  | cons {junk j c b X F files Fs} (hc : c.TimesOK) (hb : checkpointP junk j cfg.output c es = some b)
      (h : ∀ tail, BodyM (cfg.staging + 9) es (fileCk es c) tail F (X ++ tail)) (ht : ExecsM cfg es files Fs) :
      ExecsM cfg es (b ++ X ++ files) (F :: Fs)

theorem ExecFiles.execsM {ss es fns} (hp : Program ss es fns) {cfg : Config} (hcap : cfg.staging + 9 < 2 ^ 32)
    {file : List Byte} {Gs : List ExtsP} (h : ExecFiles cfg es fns file Gs) :
    ∃ Fs, ExecsM cfg es file Fs ∧ All2 (ShowsExts ss) Gs Fs := by
  induction h with
  | nil => exact ⟨[], .nil, .nil⟩
  | cons h ht ih =>
    obtain ⟨Fs, i1, i2⟩ := ih
    obtain ⟨junk, j, c, b, X, F, g1, g2, rfl, g4, g5⟩ := h.body hp hcap
    exact ⟨F :: Fs, .cons g1 g2 g5 i1, .cons g4 i2⟩

theorem ExecsM.tailOK {cfg : Config} {es : List PEntry} {file : List Byte} {Fs : List Exts}
    (h : ExecsM cfg es file Fs) : TailOK file := by
  cases h with
  | nil => intro b hb; simp at hb
  | cons hc hb h ht =>
    intro b hb'
    obtain ⟨b', l, e1, e2⟩ := checkpointP_head hb
    rw [e1] at hb'
    simp at hb'
    rw [← hb']; exact e2

/-- The start of an execution in the file: from the checkpoint to the first extent. -/
theorem simM_next {space cap : Nat} {es : List PEntry} (hf1 : ∀ e ∈ es, e.Fits) (ho : space < 2 ^ 32)
    {pick : Nat → List BufFrag → Nat} (hp : Picks pick) {ck c : Checkpoint} {junk : Nat → Nat}
    {j : Nat} {b rest tail : List Byte} {s : MSt} {T : Nat} {F : Exts} (hc : c.TimesOK)
    (hb : checkpointP junk j space c es = some b)
    (hs : SimM space cap es ck (b ++ rest) s ⟨[], [], [], T, .fin⟩)
    (hbo : BodyM cap es (fileCk es c) tail F rest) :
    ∃ s', MPlus cap pick s s' ∧ s'.out = s.out ∧ SimM space cap es (fileCk es c) tail s' ⟨[], [], F, T, .fill⟩ := by
  cases hs with
  | @fin _ h hf hst =>
  obtain ⟨x, l, e1, e2⟩ := checkpointP_head hb
  rcases hf with ⟨h1, -⟩ | ⟨-, hf, hm, hmust⟩
  · rw [e1] at h1; simp at h1
  · have hpk : s.file.peek = (.checkpoint, s.file) := by
      rw [hf, e1]; simp [FileSt.peek, e2]
    have hnb : s.nb = 0 := h.nb
    obtain ⟨d', r1, r2, r3, r4⟩ := readDictP_ck hf1 hb hc ho h.dict.mem h.dict.raw s.ck rest false
    have hrs : s.readStep cap = MSt.endRead { s with
        file := ⟨rest, false⟩, good := true, ck := fileCk es c, dict := d' } false := by
      unfold MSt.readStep
      rw [hpk]
      simp only [hst, List.getElem?_cons_zero]
      rw [hf, r1]
    rw [endReadM_quiet (s := { s with
        file := ⟨rest, false⟩, good := true, ck := fileCk es c, dict := d' }) (cur := []) rfl hmust rfl (by
          simp only [hst, hnb]; rfl)] at hrs
    simp only [Bool.false_eq_true, if_false, hnb, show ¬ ((0 : Nat) = 3) by omega] at hrs
    have hplus := MPlus.one (cap := cap) (pick := pick) (by rw [hm]; simp)
      ((stepM_read hm (by rw [hf]) h.good hmust).trans hrs)
    refine ⟨_, hplus, rfl, ?_⟩
    exact .fill (Wc := []) (curc := []) (bs := rest)
      ⟨rfl, rfl, ⟨r2, r3, by rw [r4]; exact h.dict.raw⟩, .nil, h.pool, rfl, (hplus.ok hp h.ok).1⟩ rfl hmust rfl hbo
      .nil (by simp) (by simp only [hst]; rfl)

theorem execsM_run {cfg : Config} {es : List PEntry} (hf1 : ∀ e ∈ es, e.Fits) (ho : cfg.output < 2 ^ 32)
    {pick : Nat → List BufFrag → Nat} (hp : Picks pick) {file : List Byte}
    {Fs : List Exts} (h : ExecsM cfg es file Fs) (hor : ∀ F ∈ Fs, Ordered F false) {ck : Checkpoint} {s : MSt}
    {T : Nat} (hs : SimM cfg.output (cfg.staging + 9) es ck file s ⟨[], [], [], T, .fin⟩) :
    ∃ o s', MStar (cfg.staging + 9) pick s s' ∧ s'.out = s.out ++ o ∧ s'.mode = .done ∧ s'.good = true ∧
      PrintsAll Fs o := by
  induction h generalizing ck s T with
  | nil =>
    cases hs with
    | fin h hf hst =>
    rcases hf with ⟨-, hf, hm⟩ | ⟨h1, -⟩
    · refine ⟨[], { s with mode := .done }, .inr (.one (by rw [hm]; simp) ?_), by simp, rfl, h.good, .nil⟩
      unfold MSt.step; rw [hm]; simp [hf]
    · exact absurd rfl h1
  | @cons junk j c b X F files Fs hc hb h ht ih =>
    have oF := hor F (by simp)
    rw [List.append_assoc] at hs
    obtain ⟨s1, q1, q2, q3⟩ := simM_next (pick := pick) hf1 ho hp hc hb hs (h files)
    have hJ : ASt.J 0 ⟨[], [], F, T, .fill⟩ := ASt.J.init oF.chrono oF.apart oF.prog
      (fun ⟨e, he, hn⟩ => absurd hn (oF.empty rfl e he))
    obtain ⟨o, s2, T', r1, r2, r3, r4⟩ := simM_run (pick := pick) hp ht.tailOK _ (Nat.le_refl _) q3 (fun _ => ⟨0, hJ⟩)
    obtain ⟨o', s3, g1, g2, g3, g4, g5⟩ := ih (fun F hF => hor F (by simp [hF])) r4
    refine ⟨o ++ o', s3, (q1.star.trans r2).trans g1, ?_, g3, g4, ?_⟩
    · rw [g2, r3, q2]; simp
    · refine .cons ?_ (r1.chrono hJ).1 g5
      have := r1.merge (by simp)
      simpa [ASt.pend] using this

/-- The first execution: the decoder has just been opened. -/
theorem simM_open {space cap : Nat} {es : List PEntry} {pick : Nat → List BufFrag → Nat} (hp : Picks pick)
    {c : Checkpoint} {rest tail : List Byte} {F : Exts} (hb : BodyM cap es c tail F rest) (s : PDec)
    (hf : s.file = ⟨rest, false⟩) (hg : s.good = true) (hck : s.ck = c) (hd : DictM space es s.dict)
    {pool : List BufFrag} {T : Nat} (hpool : ∀ bf ∈ pool, bf.stor.length = cap ∧ bf.ts ≤ T) :
    ∃ s', MPlus cap pick (s.startOrdered pool) s' ∧ s'.out = s.out ∧
      SimM space cap es c tail s' ⟨[], [], F, T, .fill⟩ := by
  have hroom : ∀ bf ∈ pool, bf.room ≤ cap + 5 := by
    intro bf hbf; have := (hpool bf hbf).1; unfold BufFrag.room; omega
  have hplus : MPlus cap pick (s.startOrdered pool) { s.startOrdered pool with must := false, mode := .read } := by
    refine .one (by simp [PDec.startOrdered]) ?_
    unfold MSt.step
    simp [PDec.startOrdered, hf, hg]
  refine ⟨_, hplus, rfl, ?_⟩
  exact .fill (Wc := []) (curc := []) (bs := rest)
    ⟨hg, hck, hd, .nil, hpool, rfl,
      (hplus.ok hp (startOrderedM_ok s hroom).1).1⟩ rfl rfl hf hb .nil (by simp) rfl

/-- The whole file, by a new decoder with any old contents of its memory. -/
theorem orderedM_all {cfg : Config} {es : List PEntry} (hf1 : ∀ e ∈ es, e.Fits) (ho : cfg.output < 2 ^ 32)
    {pick : Nat → List BufFrag → Nat} (hp : Picks pick) {file : List Byte} {F : Exts} {Fs : List Exts}
    (h : ExecsM cfg es file (F :: Fs)) (hor : ∀ F ∈ Fs, Ordered F false)
    {pool : List BufFrag} {T : Nat}
    (hpool : ∀ bf ∈ pool, bf.stor.length = cfg.staging + 9 ∧ bf.ts ≤ T)
    (hJ : Fs ≠ [] → ∃ L, ASt.J L ⟨[], [], F, T, .fill⟩) {raw : List Byte} (hraw : 2 * cfg.output ≤ raw.length)
    (bf : BufFrag) :
    ∃ s s' o o', openM raw bf file = some (true, s) ∧
      s.ordered (cfg.staging + 9) pool pick = some s' ∧ s'.mode = .done ∧ s'.good = true ∧
      s'.out = o ++ o' ∧ ARun ⟨[], [], F, T, .fill⟩ o ∧ PrintsAll Fs o' := by
  cases h with
  | @cons junk j c b X _ files _ hc hb h ht =>
  obtain ⟨d', r1, r2, r3, r4⟩ := readDictP_ck hf1 hb hc ho (d := ⟨raw, 0, []⟩) (.inl rfl) hraw
    ⟨0, 0, [], 0, 0⟩ (X ++ files) false
  have hop : openM raw bf (b ++ X ++ files) = some (true, ⟨⟨X ++ files, false⟩, true, fileCk es c, d', bf, []⟩) := by
    rw [List.append_assoc, openM, r1]; rfl
  have hfn : files ≠ [] → Fs ≠ [] := by
    intro hn hF
    subst hF
    cases ht
    exact hn rfl
  obtain ⟨s1, q1, q2, q3⟩ := simM_open (space := cfg.output) (pick := pick) hp (h files)
    ⟨⟨X ++ files, false⟩, true, fileCk es c, d', bf, []⟩ rfl rfl rfl ⟨r2, r3, by rw [r4]; exact hraw⟩ hpool
  obtain ⟨o, s2, T', g1, g2, g3, g4⟩ := simM_run (pick := pick) hp ht.tailOK _ (Nat.le_refl _) q3
    (fun hn => hJ (hfn hn))
  obtain ⟨o', s3, k1, k2, k3, k4, k5⟩ := execsM_run (pick := pick) hf1 ho hp ht hor g4
  exact ⟨_, s3, o, o', hop,
    MStar.done hp (fun bf hbf => by have := (hpool bf hbf).1; unfold BufFrag.room; omega)
      ((q1.star.trans g2).trans k1) k3, k3, k4, by rw [k2, g3, q2]; simp, g1, k5⟩

end NanoLog
