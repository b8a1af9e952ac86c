import Verif.OrderedSim
import Verif.Props.File

/-! Helper lemmas: ordered decompression of files written by the encoder. -/

namespace NanoLog

/-! ## The extents of a run -/

theorem Holds.body {cap : Nat} {ck : Checkpoint} {known : List Site} {rs : List Rec} {ms : List OutMsg}
    (h : Holds cap ck known rs ms) (hno : ∀ jk c, Rec.ckpt jk c ∉ rs) :
    ((recExts rs ms).map Prod.snd).flatten = ms ∧
    ∀ {tail F bs}, Body cap ck tail (after ck known rs).2 F bs →
      Body cap ck tail known (recExts rs ms ++ F) (recBytes rs ++ bs) := by
  induction h with
  | nil => exact ⟨rfl, fun h => h⟩
  | @ckpt ck known junk c rs ms hc hj h ih => exact absurd (by simp) (hno junk c)
  | @dict ck known total new rs ms hn hl h ih =>
    obtain ⟨h1, h2⟩ := ih fun jk c hm => hno jk c (by simp [hm])
    refine ⟨h1, fun {tail F bs} hb => ?_⟩
    have := Body.dict (total := total) hn hl (h2 hb)
    simpa [recBytes, Rec.bytes, recExts] using this
  | @ext ck known tid np cs body rs ms' ms he hp ht hl hcap h ih =>
    obtain ⟨h1, h2⟩ := ih fun jk c hm => hno jk c (by simp [hm])
    have hlen : cs.length = ms'.length := hp.length_eq
    have hx : recExts (.ext tid np cs body :: rs) (ms' ++ ms) = (np, ms') :: recExts rs ms := by
      simp [recExts, hlen]
    rw [hx]
    refine ⟨by simp [h1], fun {tail F bs} hb => ?_⟩
    have := Body.ext (np := np) he hp ht hl hcap (h2 hb)
    simpa [recBytes, Rec.bytes] using this
  | @pad ck known bs rs ms hz h ih =>
    obtain ⟨h1, h2⟩ := ih fun jk c hm => hno jk c (by simp [hm])
    refine ⟨h1, fun {tail F bs'} hb => ?_⟩
    have := Body.pad hz (h2 hb)
    simpa [recBytes, Rec.bytes, recExts] using this

/-- No execution starts among the operations. -/
def NoStart (ops : List EncOp) : Prop := ∀ op ∈ ops, ∀ jk c all, op ≠ .start jk c all

theorem Trace.body {cfg ck st ops ck' st' ns rss mss}
    (h : Trace cfg ck st ops ck' st' ns rss mss) (hno : NoStart ops) :
    ∃ F, RunExts cfg ck st ops F ∧ (F.map Prod.snd).flatten = mss.flatten ∧
      ∀ tail, Body (cfg.staging + 9) ck tail st.shadow F (recBytes rss.flatten ++ tail) := by
  induction h with
  | nil hi => exact ⟨[], .nil, rfl, fun tail => by simpa [recBytes] using Body.nil⟩
  | @cons ck st op ck1 st1 n rs ms ops ck2 st2 ns rss mss hi h ht ih =>
    obtain ⟨rfl, hx2, hx3⟩ := h.exts (hno op (by simp))
    obtain ⟨F, h1, h2, h3⟩ := ih fun op' hop => hno op' (by simp [hop])
    obtain ⟨g1, g2⟩ := h.holds.body fun _ _ hm => hx2 _ hm
    refine ⟨_, hx3 h1, by simp [g1, h2], fun tail => ?_⟩
    have := g2 (tail := tail) (by rw [h.after]; exact h3 tail)
    simpa [recBytes] using this

theorem EncSt.step_all {cfg : Config} {st st1 : EncSt} {op : EncOp} {n : Option Int}
    (h : st.step cfg op = some (st1, n)) (hno : ∀ jk c all, op ≠ .start jk c all) : st1.all = st.all := by
  cases op with
  | start jk c all => exact absurd rfl (hno jk c all)
  | dict k =>
    simp only [EncSt.step] at h
    split at h
    · simp only [Option.some.injEq, Prod.mk.injEq] at h; rw [← h.1]
    · simp only [Option.some.injEq, Prod.mk.injEq] at h; rw [← h.1]
  | batch junk cs mem nbytes tid np =>
    simp only [EncSt.step] at h
    split at h
    · simp at h
    · simp only [Option.some.injEq, Prod.mk.injEq] at h; rw [← h.1]
  | flush => simp only [EncSt.step, Option.some.injEq, Prod.mk.injEq] at h; rw [← h.1]

/-- The extents of a run are determined. -/
theorem RunExts.unique {cfg : Config} {ck : Checkpoint} {st : EncSt} {ops : List EncOp} {F1 F2 : Exts}
    (hs : SitesOK st.all) (h1 : RunExts cfg ck st ops F1) (h2 : RunExts cfg ck st ops F2) : F1 = F2 := by
  induction h1 generalizing F2 with
  | nil => cases h2; rfl
  | dict hst h ih =>
    cases h2 with
    | dict hst' h' =>
      rw [hst] at hst'; simp only [Option.some.injEq, Prod.mk.injEq] at hst'
      obtain ⟨rfl, -⟩ := hst'
      exact ih (by rw [EncSt.step_all hst (by simp)]; exact hs) h'
  | flush hst h ih =>
    cases h2 with
    | flush hst' h' =>
      rw [hst] at hst'; simp only [Option.some.injEq, Prod.mk.injEq] at hst'
      obtain ⟨rfl, -⟩ := hst'
      exact ih (by rw [EncSt.step_all hst (by simp)]; exact hs) h'
  | @batch st junk cs mem nbytes tid np st1 ops F ms k hb hk hst hw h ih =>
    cases h2 with
    | @batch _ _ _ _ _ _ _ st1' _ F' ms' k' hb' hk' hst' hw' h' =>
      rw [hst] at hst'; simp only [Option.some.injEq, Prod.mk.injEq] at hst'
      obtain ⟨rfl, hq⟩ := hst'
      have : k = k' := queueSize_take_inj (queue_of_prints hb.prints) hk hk' (by exact_mod_cast hq)
      rw [this, prints_unique hs hb.prints hb'.prints,
        ih (by rw [EncSt.step_all hst (by simp)]; exact hs) h']
    | skip hst' hw' h' =>
      rw [hst] at hst'; simp only [Option.some.injEq, Prod.mk.injEq] at hst'
      obtain ⟨rfl, -⟩ := hst'
      exact absurd hw' hw
  | @skip st junk cs mem nbytes tid np st1 n ops F hst hw h ih =>
    cases h2 with
    | @batch _ _ _ _ _ _ _ st1' _ F' ms' k' hb' hk' hst' hw' h' =>
      rw [hst] at hst'; simp only [Option.some.injEq, Prod.mk.injEq] at hst'
      obtain ⟨rfl, -⟩ := hst'
      exact absurd hw hw'
    | skip hst' hw' h' =>
      rw [hst] at hst'; simp only [Option.some.injEq, Prod.mk.injEq] at hst'
      obtain ⟨rfl, -⟩ := hst'
      exact ih (by rw [EncSt.step_all hst (by simp)]; exact hs) h'

theorem RunExts.noStart {cfg : Config} {ck : Checkpoint} {st : EncSt} {ops : List EncOp} {F : Exts}
    (h : RunExts cfg ck st ops F) : NoStart ops := by
  induction h with
  | nil => intro op h; simp at h
  | dict _ _ ih => intro op h; rcases List.mem_cons.1 h with rfl | h; · simp
                   exact ih op h
  | flush _ _ ih => intro op h; rcases List.mem_cons.1 h with rfl | h; · simp
                    exact ih op h
  | batch _ _ _ _ _ ih => intro op h; rcases List.mem_cons.1 h with rfl | h; · simp
                          exact ih op h
  | skip _ _ _ ih => intro op h; rcases List.mem_cons.1 h with rfl | h; · simp
                     exact ih op h

/-- The file of a run with a single execution. -/
theorem FileRun.body {cfg c all ops st ns ms} (h : FileRun cfg c all ops st ns ms)
    (hno : NoStart ops.tail) :
    ∃ jk bs F, ExecExts cfg c all ops F ∧ (F.map Prod.snd).flatten = ms ∧ c.Plain ∧
      st.contents = checkpointBytes jk c ++ bs ∧
      ∀ tail, Body (cfg.staging + 9) c tail [] F (bs ++ tail) := by
  obtain ⟨ck', rss, mss, ht, rfl⟩ := h.trace
  obtain ⟨jk, ops', rfl⟩ := h.starts
  have hc : c.Plain := by cases h.ok with | start hc _ _ _ => exact hc
  have hb := ht.bytes
  cases ht with
  | @cons _ _ _ ck1 st1 n rs m0 _ _ _ ns' rss mss hi hs ht =>
    have hrs := hs.start _ _ _ rfl
    subst hrs
    have hck : ck1 = c ∧ st1.shadow = [] := by
      have := hs.after
      simp only [after, Prod.mk.injEq] at this
      exact ⟨this.1.symm, this.2.symm⟩
    obtain ⟨rfl, hsh⟩ := hck
    have hm0 : m0 = [] := by
      have := hs.holds
      cases this with | ckpt _ _ h => cases h; rfl
    subst hm0
    obtain ⟨F, h1, h2, h3⟩ := ht.body hno
    refine ⟨jk, recBytes rss.flatten, F, ⟨jk, ops', st1, n, rfl, hs.step, h1⟩, by simpa using h2, hc, ?_, ?_⟩
    · rw [EncSt.contents, hb]; simp [EncSt.init, recBytes, Rec.bytes]
    · intro tail; have := h3 tail; rwa [hsh] at this

theorem ExecExts.unique {cfg : Config} {c : Checkpoint} {all : List Site} {ops : List EncOp} {F1 F2 : Exts}
    (hs : SitesOK all) (h1 : ExecExts cfg c all ops F1) (h2 : ExecExts cfg c all ops F2) : F1 = F2 := by
  obtain ⟨jk, ops', st1, n, rfl, hs1, hr1⟩ := h1
  obtain ⟨jk2, ops2, st2, n2, he, hs2, hr2⟩ := h2
  simp only [List.cons.injEq, EncOp.start.injEq, true_and, and_true] at he
  obtain ⟨rfl, rfl⟩ := he
  rw [hs1] at hs2; simp only [Option.some.injEq, Prod.mk.injEq] at hs2
  obtain ⟨rfl, -⟩ := hs2
  refine hr1.unique ?_ hr2
  simp only [EncSt.step] at hs1
  split at hs1
  · simp at hs1
  · split at hs1
    · simp at hs1
    · simp only [Option.some.injEq, Prod.mk.injEq] at hs1; rw [← hs1.1]; exact hs

/-- The same for given extents. -/
theorem FileRun.body' {cfg c all ops st ns ms F} (h : FileRun cfg c all ops st ns ms)
    (hF : ExecExts cfg c all ops F) :
    ∃ jk bs, (F.map Prod.snd).flatten = ms ∧ c.Plain ∧ st.contents = checkpointBytes jk c ++ bs ∧
      ∀ tail, Body (cfg.staging + 9) c tail [] F (bs ++ tail) := by
  have hno : NoStart ops.tail := by
    obtain ⟨jk, ops', st1, n, rfl, -, hr⟩ := hF
    exact hr.noStart
  have hs : SitesOK all := by
    obtain ⟨jk, ops', rfl⟩ := h.starts
    cases h.ok with | start _ hs _ _ => exact hs
  obtain ⟨jk, bs, F', h1, h2, h3, h4, h5⟩ := h.body hno
  obtain rfl := hF.unique hs h1
  exact ⟨jk, bs, h2, h3, h4, h5⟩

/-! ## Several executions -/

/-- Log files of one execution each, appended; `Fs` are their extents. -/
inductive Execs (cfg : Config) : List Byte → List Exts → Prop where
  | nil : Execs cfg [] []
  | cons {c all ops st ns ms F file Fs} (h : FileRun cfg c all ops st ns ms)
      (hF : ExecExts cfg c all ops F) (ht : Execs cfg file Fs) :
      Execs cfg (st.contents ++ file) (F :: Fs)

/-- Conditions under which ordered decompression of an execution works (`first`: it is the
first one in the file and the decoder is new). -/
structure Ordered (F : Exts) (first : Bool) : Prop where
  chrono : ∀ e ∈ F, Chrono e.2
  apart : Apart 3 (stagesOf [] F)
  prog : Progress (stagesOf [] F)
  empty : first = false → ∀ e ∈ F, e.2 ≠ []

/-- What is printed for some executions: in turn, for each an interleaving of its extents, in
chronological order. -/
inductive PrintsAll : List Exts → List OutMsg → Prop where
  | nil : PrintsAll [] []
  | cons {F Fs o o'} (hm : Merge (F.map Prod.snd) o) (hc : Chrono o) (h : PrintsAll Fs o') :
      PrintsAll (F :: Fs) (o ++ o')

theorem Execs.tailOK {cfg : Config} {file : List Byte} {Fs : List Exts} (h : Execs cfg file Fs) :
    TailOK file := by
  cases h with
  | nil => intro b hb; simp at hb
  | cons h hF ht =>
    obtain ⟨jk, bs, -, -, h3, -⟩ := h.body' hF
    intro b hb
    obtain ⟨b', l, e1, e2⟩ := checkpointBytes_head jk _
    rw [h3, e1] at hb
    simp at hb
    rw [← hb]; exact e2

theorem Execs.nil_iff {cfg : Config} {file : List Byte} {Fs : List Exts} (h : Execs cfg file Fs) :
    file = [] ↔ Fs = [] := by
  cases h with
  | nil => simp
  | cons h hF ht =>
    obtain ⟨jk, bs, -, -, h3, -⟩ := h.body' hF
    obtain ⟨b', l, e1, e2⟩ := checkpointBytes_head jk _
    rw [h3, e1]; simp

/-- The start of an execution in the file: from the checkpoint to the first extent. -/
theorem sim_next {cap : Nat} {pick : Nat → List BufFrag → Nat} (hp : Picks pick) {ck c : Checkpoint}
    {jk : Nat} {rest tail : List Byte} {s : OSt} {T : Nat} {F : Exts} (hc : c.Plain)
    (hs : Sim cap ck (checkpointBytes jk c ++ rest) s ⟨[], [], [], T, .fin⟩)
    (hb : Body cap c tail [] F rest) :
    ∃ s', OPlus cap pick s s' ∧ s'.out = s.out ∧ Sim cap c tail s' ⟨[], [], F, T, .fill⟩ := by
  cases hs with
  | @fin _ known h hf hst =>
  obtain ⟨b, l, e1, e2⟩ := checkpointBytes_head jk c
  rcases hf with ⟨h1, -⟩ | ⟨-, hf, hm, hmust⟩
  · rw [e1] at h1; simp at h1
  · have hpk : s.file.peek = (.checkpoint, s.file) := by
      rw [hf, e1]; simp [FileSt.peek, e2]
    have hnb : s.nb = 0 := h.nb
    have hrs : s.readStep cap = OSt.endRead { s with
        file := ⟨rest, false⟩, good := true, ck := c, dict := Dict.empty } false := by
      unfold OSt.readStep
      rw [hpk]
      simp only [hst, List.getElem?_cons_zero]
      rw [hf, readDictionary_ok hc]
    rw [endRead_quiet (s := { s with
        file := ⟨rest, false⟩, good := true, ck := c, dict := Dict.empty }) (cur := []) rfl hmust rfl (by
          simp only [hst, hnb]; rfl)] at hrs
    simp only [Bool.false_eq_true, if_false, hnb, show ¬ ((0 : Nat) = 3) by omega] at hrs
    have hplus := OPlus.one (cap := cap) (pick := pick) (by rw [hm]; simp)
      ((step_read hm (by rw [hf]) h.good hmust).trans hrs)
    refine ⟨_, hplus, rfl, ?_⟩
    exact .fill (known := []) (Wc := []) (curc := []) (bs := rest)
      ⟨rfl, rfl, describes_empty, .nil, h.pool, rfl, (hplus.ok hp h.ok).1⟩ rfl hmust rfl hb .nil (by simp)
      (by simp only [hst]; rfl)

theorem execs_run {cfg : Config} {pick : Nat → List BufFrag → Nat} (hp : Picks pick) {file : List Byte}
    {Fs : List Exts} (h : Execs cfg file Fs) (ho : ∀ F ∈ Fs, Ordered F false) {ck : Checkpoint} {s : OSt}
    {T : Nat} (hs : Sim (cfg.staging + 9) ck file s ⟨[], [], [], T, .fin⟩) :
    ∃ o s', OStar (cfg.staging + 9) pick s s' ∧ s'.out = s.out ++ o ∧ s'.mode = .done ∧ s'.good = true ∧
      PrintsAll Fs o := by
  induction h generalizing ck s T with
  | nil =>
    cases hs with
    | fin h hf hst =>
    rcases hf with ⟨-, hf, hm⟩ | ⟨h1, -⟩
    · refine ⟨[], { s with mode := .done }, .inr (.one (by rw [hm]; simp) ?_), by simp, rfl, h.good, .nil⟩
      unfold OSt.step; rw [hm]; simp [hf]
    · exact absurd rfl h1
  | @cons c all ops st ns ms F file Fs h hF ht ih =>
    obtain ⟨jk, bs, h1, h2, h3, h4⟩ := h.body' hF
    have oF := ho F (by simp)
    rw [h3, List.append_assoc] at hs
    obtain ⟨s1, q1, q2, q3⟩ := sim_next (pick := pick) hp h2 hs (h4 file)
    have hJ : ASt.J 0 ⟨[], [], F, T, .fill⟩ := ASt.J.init oF.chrono oF.apart oF.prog
      (fun ⟨e, he, hn⟩ => absurd hn (oF.empty rfl e he))
    obtain ⟨o, s2, T', r1, r2, r3, r4⟩ := sim_run (pick := pick) hp ht.tailOK _ (Nat.le_refl _) q3 (fun _ => ⟨0, hJ⟩)
    obtain ⟨o', s3, g1, g2, g3, g4, g5⟩ := ih (fun F hF => ho F (by simp [hF])) r4
    refine ⟨o ++ o', s3, (q1.star.trans r2).trans g1, ?_, g3, g4, ?_⟩
    · rw [g2, r3, q2]; simp
    · refine .cons ?_ (r1.chrono hJ).1 g5
      have := r1.merge (by simp)
      simpa [ASt.pend] using this

/-- The first execution: the decoder has just been opened. -/
theorem sim_open {cap : Nat} {pick : Nat → List BufFrag → Nat} (hp : Picks pick) {c : Checkpoint}
    {rest tail : List Byte} {F : Exts} (hb : Body cap c tail [] F rest) (s : Dec)
    (hf : s.file = ⟨rest, false⟩) (hg : s.good = true) (hck : s.ck = c) (hd : s.dict = Dict.empty)
    {pool : List BufFrag} {T : Nat} (hpool : ∀ bf ∈ pool, bf.stor.length = cap ∧ bf.ts ≤ T) :
    ∃ s', OPlus cap pick (s.startOrdered pool) s' ∧ s'.out = s.out ∧
      Sim cap c tail s' ⟨[], [], F, T, .fill⟩ := by
  have hroom : ∀ bf ∈ pool, bf.room ≤ cap + 5 := by
    intro bf hbf; have := (hpool bf hbf).1; unfold BufFrag.room; omega
  have hplus : OPlus cap pick (s.startOrdered pool) { s.startOrdered pool with must := false, mode := .read } := by
    refine .one (by simp [Dec.startOrdered]) ?_
    unfold OSt.step
    simp [Dec.startOrdered, hf, hg]
  refine ⟨_, hplus, rfl, ?_⟩
  exact .fill (known := []) (Wc := []) (curc := []) (bs := rest)
    ⟨hg, hck, by rw [show (OSt.dict { s.startOrdered pool with must := false, mode := .read }) = s.dict from rfl, hd]
                 exact describes_empty, .nil, hpool, rfl,
      (hplus.ok hp (startOrdered_ok s hroom).1).1⟩ rfl rfl hf hb .nil (by simp) rfl

end NanoLog
