import Verif.FileProps
import Verif.Props.Encode

/-!
# Theorems about whole log files: C18, C24, C28, C29, C44, C45 and part of C27
-/

namespace NanoLog

/-- A run of the encoder from an empty file: `ops` begins with the start of an execution
(checkpoint `c`, statements `all`), the environment keeps its part (`OpsOK`), and the run ends
in state `st`, the batches reporting `ns`.  `ms` are the messages the file must then hold. -/
structure FileRun (cfg : Config) (c : Checkpoint) (all : List Site) (ops : List EncOp)
    (st : EncSt) (ns : List Int) (ms : List OutMsg) : Prop where
  conf : cfg.OK
  starts : ∃ jk ops', ops = .start jk c all :: ops'
  ok : OpsOK cfg c all ops
  flushed : FlushedStarts true ops
  run : EncSt.init.run cfg ops = some (st, ns)
  logged : Logged cfg c all ops ns ms

/-- The file left by a run once the last buffer is written. -/
def EncSt.contents (st : EncSt) : List Byte := st.file ++ st.buf

theorem FileRun.trace {cfg c all ops st ns ms} (h : FileRun cfg c all ops st ns ms) :
    ∃ ck' rss mss, Trace cfg c EncSt.init ops ck' st ns rss mss ∧ mss.flatten = ms := by
  obtain ⟨jk, ops', rfl⟩ := h.starts
  have hok : OpsOK cfg c EncSt.init.all (.start jk c all :: ops') := by
    cases h.ok with | start hc hs hj h => exact .start hc hs hj h
  have hs : SitesOK all := by cases h.ok with | start hc hs hj h => exact hs
  obtain ⟨ck', st', ns', rss, mss, ht⟩ := run_trace cfg h.conf hok (EncSt.init_inv cfg)
    (by simpa [EncSt.init] using h.flushed)
  have hr := ht.run
  rw [h.run] at hr
  simp only [Option.some.injEq, Prod.mk.injEq] at hr
  obtain ⟨rfl, rfl⟩ := hr
  have hl : Logged cfg c all (.start jk c all :: ops') ns mss.flatten := by
    cases ht.logged with | start hc hs hj h => exact .start hc hs hj h
  exact ⟨ck', rss, mss, ht, Logged.unique hs hl h.logged⟩

theorem FileRun.holds {cfg c all ops st ns ms} (h : FileRun cfg c all ops st ns ms) :
    ∃ jk rs, Holds (cfg.staging + 9) c [] (.ckpt jk c :: rs) ms ∧
      st.contents = recBytes (.ckpt jk c :: rs) := by
  obtain ⟨ck', rss, mss, ht, rfl⟩ := h.trace
  obtain ⟨jk, ops', rfl⟩ := h.starts
  obtain ⟨rs', e⟩ := ht.starts
  refine ⟨jk, rs', ?_, ?_⟩
  · rw [← e]; exact ht.holds.1
  · rw [EncSt.contents, ht.bytes, e]; simp [EncSt.init]

/-! ## C18 A complete log file decodes to the messages written -/

/-- Every sequence of operations whose environment keeps its part is such a run: nothing
fails, and the messages required are defined. -/
theorem C18_run_exists (cfg : Config) (hcfg : cfg.OK) (jk : Nat) (c : Checkpoint)
    (all : List Site) (ops : List EncOp) (hok : OpsOK cfg c all (.start jk c all :: ops))
    (hfl : FlushedStarts true (.start jk c all :: ops)) :
    ∃ st ns ms, FileRun cfg c all (.start jk c all :: ops) st ns ms := by
  obtain ⟨st', ns, ms, rs, h1, h2, -⟩ := run_holds cfg hcfg
    (ck := c) (all := []) (by cases hok with | start hc hs hj h => exact .start hc hs hj h)
    EncSt.init (EncSt.init_inv cfg) rfl (by simpa [EncSt.init] using hfl)
  refine ⟨st', ns, ms, hcfg, ⟨_, _, rfl⟩, hok, hfl, h1, ?_⟩
  cases h2 with | start hc hs hj h => exact .start hc hs hj h

/-- Unordered decoding of the file yields exactly the messages required, in order, whatever
is in the buffer `bf` it uses. -/
theorem C18_file_decodes {cfg c all ops st ns ms} (h : FileRun cfg c all ops st ns ms)
    (bf : BufFrag) (hbf : bf.stor.length = cfg.staging + 9) :
    ∃ s s', (Dec.new (cfg.staging + 9)).openFile st.contents = some (true, s) ∧
      s.unordered bf = some (true, s') ∧ s'.out = ms := by
  obtain ⟨jk, rs, h1, h2⟩ := h.holds
  obtain ⟨s, h3, h4, -⟩ := decode_complete h1 (Dec.new (cfg.staging + 9))
  obtain ⟨s', h5, h6⟩ := h4 bf hbf
  exact ⟨s, s', by rw [h2]; exact h3, h5, h6⟩

/-- The example run, its result and messages: two messages (the first two of `exCalls`; the
dictionary step precedes them) and then a third. -/
theorem exRun : ∃ st ns ms, FileRun Config.default exCk exSites exOps st ns ms :=
  C18_run_exists _ Config.default_ok _ _ _ _ (exOps_ok _ _) exOps_flushed

/-- The messages of the example run are not empty: three in total. -/
theorem exRun_messages {st ns ms} (h : FileRun Config.default exCk exSites exOps st ns ms) :
    ms.length = 3 := by
  have hr : EncSt.init.run Config.default exOps = some (st, ns) := h.run
  have : ns = [42, 20] := by
    have e : (EncSt.init.run Config.default exOps).map Prod.snd = some [42, 20] := by
      decide +kernel
    rw [hr] at e
    simpa using e
  subst this
  have hl : Logged Config.default exCk exSites exOps [42, 20]
      ((exMsgs 1 exCk).take 2 ++ (((exMsgs 1 exCk).drop 2).take 1 ++ [])) :=
    .start exCk_plain exSites_ok (by decide) (.dict (.batch (k := 2) exBatch1 (by decide)
      (.flush (.batch (k := 1) exBatch2 (by decide) .nil))))
  rw [Logged.unique exSites_ok h.logged hl]
  rfl

/-- `C18_file_decodes` and `C24_iterator_agrees` apply to a file with three messages. -/
example : ∃ st ns ms, FileRun Config.default exCk exSites exOps st ns ms ∧ ms.length = 3 ∧
    (BufFrag.init (Config.default.staging + 9)).stor.length = Config.default.staging + 9 := by
  obtain ⟨st, ns, ms, h⟩ := exRun
  exact ⟨st, ns, ms, h, exRun_messages h, List.length_replicate ..⟩

/-! ## C24 Iterator and unordered decoding agree -/

/-- The iterator delivers the messages of the file in order, one per call; the next call
returns `false` (so any further number of calls changes nothing).  Unordered decoding prints
the same. -/
theorem C24_iterator_agrees {cfg c all ops st ns ms} (h : FileRun cfg c all ops st ns ms)
    (bf : BufFrag) (hbf : bf.stor.length = cfg.staging + 9) :
    ∃ s s1 s2, (Dec.new (cfg.staging + 9)).openFile st.contents = some (true, s) ∧
      s.unordered bf = some (true, s1) ∧ (∀ n, s1.out.length < n → s.iterate n = some s2) ∧
      s2.out = s1.out ∧ s1.out = ms := by
  obtain ⟨jk, rs, h1, h2⟩ := h.holds
  obtain ⟨s, h3, h4, h5⟩ := decode_complete h1 (Dec.new (cfg.staging + 9))
  obtain ⟨s1, g1, g2⟩ := h4 bf hbf
  obtain ⟨s2, i1, i2⟩ := h5 (by simp [Dec.new, BufFrag.init]) rfl
  exact ⟨s, s1, s2, by rw [h2]; exact h3, g1, by rw [g2]; exact i1, by rw [i2, g2], g2⟩

/-! ## C27 Appended executions are decoded with their own dictionary -/

/-- Two log files, each written by its own run (own checkpoint, own statements), the second
appended to the first: both interfaces deliver the messages of the first file followed by
those of the second, each as if it were alone.  (By induction the same for any number of
files, see `C27_appended_many_partial`.)  Missing for the full property: ordered decoding,
see `Props/Ordered.lean`. -/
theorem C27_appended_partial {cfg c1 all1 ops1 st1 ns1 ms1 c2 all2 ops2 st2 ns2 ms2}
    (h1 : FileRun cfg c1 all1 ops1 st1 ns1 ms1) (h2 : FileRun cfg c2 all2 ops2 st2 ns2 ms2)
    (bf : BufFrag) (hbf : bf.stor.length = cfg.staging + 9) :
    ∃ s s1 s2, (Dec.new (cfg.staging + 9)).openFile (st1.contents ++ st2.contents) = some (true, s) ∧
      s.unordered bf = some (true, s1) ∧ s1.out = ms1 ++ ms2 ∧
      (∀ n, ms1.length + ms2.length < n → s.iterate n = some s2) ∧ s2.out = ms1 ++ ms2 := by
  obtain ⟨jk1, rs1, a1, b1⟩ := h1.holds
  obtain ⟨jk2, rs2, a2, b2⟩ := h2.holds
  have a2' : Holds (cfg.staging + 9) (after c1 [] (.ckpt jk1 c1 :: rs1)).1
      (after c1 [] (.ckpt jk1 c1 :: rs1)).2 (.ckpt jk2 c2 :: rs2) ms2 := by
    cases a2 with | ckpt hc hj h => exact .ckpt hc hj h
  have hh := a1.append a2'
  rw [List.cons_append] at hh
  obtain ⟨s, h3, h4, h5⟩ := decode_complete hh (Dec.new (cfg.staging + 9))
  obtain ⟨s1, g1, g2⟩ := h4 bf hbf
  obtain ⟨s2, i1, i2⟩ := h5 (by simp [Dec.new, BufFrag.init]) rfl
  refine ⟨s, s1, s2, ?_, g1, g2, fun n hn => i1 n (by simpa using hn), i2⟩
  rw [b1, b2, ← h3]
  simp [recBytes]

/-- Any number of appended log files. -/
inductive Appended (cfg : Config) : List Byte → List OutMsg → Prop where
  | nil : Appended cfg [] []
  | cons {c all ops st ns ms file ms'} (h : FileRun cfg c all ops st ns ms)
      (ht : Appended cfg file ms') : Appended cfg (st.contents ++ file) (ms ++ ms')

theorem Appended.holds {cfg : Config} {file : List Byte} {ms : List OutMsg}
    (h : Appended cfg file ms) (ck : Checkpoint) (known : List Site) :
    ∃ rs, Holds (cfg.staging + 9) ck known rs ms ∧ file = recBytes rs ∧
      (file ≠ [] → ∃ jk c rs', rs = .ckpt jk c :: rs') := by
  induction h generalizing ck known with
  | nil => exact ⟨[], .nil, rfl, by simp⟩
  | @cons c all ops st ns ms file ms' h ht ih =>
    obtain ⟨jk, rs, a, b⟩ := h.holds
    have a' : Holds (cfg.staging + 9) ck known (.ckpt jk c :: rs) ms := by
      cases a with | ckpt hc hj h => exact .ckpt hc hj h
    obtain ⟨rs2, x1, x2, -⟩ := ih _ _
    exact ⟨_, a'.append x1, by rw [b, x2]; simp [recBytes], fun _ => ⟨_, _, _, rfl⟩⟩

theorem C27_appended_many_partial {cfg : Config} {file : List Byte} {ms : List OutMsg}
    (h : Appended cfg file ms) (hne : file ≠ [])
    (bf : BufFrag) (hbf : bf.stor.length = cfg.staging + 9) :
    ∃ s s1 s2, (Dec.new (cfg.staging + 9)).openFile file = some (true, s) ∧
      s.unordered bf = some (true, s1) ∧ s1.out = ms ∧
      (∀ n, ms.length < n → s.iterate n = some s2) ∧ s2.out = ms := by
  obtain ⟨rs, h1, rfl, h2⟩ := h.holds exCk []
  obtain ⟨jk, c, rs', rfl⟩ := h2 hne
  obtain ⟨s, h3, h4, h5⟩ := decode_complete h1 (Dec.new (cfg.staging + 9))
  obtain ⟨s1, g1, g2⟩ := h4 bf hbf
  obtain ⟨s2, i1, i2⟩ := h5 (by simp [Dec.new, BufFrag.init]) rfl
  exact ⟨s, s1, s2, h3, g1, g2, i1, i2⟩

/-- A file of two executions, the second with another checkpoint and fewer statements. -/
example : ∃ st1 ns1 ms1 st2 ns2 ms2 file ms,
    FileRun Config.default exCk exSites exOps st1 ns1 ms1 ∧ ms1.length = 3 ∧
    FileRun Config.default { exCk with rdtsc := 77 } [exSite1] [.start 3 { exCk with rdtsc := 77 } [exSite1], .dict 1]
      st2 ns2 ms2 ∧
    Appended Config.default file ms ∧ ms = ms1 ++ (ms2 ++ []) ∧ file ≠ [] := by
  obtain ⟨st1, ns1, ms1, h1⟩ := exRun
  have hp : ({ exCk with rdtsc := 77 } : Checkpoint).Plain := ⟨by decide, by decide, by decide⟩
  obtain ⟨st2, ns2, ms2, h2⟩ := C18_run_exists Config.default Config.default_ok 3
    { exCk with rdtsc := 77 } [exSite1] [.dict 1]
    (.start hp (fun s hs => exSites_ok s (by simp at hs; simp [exSites, hs])) (by decide) (.dict .nil))
    (by simp [FlushedStarts])
  refine ⟨st1, ns1, ms1, st2, ns2, ms2, _, _, h1, exRun_messages h1, h2,
    .cons h1 (.cons h2 .nil), rfl, ?_⟩
  obtain ⟨jk, rs, -, e⟩ := h1.holds
  intro h
  have := congrArg List.length h
  rw [e, show recBytes (.ckpt jk exCk :: rs) = checkpointBytes jk exCk ++ recBytes rs from rfl] at this
  simp only [List.length_append, checkpointBytes_length exCk_plain.1, List.length_nil] at this
  omega

/-! ## C28 A crash loses only the tail -/

theorem Holds.unique {cap : Nat} {ck : Checkpoint} {known : List Site} {rs : List Rec}
    {m1 m2 : List OutMsg} (hk : SitesOK known) (h1 : Holds cap ck known rs m1)
    (h2 : Holds cap ck known rs m2) : m1 = m2 := by
  obtain ⟨d, hd⟩ := describes_exists hk
  let s : Dec := ⟨⟨recBytes rs, false⟩, true, ck, d, BufFrag.init cap, []⟩
  obtain ⟨s2, x1, x2, -⟩ := unordered_holds h1 s rfl rfl rfl hd (by simp [s, BufFrag.init])
  obtain ⟨s3, y1, y2, -⟩ := unordered_holds h2 s rfl rfl rfl hd (by simp [s, BufFrag.init])
  have e1 := x1.loop
  rw [y1.loop] at e1
  simp only [Option.some.injEq] at e1
  rw [← e1, y2] at x2
  simpa [s] using x2.symm

/-- The file is cut at byte `n`, anywhere behind what the operations `ops1` wrote (and not
beyond the end).  Then both interfaces stop normally (no abort, no access outside a buffer)
having delivered the same sequence `out`, which contains all messages of `ops1` and is a
prefix of the messages of the whole run.  The dictionary step, batch or checkpoint that was
cut contributes nothing. -/
theorem C28_cut_loses_tail {cfg c all ops1 ops2 st1 ns1 ms1 st ns ms}
    (h1 : FileRun cfg c all ops1 st1 ns1 ms1) (h : FileRun cfg c all (ops1 ++ ops2) st ns ms)
    (n : Nat) (hn1 : st1.contents.length ≤ n) (hn : n ≤ st.contents.length)
    (bf : BufFrag) (hbf : bf.stor.length = cfg.staging + 9) :
    ∃ s g s1 s2 out, (Dec.new (cfg.staging + 9)).openFile (st.contents.take n) = some (true, s) ∧
      s.unordered bf = some (g, s1) ∧ s1.out = out ∧
      (∀ k, out.length < k → s.iterate k = some s2) ∧ s2.out = out ∧
      ms1 <+: out ∧ out <+: ms := by
  obtain ⟨ck1, rss1, mss1, ht1, hm1⟩ := h1.trace
  obtain ⟨ck', rss, mss, ht, hm⟩ := h.trace
  obtain ⟨ck1', st1', ns1', ns2, rs1, rs2, m1, m2, t1, t2, rfl, rfl, rfl⟩ := ht.split
  have e := t1.run
  rw [h1.run] at e
  simp only [Option.some.injEq, Prod.mk.injEq] at e
  obtain ⟨rfl, rfl⟩ := e
  obtain ⟨jk, ops', rfl⟩ := h1.starts
  obtain ⟨q1, hq1⟩ := t1.starts
  have hq : (rs1 ++ rs2).flatten = .ckpt jk c :: (q1 ++ rs2.flatten) := by
    rw [List.flatten_append, hq1]; rfl
  have hms1 : m1.flatten = ms1 := by
    have hs : SitesOK all := by cases h1.ok with | start hc hs hj h => exact hs
    have hl : Logged cfg c all (.start jk c all :: ops') ns1 m1.flatten := by
      cases t1.logged with | start hc hs hj h => exact .start hc hs hj h
    exact Logged.unique hs hl h1.logged
  have hc1 : st1.contents = checkpointBytes jk c ++ recBytes q1 := by
    rw [EncSt.contents, t1.bytes, hq1]; simp [EncSt.init, recBytes, Rec.bytes]
  have hc : st.contents = checkpointBytes jk c ++ recBytes (q1 ++ rs2.flatten) := by
    rw [EncSt.contents, ht.bytes, hq]; simp [EncSt.init, recBytes, Rec.bytes]
  have hhold : Holds (cfg.staging + 9) c [] (.ckpt jk c :: (q1 ++ rs2.flatten)) ms := by
    rw [← hq, ← hm]; exact ht.holds.1
  have hhold1 : Holds (cfg.staging + 9) c [] (.ckpt jk c :: q1) ms1 := by
    rw [← hq1, ← hms1]; exact t1.holds.1
  rw [hc1, List.length_append] at hn1
  rw [hc, List.length_append] at hn
  have htake : st.contents.take n = checkpointBytes jk c ++
      (recBytes (q1 ++ rs2.flatten)).take (n - (checkpointBytes jk c).length) := by
    rw [hc, List.take_append, List.take_of_length_le (by omega)]
  obtain ⟨ho, hh⟩ := open_ok hhold (Dec.new (cfg.staging + 9))
    ((recBytes (q1 ++ rs2.flatten)).take (n - (checkpointBytes jk c).length))
  obtain ⟨-, hh1⟩ := open_ok hhold1 (Dec.new (cfg.staging + 9)) []
  have hcut := fun (b : BufFrag) (hb : b.stor.length = cfg.staging + 9) (hm : b.hasMore = false) =>
    decode_cut hh (n - (checkpointBytes jk c).length) (by omega)
      { Dec.new (cfg.staging + 9) with
          file := ⟨(recBytes (q1 ++ rs2.flatten)).take (n - (checkpointBytes jk c).length), false⟩
          good := true, ck := c, dict := Dict.empty, out := [], bf := b } ⟨hm, rfl, rfl⟩ rfl rfl
      describes_empty hb
  -- the cut position does not depend on the fragment used
  obtain ⟨a, b, o1, o2, g1, g2, g3, g4, -, sI, i1, i2⟩ := hcut (BufFrag.init (cfg.staging + 9))
    (by simp [BufFrag.init]) rfl
  have hpre : q1 <+: a := g4 q1 rs2.flatten rfl (by omega)
  have hout1 : ms1 <+: o1 := by
    obtain ⟨z, rfl⟩ := hpre
    obtain ⟨w1, w2, rfl, w3, -⟩ := g3.split
    rw [Holds.unique (by intro s hs; simp at hs) hh1 w3]
    exact List.prefix_append _ _
  -- unordered with the given fragment
  have hu : ∃ s', URuns { Dec.new (cfg.staging + 9) with
          file := ⟨(recBytes (q1 ++ rs2.flatten)).take (n - (checkpointBytes jk c).length), false⟩
          good := true, ck := c, dict := Dict.empty, out := [], bf := bf } s' ∧ s'.out = o1 := by
    rcases cut_records (q1 ++ rs2.flatten) (n - (checkpointBytes jk c).length) (by omega) with
      h1 | ⟨a', r, b', p, q, k1, k2, k3, k4, k5⟩
    · obtain ⟨s', u1, u2, -⟩ := unordered_holds hh
        { Dec.new (cfg.staging + 9) with
          file := ⟨(recBytes (q1 ++ rs2.flatten)).take (n - (checkpointBytes jk c).length), false⟩
          good := true, ck := c, dict := Dict.empty, out := [], bf := bf } (by simp only [h1]) rfl rfl
        describes_empty hbf
      refine ⟨s', u1, ?_⟩
      have hlen := congrArg List.length h1
      rw [List.length_take] at hlen
      have hall := g4 (q1 ++ rs2.flatten) [] (by simp) (by omega)
      have hb : b = [] := by
        have hl := hall.length_le
        rw [g1, List.length_append] at hl
        exact List.length_eq_zero_iff.1 (by omega)
      rw [hb, List.append_nil] at g1
      rw [← g1] at g3
      rw [u2, Holds.unique (by intro s hs; simp at hs) hh g3]; rfl
    · rw [k1] at hh
      obtain ⟨x1, x2, y1, y2, y3⟩ := hh.split
      obtain ⟨s1, u1, u2, u3, u4, -, -, u5⟩ := unordered_leads y2 p
        { Dec.new (cfg.staging + 9) with
          file := ⟨(recBytes (q1 ++ rs2.flatten)).take (n - (checkpointBytes jk c).length), false⟩
          good := true, ck := c, dict := Dict.empty, out := [], bf := bf }
        (by simp only [k2]) rfl rfl describes_empty hbf
      obtain ⟨s', v1, v2⟩ := unordered_cut y3 k3 k4 s1 u4 u3 u5
      refine ⟨s', u1 _ v1, ?_⟩
      rw [v2, u2]
      -- the records in front of the cut are the same for both
      obtain ⟨s3, w1, w2⟩ := iterate_leads y2 p
        { Dec.new (cfg.staging + 9) with
          file := ⟨(recBytes (q1 ++ rs2.flatten)).take (n - (checkpointBytes jk c).length), false⟩
          good := true, ck := c, dict := Dict.empty, out := []
          bf := BufFrag.init (cfg.staging + 9) } ⟨rfl, rfl, rfl⟩ (by simp only [k2]) rfl
        describes_empty (by simp [BufFrag.init])
      obtain ⟨w3, w4, w5, -, -, w6⟩ := w2
      obtain ⟨s4, z1, z2⟩ := iterate_cut y3 k3 k4 s3 w3 w5 w6
      have e1 := i1 x1.length
      have e2 := (w1 o1.length).trans (z1 o1.length)
      rw [show o1.length + (x1.length + 1) = x1.length + (o1.length + 1) by omega, e2] at e1
      simp only [Option.some.injEq] at e1
      rw [← e1, z2, w4] at i2
      simpa using i2
  obtain ⟨s', u1, u2⟩ := hu
  have hul := u1.loop
  simp only at hul
  refine ⟨_, s'.good, { s' with bf := BufFrag.init (cfg.staging + 9) }, sI, o1,
    by rw [htake]; exact ho, ?_, u2, ?_, i2, hout1, ?_⟩
  · simp only [Dec.unordered]
    rw [hul]
    rfl
  · intro k hk
    obtain ⟨j, rfl⟩ : ∃ j, k = o1.length + (j + 1) := ⟨k - o1.length - 1, by omega⟩
    exact i1 j
  · rw [g2]; exact List.prefix_append _ _

/-- The example file cut inside its last extent. -/
example : ∃ st1 ns1 ms1 st ns ms, FileRun Config.default exCk exSites (exOps.take 4) st1 ns1 ms1 ∧
    FileRun Config.default exCk exSites (exOps.take 4 ++ exOps.drop 4) st ns ms ∧
    st1.contents.length ≤ 110 ∧ 110 ≤ st.contents.length := by
  obtain ⟨st1, ns1, ms1, h1⟩ := C18_run_exists Config.default Config.default_ok 0 exCk exSites
    ((exOps.take 4).drop 1)
    (.start exCk_plain exSites_ok (by decide) (.dict (.batch exBatch1 (.flush .nil))))
    (by simp [exOps, FlushedStarts])
  obtain ⟨st, ns, ms, h⟩ := exRun
  refine ⟨st1, ns1, ms1, st, ns, ms, h1, by simpa using h, ?_, ?_⟩
  · have e : ((EncSt.init.run Config.default (exOps.take 4)).map fun x =>
        decide (x.1.contents.length ≤ 110)) = some true := by decide +kernel
    have hr : EncSt.init.run Config.default (exOps.take 4) = some (st1, ns1) := h1.run
    rw [hr] at e
    simpa using e
  · have e : ((EncSt.init.run Config.default exOps).map fun x =>
        decide (110 ≤ x.1.contents.length)) = some true := by decide +kernel
    rw [h.run] at e
    simpa using e

/-- A file cut inside its first checkpoint is rejected by `open`. -/
theorem C28_cut_checkpoint {cfg c all ops st ns ms} (_h : FileRun cfg c all ops st ns ms)
    (n : Nat) (hn : n < 40) (s0 : Dec) :
    ∃ s, s0.openFile (st.contents.take n) = some (false, s) := by
  rw [Dec.openFile, readDictionary_cut _ _ (by rw [List.length_take]; omega)]
  exact ⟨_, rfl⟩

/-! ## C29 Decoding terminates

For every file content and every decoder state.  Each loop of the model carries a bound on
its number of iterations; the theorems show that the bound is never what ends the loop.
(`none` means the program aborted or misbehaved, which also ends the loop.) -/

/-- The unordered loop: any higher bound on the number of iterations gives the same result,
and when it ends its condition is false. -/
theorem C29_unordered_terminates_partial (s : Dec) (k : Nat) :
    unorderedLoop (s.file.inp.length + 1 + k) s = unorderedLoop (s.file.inp.length + 1) s ∧
    ∀ s', unorderedLoop (s.file.inp.length + 1) s = some s' →
      ¬ (s'.file.eof = false ∧ s'.good = true) :=
  unorderedLoop_fuel _ s (measure_le _) k

/-- There is no infinite execution of the unordered loop. -/
theorem C29_no_infinite_unordered_partial (f : Nat → Dec) :
    ¬ ∀ i, (f i).file.eof = false ∧ (f i).good = true ∧ unorderedStep (f i) = some (f (i + 1)) := by
  intro h
  have : ∀ i, (f i).file.measure + i ≤ (f 0).file.measure := by
    intro i
    induction i with
    | zero => simp
    | succ i ih =>
      have := unorderedStep_measure (h i).1 (h i).2.2
      omega
  have := this ((f 0).file.measure + 1)
  omega

/-- The loop over the messages of an extent. -/
theorem C29_extent_terminates_partial (ck : Checkpoint) (d : Dict) (bf : BufFrag)
    (out : List OutMsg) (k : Nat) :
    drain ck d (bf.mem.length + 1 + k) bf out = drain ck d (bf.mem.length + 1) bf out ∧
    ∀ bf' out', drain ck d (bf.mem.length + 1) bf out = some (bf', out') → bf'.hasMore = false :=
  drain_fuel ck d _ bf out (Nat.le_refl _) k

/-- The loop over the entries of a dictionary fragment. -/
theorem C29_dictionary_terminates_partial (done total : Nat) (d : Dict) (f : FileSt) (k : Nat) :
    readDictLoop (f.inp.length + 1 + k) done total d f =
      readDictLoop (f.inp.length + 1) done total d f :=
  readDictLoop_fuel _ done total d f (Nat.le_refl _) k

/-- The loop inside one call of the iterator. -/
theorem C29_next_terminates_partial (s : Dec) (k : Nat) :
    iterLoop (s.file.inp.length + 2 + k) s = iterLoop (s.file.inp.length + 2) s ∧
    ∀ s', iterLoop (s.file.inp.length + 2) s = some (true, s') →
      ¬ (s'.bf.hasMore = false ∧ s'.file.eof = false ∧ s'.good = true) :=
  iterLoop_fuel _ s (by have := measure_le s.file; omega) k

/-- A caller that calls the iterator until it returns `false` terminates. -/
theorem C29_no_infinite_iteration_partial (f : Nat → Dec) :
    ¬ ∀ i, ∃ m, (f i).next = some (true, m, f (i + 1)) := by
  intro h
  have : ∀ i, (f i).bound + i ≤ (f 0).bound := by
    intro i
    induction i with
    | zero => simp
    | succ i ih =>
      obtain ⟨m, hm⟩ := h i
      have := next_progress hm
      omega
  have := this ((f 0).bound + 1)
  omega

/-! ## C44 Padding is ignored by the decoder -/

theorem Trace.length_eq {cfg ck st ops ck' st' ns rss mss}
    (h : Trace cfg ck st ops ck' st' ns rss mss) : rss.length = ops.length := by
  induction h with
  | nil => rfl
  | cons _ _ _ ih => simp [ih]

/-- What the operations write, put together, is the file. -/
theorem C44_written {cfg c all ops st ns ms} (h : FileRun cfg c all ops st ns ms) :
    (EncSt.init.written cfg ops).flatten = st.contents ∧
    (EncSt.init.written cfg ops).length = ops.length := by
  obtain ⟨ck', rss, mss, ht, -⟩ := h.trace
  refine ⟨?_, ?_⟩
  · rw [ht.written, EncSt.contents, ht.bytes]
    have : ∀ l : List (List Rec), (l.map recBytes).flatten = recBytes l.flatten := by
      intro l
      induction l with
      | nil => simp [recBytes]
      | cons r l ih => simp [recBytes] at ih ⊢; rw [ih]
    rw [this]; simp [EncSt.init]
  · rw [ht.written, List.length_map]
    exact ht.length_eq

/-- Any bytes that are not the beginning of a record (such as zeros), of any number, behind
what each operation wrote, leave the decoded messages unchanged in both interfaces. -/
theorem C44_padding_ignored {cfg c all ops st ns ms} (h : FileRun cfg c all ops st ns ms)
    (pads : List (List Byte)) (hl : pads.length = ops.length)
    (hz : ∀ p ∈ pads, ∀ b ∈ p, entryType b = .invalid)
    (bf : BufFrag) (hbf : bf.stor.length = cfg.staging + 9) :
    ∃ s s1 s2, (Dec.new (cfg.staging + 9)).openFile
        (List.zipWith (· ++ ·) (EncSt.init.written cfg ops) pads).flatten = some (true, s) ∧
      s.unordered bf = some (true, s1) ∧ s1.out = ms ∧
      (∀ n, ms.length < n → s.iterate n = some s2) ∧ s2.out = ms := by
  obtain ⟨ck', rss, mss, ht, rfl⟩ := h.trace
  have hlen := (C44_written h).2
  rw [ht.written, List.length_map] at hlen
  have hh := ht.holds.1.pads pads (by omega) hz
  have hb := pads_bytes rss pads (by omega)
  obtain ⟨jk, ops', rfl⟩ := h.starts
  have hst : ∃ rs', (List.zipWith (fun rs p => rs ++ [Rec.pad p]) rss pads).flatten =
      .ckpt jk c :: rs' := by
    cases ht with
    | cons hi hs ht =>
      rw [hs.start _ _ _ rfl]
      cases pads with
      | nil => simp at hl
      | cons p pads => exact ⟨_, rfl⟩
  obtain ⟨rs', e⟩ := hst
  rw [e] at hh hb
  obtain ⟨s, h3, h4, h5⟩ := decode_complete hh (Dec.new (cfg.staging + 9))
  obtain ⟨s1, g1, g2⟩ := h4 bf hbf
  obtain ⟨s2, i1, i2⟩ := h5 (by simp [Dec.new, BufFrag.init]) rfl
  refine ⟨s, s1, s2, ?_, g1, g2, i1, i2⟩
  rw [ht.written, ← hb]; exact h3

/-- Zero bytes are such bytes. -/
theorem C44_zero : entryType 0 = .invalid := rfl

/-- The example run with padding behind each operation. -/
example : ∃ st ns ms, FileRun Config.default exCk exSites exOps st ns ms ∧
    ([[0, 0], [], [0], [4, 8], [0]] : List (List Byte)).length = exOps.length ∧
    (∀ p ∈ ([[0, 0], [], [0], [4, 8], [0]] : List (List Byte)), ∀ b ∈ p, entryType b = .invalid) := by
  obtain ⟨st, ns, ms, h⟩ := exRun
  exact ⟨st, ns, ms, h, rfl, by decide⟩

/-! ## C45 A decoder can be reused -/

/-- After `open` on a new file, unordered decoding delivers exactly the messages of the new
file, whatever the decoder did before: `s0` is arbitrary. -/
theorem C45_reuse_unordered {cfg c all ops st ns ms} (h : FileRun cfg c all ops st ns ms)
    (s0 : Dec) (bf : BufFrag) (hbf : bf.stor.length = cfg.staging + 9) :
    ∃ s s', s0.openFile st.contents = some (true, s) ∧ s.unordered bf = some (true, s') ∧
      s'.out = ms := by
  obtain ⟨jk, rs, h1, h2⟩ := h.holds
  obtain ⟨s, h3, h4, -⟩ := decode_complete h1 s0
  obtain ⟨s', h5, h6⟩ := h4 bf hbf
  exact ⟨s, s', by rw [h2]; exact h3, h5, h6⟩

/-- The iterator also delivers exactly the messages of the new file, if the previous file
was not left in the middle of an extent.  Missing for the full property: the other case,
where the code fails, see `C45_stale_false`. -/
theorem C45_reuse_iterator_partial {cfg c all ops st ns ms} (h : FileRun cfg c all ops st ns ms)
    (s0 : Dec) (hb : s0.bf.stor.length = cfg.staging + 9) (hm : s0.bf.hasMore = false) :
    ∃ s s', s0.openFile st.contents = some (true, s) ∧
      (∀ n, ms.length < n → s.iterate n = some s') ∧ s'.out = ms := by
  obtain ⟨jk, rs, h1, h2⟩ := h.holds
  obtain ⟨s, h3, -, h5⟩ := decode_complete h1 s0
  obtain ⟨s', i1, i2⟩ := h5 hb hm
  exact ⟨s, s', by rw [h2]; exact h3, i1, i2⟩

/-- A small configuration, for an example that is computed. -/
def exCfg : Config := ⟨256, 1024, 128⟩

theorem exSmallRun : ∃ st ns ms, FileRun exCfg exCk exSites exOps st ns ms :=
  C18_run_exists _ ⟨by decide, by decide, by decide⟩ _ _ _ _
    (.start exCk_plain exSites_ok (by decide) (.dict
      (.batch (ms' := exMsgs 1 exCk)
        ⟨⟨[], by simp⟩, exPrints 1 exCk, by decide, by decide, by decide, by decide⟩
        (.flush (.batch (ms' := (exMsgs 1 exCk).drop 2)
          ⟨⟨[], by simp⟩, .cons (exCall_int _ (by decide) _ (by decide) _ _) .nil, by decide,
            by decide, by decide, by decide⟩ .nil)))))
    exOps_flushed

/-- The iterator after reuse does not deliver the messages of the new file: one message of a
file is read, then `open` succeeds on a file (here the same one), and the next call of the
iterator looks up the rest of the old extent in the emptied dictionary, an access outside the
vector (`none`). -/
theorem C45_stale_false : ∃ (cfg : Config) (c : Checkpoint) (all : List Site) (ops : List EncOp)
    (st : EncSt) (ns : List Int) (ms : List OutMsg) (s0 s1 s : Dec) (m : OutMsg),
    FileRun cfg c all ops st ns ms ∧
    (Dec.new (cfg.staging + 9)).openFile st.contents = some (true, s0) ∧
    s0.next = some (true, some m, s1) ∧ s1.openFile st.contents = some (true, s) ∧
    s.next = none := by
  obtain ⟨st, ns, ms, h⟩ := exSmallRun
  let chk : EncSt → Bool := fun st =>
    match (Dec.new (exCfg.staging + 9)).openFile st.contents with
    | some (true, s0) =>
      match s0.next with
      | some (true, some _, s1) =>
        match s1.openFile st.contents with
        | some (true, s) => s.next.isNone
        | _ => false
      | _ => false
    | _ => false
  have hc : ((EncSt.init.run exCfg exOps).map fun x => chk x.1) = some true := by
    decide +kernel
  rw [h.run] at hc
  simp only [Option.map_some, Option.some.injEq, chk] at hc
  split at hc
  · rename_i s0 h0
    split at hc
    · rename_i m s1 h1
      split at hc
      · rename_i s h2
        exact ⟨_, _, _, _, _, _, _, s0, s1, s, m, h, h0, h1, h2, by simpa using hc⟩
      · simp at hc
    · simp at hc
  · simp at hc

end NanoLog
