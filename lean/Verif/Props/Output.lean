import Verif.OutputLemmas

/-!
# Theorems about the output step: C55, C56
-/

namespace NanoLog

/-! ## C55 What is written decodes, with and without direct I/O -/

/-- There is always memory to hand over: the encoder never exceeds its buffer. -/
theorem C55_hands_exists {cfg c all ops st ns ms} (h : FileRun cfg c all ops st ns ms) :
    ∃ ws, Hands cfg ws (EncSt.init.flushes cfg ops) := by
  obtain ⟨ck', rss, mss, ht, -⟩ := h.trace
  generalize EncSt.init = st0 at ht
  clear h
  induction ht with
  | nil => exact ⟨[], .nil⟩
  | @cons ck st op ck1 st1 n rs ms ops ck2 st2 ns rss mss hi h ht ih =>
    obtain ⟨ws, hw⟩ := ih
    rw [EncSt.flushes, h.step]
    cases op with
    | flush =>
      refine ⟨(st.buf ++ List.replicate (cfg.output - st.buf.length) 0, st.buf.length) :: ws,
        .cons ⟨?_, rfl, List.prefix_append _ _⟩ hw⟩
      have := hi.buf
      simp only [List.length_append, List.length_replicate]
      omega
    | start => exact ⟨ws, hw⟩
    | dict => exact ⟨ws, hw⟩
    | batch => exact ⟨ws, hw⟩

/-- **C55** without `O_DIRECT` (the setting of `Config.h`): the bytes written are those handed
over by the encoder, whatever else is in the output buffers, and the file decodes to the
messages required.  Missing for the full property: the setting with `O_DIRECT`, where it fails
(`C55_direct_false`). -/
theorem C55_buffered_partial {cfg c all ops st ns ms} (h : FileRun cfg c all ops st ns ms)
    (hb : st.buf = []) {ws : List (List Byte × Nat)}
    (hw : Hands cfg ws (EncSt.init.flushes cfg ops)) (bf : BufFrag)
    (hbf : bf.stor.length = cfg.staging + 9) :
    ∃ f s s', sentFile false ws = some f ∧ (Dec.new (cfg.staging + 9)).openFile f = some (true, s) ∧
      s.unordered bf = some (true, s') ∧ s'.out = ms := by
  obtain ⟨ck', rss, mss, ht, -⟩ := h.trace
  have hf := ht.flushes
  obtain ⟨s, s', h1, h2, h3⟩ := C18_file_decodes h bf hbf
  refine ⟨st.contents, s, s', ?_, h1, h2, h3⟩
  rw [sentFile_plain hw, EncSt.contents, hb, List.append_nil, ← hf]
  simp [EncSt.init]

/-- **C55** with `O_DIRECT`, if every buffer happens to be a multiple of 512 bytes long. -/
theorem C55_aligned_partial {cfg c all ops st ns ms} (h : FileRun cfg c all ops st ns ms)
    (hb : st.buf = []) {ws : List (List Byte × Nat)}
    (hw : Hands cfg ws (EncSt.init.flushes cfg ops))
    (ha : ∀ b ∈ EncSt.init.flushes cfg ops, b.length % 512 = 0) (bf : BufFrag)
    (hbf : bf.stor.length = cfg.staging + 9) :
    ∃ f s s', sentFile true ws = some f ∧ (Dec.new (cfg.staging + 9)).openFile f = some (true, s) ∧
      s.unordered bf = some (true, s') ∧ s'.out = ms := by
  obtain ⟨f, s, s', h1, h2⟩ := C55_buffered_partial h hb hw bf hbf
  refine ⟨f, s, s', ?_, h2⟩
  rw [sentFile_aligned hw ha, ← sentFile_plain hw, h1]

/-- **C55**: with output buffers of a multiple of 512 bytes (`OUTPUT_BUFFER_SIZE` is one), no
write reads outside its buffer, in both settings, and with `O_DIRECT` every length is a
multiple of 512. -/
theorem C55_in_bounds {cfg : Config} {ws : List (List Byte × Nat)} {bs : List (List Byte)}
    (hw : Hands cfg ws bs) (ho : 512 ∣ cfg.output) (direct : Bool) :
    ∃ f, sentFile direct ws = some f ∧ (direct = true → f.length % 512 = 0) := by
  induction hw with
  | nil => exact ⟨[], rfl, fun _ => rfl⟩
  | @cons w b ws bs hw _ ih =>
    obtain ⟨f, h1, h2⟩ := ih
    obtain ⟨e1, e2, e3⟩ := hw
    obtain ⟨mem, n⟩ := w
    simp only at e1 e2 e3
    have hle := e3.length_le
    obtain ⟨p1, p2⟩ := padOutput_length (mem := mem) (n := n) direct (by omega) (by rw [e1]; exact ho)
    refine ⟨(padOutput direct mem n).1.take (padOutput direct mem n).2 ++ f, ?_, ?_⟩
    · rw [sentFile, h1]
      simp only [sendOutput]
      rw [if_pos (by omega)]
    · intro hd
      have hk : (padOutput direct mem n).2 % 512 = 0 := by
        unfold padOutput
        rw [hd]
        simp only [if_true]
        split <;> omega
      have := h2 hd
      simp only [List.length_append, List.length_take]
      omega

theorem sentFile_cons {mem : List Byte} {n : Nat} {ws : List (List Byte × Nat)} {f : List Byte}
    {direct : Bool} (h : sentFile direct ((mem, n) :: ws) = some f) :
    ∃ a b, sendOutput direct mem n = some a ∧ f = a ++ b := by
  rw [sentFile] at h
  split at h
  · rename_i a b h1 h2
    cases h
    exact ⟨a, b, h1, rfl⟩
  · cases h

/-- **C55** fails with `O_DIRECT`: the padding is written over the *beginning* of the buffer
(`memset(compressingBuffer, 0, ...)`).  In every run whose first buffer is not a multiple of
512 bytes long, the checkpoint at the beginning of the file is destroyed, and the decoder
aborts (`none`) when it opens the file. -/
theorem C55_direct_false {cfg c all ops st ns ms} (_h : FileRun cfg c all ops st ns ms)
    {b : List Byte} {bs : List (List Byte)} (hb : EncSt.init.flushes cfg ops = b :: bs)
    (ha : b.length % 512 ≠ 0) {ws : List (List Byte × Nat)}
    (hw : Hands cfg ws (EncSt.init.flushes cfg ops)) {f : List Byte}
    (hf : sentFile true ws = some f) (s0 : Dec) : s0.openFile f = none := by
  rw [hb] at hw
  cases hw with
  | @cons w _ ws _ hw' _ =>
    obtain ⟨e1, e2, e3⟩ := hw'
    obtain ⟨mem, n⟩ := w
    simp only at e1 e2 e3
    obtain ⟨a, r, h1, rfl⟩ := sentFile_cons hf
    have hn : n % 512 ≠ 0 := by rw [e2]; exact ha
    have hp : padOutput true mem n = (List.replicate (512 - n % 512) 0 ++ mem.drop (512 - n % 512),
        n + 512 - n % 512) := by
      simp [padOutput, hn]
    simp only [sendOutput, hp] at h1
    split at h1
    · rename_i hle
      simp only [Option.some.injEq] at h1
      have hl : a.length = n + 512 - n % 512 := by rw [← h1, List.length_take]; omega
      have hz : ∃ a', a = 0 :: a' := by
        obtain ⟨k, hk⟩ : ∃ k, 512 - n % 512 = k + 1 := ⟨512 - n % 512 - 1, by omega⟩
        obtain ⟨j, hj⟩ : ∃ j, n + 512 - n % 512 = j + 1 := ⟨n + 512 - n % 512 - 1, by omega⟩
        rw [hk, hj, List.replicate_succ, List.cons_append, List.take_succ_cons] at h1
        exact ⟨_, h1.symm⟩
      obtain ⟨a', rfl⟩ := hz
      have hr : ((⟨(0 :: a') ++ r, false⟩ : FileSt).read 40).1 = ((0 :: a') ++ r).take 40 := by
        unfold FileSt.read
        rw [if_pos (by simp only [List.length_append]; omega)]
      have hlen : (((0 : Byte) :: a') ++ r).length ≥ 40 := by simp only [List.length_append]; omega
      unfold Dec.openFile
      have : readDictionary s0.ck s0.dict ⟨(0 :: a') ++ r, false⟩ = none := by
        unfold readDictionary
        simp only
        rw [hr, if_neg (by rw [List.length_take]; omega)]
        split
        · rename_i x c' hx hc
          have : x = 0 := by simpa using hx.symm
          subst this
          rfl
        · rfl
      rw [this]
    · cases h1

/-- A run whose first buffer, with checkpoint, dictionary and two messages, is not a multiple
of 512 bytes long, and a decoder in use. -/
example : ∃ st ns ms b, FileRun exCfg exCk exSites exOps st ns ms ∧
    EncSt.init.flushes exCfg exOps = [b] ∧ b.length % 512 ≠ 0 ∧
    (∃ ws, Hands exCfg ws (EncSt.init.flushes exCfg exOps)) ∧ 512 ∣ exCfg.output := by
  obtain ⟨st, ns, ms, h⟩ := exSmallRun
  have e : (EncSt.init.flushes exCfg exOps).map List.length = [102] := by decide +kernel
  match hb : EncSt.init.flushes exCfg exOps with
  | [] => rw [hb] at e; cases e
  | [b] =>
    rw [hb] at e
    refine ⟨st, ns, ms, b, h, rfl, ?_, ?_, by decide⟩
    · simp only [List.map_cons, List.map_nil, List.cons.injEq, and_true] at e
      rw [e]; decide
    · have := C55_hands_exists h
      rwa [hb] at this
  | _ :: _ :: _ => rw [hb] at e; simp at e

/-- A call with a string of 417 bytes. -/
def exLong : LogCall := ⟨1, 1010, [.cstr 4096 (List.replicate 417 97)]⟩

/-- With it the buffer is exactly 512 bytes long. -/
def exAligned : List EncOp :=
  [.start 0 exCk exSites, .dict 2,
   .batch (fun _ => 0) [exLong] (queueBytes exSites [exLong]) 437 1 true, .flush]

theorem exLong_prints (tid : Nat) (ck : Checkpoint) :
    Prints exSites tid ck exLong
      ⟨tid, 1, 1010, ck, [98, 46, 99, 99], 9, 2,
        [⟨[37, 115], none, none, some (.str (List.replicate 417 97))⟩]⟩ := by
  refine Prints.mk (s := exSite1) (is := exItems1)
    ⟨rfl, rfl, (by decide +kernel : ∀ a ∈ exLong.args, a.Valid),
      (by decide : (1 : Nat) < 2 ^ 32), (by decide : (1010 : Nat) < 2 ^ 64),
      by decide +kernel⟩ exSite1_supported ?_
  exact .conv (as := exLong.args) (as' := []) (.mk _ (ws := []) (ps := []) .absent
    .absent (.str _ _ _)) .nil

/-- `C55_aligned_partial` and `C55_buffered_partial` apply to a run with a message. -/
example : ∃ st ns ms, FileRun Config.default exCk exSites exAligned st ns ms ∧ st.buf = [] ∧
    ns = [437] ∧ (∀ b ∈ EncSt.init.flushes Config.default exAligned, b.length % 512 = 0) ∧
    EncSt.init.flushes Config.default exAligned ≠ [] ∧
    (∃ ws, Hands Config.default ws (EncSt.init.flushes Config.default exAligned)) := by
  obtain ⟨st, ns, ms, h⟩ := C18_run_exists Config.default Config.default_ok 0 exCk exSites
    [.dict 2, .batch (fun _ => 0) [exLong] (queueBytes exSites [exLong]) 437 1 true, .flush]
    (.start exCk_plain exSites_ok (by decide) (.dict
      (.batch (ms' := [_]) ⟨⟨[], by simp⟩, .cons (exLong_prints 1 exCk) .nil, by decide +kernel,
        by decide, by decide +kernel, by decide⟩ (.flush .nil))))
    (by simp [FlushedStarts])
  have hr := h.run
  have e : (EncSt.init.run Config.default exAligned).map (fun x => (x.1.buf, x.2)) =
      some ([], [437]) := by decide +kernel
  have e2 : (EncSt.init.flushes Config.default exAligned).map List.length = [512] := by
    decide +kernel
  rw [exAligned, hr] at e
  simp only [Option.map_some, Option.some.injEq, Prod.mk.injEq] at e
  refine ⟨st, ns, ms, h, e.1, e.2, ?_, ?_, C55_hands_exists h⟩
  · intro b hb
    have : b.length ∈ (EncSt.init.flushes Config.default exAligned).map List.length :=
      List.mem_map_of_mem hb
    rw [e2] at this
    simp only [List.mem_singleton] at this
    rw [this]
  · intro h0
    rw [h0] at e2
    cases e2

/-! ## C56 A failed write loses only its own messages -/

/-- **C56** if the writes that fail leave nothing in the file and hold no static information:
after the writes of a run, further buffers are filled by the groups `gs` of operations, and
some of the writes fail (`WOut.lost`).  Both interfaces deliver exactly the messages of the
writes that succeed.  Missing for the full property: lost static information and short writes,
where it fails (`C56_wrong_text_false`, `C56_abort_false`, `C56_short_false`). -/
theorem C56_lost_partial {cfg c all jk ops st ns ms}
    (h : FileRun cfg c all (.start jk c all :: ops) st ns ms) (hno : ∀ op ∈ ops, op.NoStart)
    (hb : st.buf = []) {gs : List (List EncOp × WOut)} {ms' : List OutMsg}
    (hg : ∀ g ∈ gs, (∀ op ∈ g.1, op.Fills) ∧ OpsOK cfg c all g.1)
    (hk : Survive cfg c st gs ms') (bf : BufFrag) (hbf : bf.stor.length = cfg.staging + 9) :
    ∃ st' s s1 s2, st.runW cfg gs = some st' ∧
      (Dec.new (cfg.staging + 9)).openFile st'.file = some (true, s) ∧
      s.unordered bf = some (true, s1) ∧ s1.out = ms ++ ms' ∧
      (∀ n, (ms ++ ms').length < n → s.iterate n = some s2) ∧ s2.out = ms ++ ms' := by
  obtain ⟨ck', rss, mss, ht, rfl⟩ := h.trace
  obtain ⟨rs', e⟩ := ht.starts
  have hh := ht.holds
  have hby := ht.bytes
  have hck : ck' = c ∧ st.all = all := by
    cases ht with
    | @cons _ _ _ ck1 st1 n rs ms _ _ _ _ rss mss hi hs ht =>
      obtain ⟨h1, h2⟩ := trace_ck ht hno
      have h3 := hs.after
      rw [hs.start _ _ _ rfl] at h3
      simp only [after, Prod.mk.injEq] at h3
      have h4 := hs.step
      simp only [EncSt.step] at h4
      split at h4
      · cases h4
      · split at h4
        · cases h4
        · cases h4
          exact ⟨h1.trans h3.1.symm, h2⟩
  obtain ⟨rfl, hall⟩ := hck
  obtain ⟨st', rs, k1, k2, k3⟩ := survive_holds h.conf hk hall ht.inv hb hg
  have hfull := hh.1.append (by rw [hh.2]; exact k2)
  rw [e] at hfull hby
  obtain ⟨s, h3, h4, h5⟩ := decode_complete hfull (Dec.new (cfg.staging + 9))
  obtain ⟨s1, g1, g2⟩ := h4 bf hbf
  obtain ⟨s2, i1, i2⟩ := h5 (by simp [Dec.new, BufFrag.init]) rfl
  refine ⟨st', s, s1, s2, k1, ?_, g1, g2, i1, i2⟩
  rw [k3, ← h3]
  congr 1
  rw [hb, List.append_nil] at hby
  rw [hby]
  simp [EncSt.init, recBytes]

/-- Without failures the file is the one of the run with a `flush` after each group. -/
theorem C56_no_failure (cfg : Config) (st st' : EncSt) (gs : List (List EncOp × WOut))
    (hd : ∀ g ∈ gs, g.2 = .done) (h : st.runW cfg gs = some st') :
    ∃ ns, st.run cfg (groupOps gs) = some (st', ns) := by
  induction gs generalizing st with
  | nil => cases h; exact ⟨[], rfl⟩
  | cons g gs ih =>
    obtain ⟨ops, w⟩ := g
    have hw : w = .done := hd (ops, w) (by simp)
    subst hw
    rw [EncSt.runW] at h
    split at h
    · cases h
    · rename_i st1 ns1 hr
      obtain ⟨ns2, h2⟩ := ih _ (fun g hg => hd g (by simp [hg])) h
      have key : ∀ (ops more : List EncOp) (a b c : EncSt) (n1 n2 : List Int),
          a.run cfg ops = some (b, n1) → b.run cfg more = some (c, n2) →
          a.run cfg (ops ++ more) = some (c, n1 ++ n2) := by
        intro ops
        induction ops with
        | nil => intro more a b c n1 n2 ha hb; cases ha; exact hb
        | cons op ops ih =>
          intro more a b c n1 n2 ha hb
          rw [EncSt.run] at ha
          rw [List.cons_append, EncSt.run]
          split at ha
          · cases ha
          · rename_i a1 n hs
            split at ha
            · cases ha
            · rename_i a2 n' hr'
              cases ha
              simp only [ih more a1 _ c _ _ hr' hb, List.append_assoc]
      refine ⟨ns1 ++ ns2, ?_⟩
      rw [groupOps, List.flatMap_cons, List.append_assoc]
      refine key _ _ _ _ _ _ _ hr ?_
      simp only [List.cons_append, List.nil_append, EncSt.run, EncSt.step, Option.toList]
      rw [groupOps] at h2
      simp only [EncSt.hand, WOut.got] at h2
      rw [h2]

theorem run_batches {cfg : Config} {ops : List EncOp} {st st1 : EncSt} {ns : List Int}
    (hf : ∀ op ∈ ops, ∃ a b c d e f, op = .batch a b c d e f)
    (h : st.run cfg ops = some (st1, ns)) : st1.pos = st.pos := by
  induction ops generalizing st ns with
  | nil => cases h; rfl
  | cons op ops ih =>
    rw [EncSt.run] at h
    split at h
    · cases h
    · rename_i st2 n hs
      split at h
      · cases h
      · rename_i st3 ns' hr
        cases h
        rw [ih (fun o ho => hf o (by simp [ho])) hr]
        obtain ⟨a, b, c, d, e, f, rfl⟩ := hf op (by simp)
        simp only [EncSt.step] at hs
        split at hs <;> cases hs
        rfl

/-- The hypothesis `Survive` can always be met: writes of batches only may be lost, the others
succeed. -/
theorem C56_survive_exists {cfg : Config} (hcfg : cfg.OK) {ck : Checkpoint} {all : List Site}
    (gs : List (List EncOp × WOut)) (st : EncSt) (ha : st.all = all) (hi : st.Inv cfg)
    (hb : st.buf = []) (hf : ∀ g ∈ gs, (∀ op ∈ g.1, op.Fills) ∧ OpsOK cfg ck all g.1)
    (hw : ∀ g ∈ gs, g.2 = .done ∨
      g.2 = .lost ∧ ∀ op ∈ g.1, ∃ a b c d e f, op = .batch a b c d e f) :
    ∃ ms, Survive cfg ck st gs ms := by
  induction gs generalizing st with
  | nil => exact ⟨[], .nil⟩
  | cons g gs ih =>
    obtain ⟨ops, w⟩ := g
    obtain ⟨f1, f2⟩ := hf (ops, w) (by simp)
    rw [← ha] at f2
    obtain ⟨ck', st1, ns, rss, mss, ht⟩ := run_trace cfg hcfg f2 hi (flushedStarts_fills f1 _)
    have hr := ht.run
    have hi1 := ht.inv
    obtain ⟨ms, hk⟩ := ih (st1.hand w) ((run_fills f1 hr).2.trans ha)
      ⟨hi1.shadow, hi1.pos, by simp [EncSt.hand], hi1.sites⟩ rfl
      (fun g hg => hf g (by simp [hg])) fun g hg => hw g (by simp [hg])
    rcases hw (ops, w) (by simp) with h | ⟨h, h'⟩
    · simp only at h
      subst h
      exact ⟨_, .done hr ht.logged hk⟩
    · simp only at h
      subst h
      exact ⟨_, .lost hr ht.logged (run_batches h' hr) hk⟩

/-- A second statement with an `int`: `NANO_LOG(NOTICE, "y=%d\n", n)` in file "c.cc", line 11. -/
def exSite2 : Site :=
  ⟨⟨[99, 46, 99, 99], 11, 3, [121, 61, 37, 100, 10]⟩, [.nonString], [.int .i32]⟩

/-- `"y=%d\n"`. -/
def exItems2 : List FItem :=
  [.text 121, .text 61, .conv ⟨[], .none, .none, .none, (ch 'd', .signed), .int⟩, .text 10]

theorem exItems2_wf : ∀ i ∈ exItems2, i.WF := by
  intro i hi
  simp only [exItems2, List.mem_cons, List.not_mem_nil, or_false] at hi
  rcases hi with rfl | rfl | rfl | rfl
  · exact ⟨by decide, by decide, by decide⟩
  · exact ⟨by decide, by decide, by decide⟩
  · exact ⟨by simp, by simp, by simp, by decide, by decide⟩
  · exact ⟨by decide, by decide, by decide⟩

theorem exSite2_supported : exSite2.Supported exItems2 :=
  ⟨exItems2_wf, by decide, by decide, by decide, by decide, by decide, by decide, by decide,
    by decide, by decide, by decide⟩

/-- The statements of the witnesses: `x=%d` and `y=%d`. -/
def exXY : List Site := [exSite0, exSite2]

theorem exXY_ok : SitesOK exXY := by
  intro s hs
  simp only [exXY, List.mem_cons, List.not_mem_nil, or_false] at hs
  rcases hs with rfl | rfl
  · exact ⟨_, exSite0_supported⟩
  · exact ⟨_, exSite2_supported⟩

/-- A call of the first statement. -/
def exX (ts : Nat) (n : Int) : LogCall := ⟨0, ts, [.int .i32 n]⟩

/-- What it must print. -/
def exXMsg (ts : Nat) (n : Int) : OutMsg :=
  ⟨1, 0, ts, exCk, [97, 46, 99, 99], 7, 3,
    [⟨[120, 61, 37, 100, 10], none, none, some (.scalar (.int n))⟩]⟩

theorem exX_prints (n : Int) (hn : ITy.i32.InRange n) (ts : Nat) (hts : ts < 2 ^ 64) :
    Prints exXY 1 exCk (exX ts n) (exXMsg ts n) := by
  refine Prints.mk (s := exSite0) (is := exItems0)
    ⟨rfl, rfl, by simpa [Arg.Valid, exX] using hn, (by decide : (0 : Nat) < 2 ^ 32), hts,
      (by decide : (20 : Nat) < 2 ^ 31 - 16)⟩ exSite0_supported ?_
  have h := ITy.cast_of_inRange hn
  refine .conv (as := [.int .i32 n]) (as' := []) (.mk _ (ws := []) (ps := []) .absent .absent
    (.scalar _ rfl ?_)) .nil
  have := Reads.int .i32 .i32 n (.inl (by decide))
  rw [h] at this
  exact this

/-- A batch with one such call. -/
def exXOp (ts : Nat) (n : Int) : EncOp :=
  .batch (fun _ => 0) [exX ts n] (queueBytes exXY [exX ts n]) 20 1 false

theorem exX_ok (ts : Nat) (n : Int) (hn : ITy.i32.InRange n) (hts : ts < 2 ^ 64) :
    BatchOK exCfg exXY 1 exCk [exX ts n] (queueBytes exXY [exX ts n]) 20 [exXMsg ts n] :=
  ⟨⟨[], by simp⟩, .cons (exX_prints n hn ts hts) .nil, Nat.le_refl 20,
    (by decide : 20 ≤ exCfg.staging / 2), by
      intro c hc
      simp only [List.mem_singleton] at hc
      subst hc
      exact (by decide : 20 < exCfg.staging / 2), by decide⟩

/-- The groups of the witnesses: `w` is the end of the second write. -/
def exGroups (first : Nat) (more : Nat) (w : WOut) : List (List EncOp × WOut) :=
  [([.start 0 exCk exXY, .dict first], .done), ([.dict more, exXOp 1000 (-5)], w),
   ([.dict 2, exXOp 1020 70000], .done)]

/-- The environment keeps its part in these runs. -/
theorem exGroups_ok (first more : Nat) (w : WOut) :
    OpsOK exCfg exCk exXY (groupOps (exGroups first more w)) ∧
    FlushedStarts true (groupOps (exGroups first more w)) := by
  refine ⟨?_, by simp [groupOps, exGroups, FlushedStarts, exXOp]⟩
  exact .start exCk_plain exXY_ok (by decide) (.dict (.flush (.dict
    (.batch (exX_ok _ _ (by decide) (by decide)) (.flush (.dict
      (.batch (exX_ok _ _ (by decide) (by decide)) (.flush .nil))))))))

/-- `C56_lost_partial` applies: of two writes with a message each, the first is lost. -/
example : ∃ st ns ms ms',
    FileRun exCfg exCk exXY (.start 0 exCk exXY :: [.dict 2, .flush]) st ns ms ∧ st.buf = [] ∧
    (∀ g ∈ [([exXOp 1000 (-5)], WOut.lost), ([exXOp 1020 70000], .done)],
      (∀ op ∈ g.1, op.Fills) ∧ OpsOK exCfg exCk exXY g.1) ∧
    Survive exCfg exCk st [([exXOp 1000 (-5)], .lost), ([exXOp 1020 70000], .done)] ms' := by
  have hcfg : exCfg.OK := ⟨by decide, by decide, by decide⟩
  obtain ⟨st, ns, ms, h⟩ := C18_run_exists exCfg hcfg 0 exCk exXY [.dict 2, .flush]
    (.start exCk_plain exXY_ok (by decide) (.dict (.flush .nil))) (by simp [FlushedStarts])
  obtain ⟨ck', rss, mss, ht, -⟩ := h.trace
  have hr := h.run
  have e : (EncSt.init.run exCfg (.start 0 exCk exXY :: [.dict 2, .flush])).map
      (fun x => (x.1.buf, x.1.all)) = some ([], exXY) := by decide +kernel
  rw [hr] at e
  simp only [Option.map_some, Option.some.injEq, Prod.mk.injEq] at e
  have hg : ∀ g ∈ [([exXOp 1000 (-5)], WOut.lost), ([exXOp 1020 70000], .done)],
      (∀ op ∈ g.1, op.Fills) ∧ OpsOK exCfg exCk exXY g.1 := by
    intro g hg
    simp only [List.mem_cons, List.not_mem_nil, or_false] at hg
    rcases hg with rfl | rfl
    · exact ⟨by simp [exXOp, EncOp.Fills], .batch (exX_ok _ _ (by decide) (by decide)) .nil⟩
    · exact ⟨by simp [exXOp, EncOp.Fills], .batch (exX_ok _ _ (by decide) (by decide)) .nil⟩
  obtain ⟨ms', hk⟩ := C56_survive_exists hcfg _ st e.2 ht.inv e.1 hg (by
    intro g hg
    simp only [List.mem_cons, List.not_mem_nil, or_false] at hg
    rcases hg with rfl | rfl
    · exact .inr ⟨rfl, by intro op ho; exact ⟨_, _, _, _, _, _, by simpa [exXOp] using ho⟩⟩
    · exact .inl rfl)
  exact ⟨st, ns, ms, ms', h, e.1, hg, hk⟩

/-- The messages decoded after a run with failing writes; `none`: abort or undefined. -/
def decodeW (gs : List (List EncOp × WOut)) : Option (Bool × List OutMsg) :=
  match EncSt.init.runW exCfg gs with
  | none => none
  | some st =>
    match (Dec.new (exCfg.staging + 9)).openFile st.file with
    | some (true, s) =>
      match s.unordered (BufFrag.init (exCfg.staging + 9)) with
      | some (ok, s') => some (ok, s'.out)
      | none => none
    | _ => none

/-- **C56** fails, silently: the write with the description of `x=%d` is lost, and so the
decoder takes the description of `y=%d` from the next write for it.  The message `x=70000` of
"a.cc", line 7 is delivered as `y=70000` of "c.cc", line 11, and decoding reports success. -/
theorem C56_wrong_text_false : ∃ m,
    decodeW (exGroups 0 1 .lost) = some (true, [m]) ∧ m.ts = 1020 ∧
    Prints exXY 1 exCk (exX 1020 70000) (exXMsg 1020 70000) ∧
    m.file = [99, 46, 99, 99] ∧ (exXMsg 1020 70000).file = [97, 46, 99, 99] ∧
    m.parts.map Decoded.text = [[121, 61, 37, 100, 10]] ∧
    (exXMsg 1020 70000).parts.map Decoded.text = [[120, 61, 37, 100, 10]] :=
  ⟨⟨1, 0, 1020, exCk, [99, 46, 99, 99], 11, 3,
    [⟨[121, 61, 37, 100, 10], none, none, some (.scalar (.int 70000))⟩]⟩, by decide +kernel, rfl,
    exX_prints _ (by decide) _ (by decide), rfl, rfl, rfl, rfl⟩

/-- **C56** fails: the write with all descriptions is lost, and decoding of the rest aborts
(an index outside the decoder's dictionary). -/
theorem C56_abort_false : decodeW (exGroups 0 2 .lost) = none ∧
    ∃ st, EncSt.init.runW exCfg (exGroups 0 2 .lost) = some st := by
  refine ⟨by decide +kernel, ?_⟩
  have : (EncSt.init.runW exCfg (exGroups 0 2 .lost)).isSome = true := by decide +kernel
  exact Option.isSome_iff_exists.1 this

/-- **C56** fails: all descriptions are in the file, one write in the middle is short, and the
message of the complete write behind it is not delivered.  Instead a message that was never
logged is. -/
theorem C56_short_false : ∃ k ok ms, decodeW (exGroups 2 2 (.short k)) = some (ok, ms) ∧
    decodeW (exGroups 2 2 .done) = some (true, [exXMsg 1000 (-5), exXMsg 1020 70000]) ∧
    decodeW (exGroups 2 2 .lost) = some (true, [exXMsg 1020 70000]) ∧
    exXMsg 1020 70000 ∉ ms ∧
    ∃ m ∈ ms, m ≠ exXMsg 1000 (-5) ∧ m ≠ exXMsg 1020 70000 :=
  ⟨10, false, [exXMsg 1000 (-26)], by decide +kernel, by decide +kernel, by decide +kernel,
    by decide +kernel, exXMsg 1000 (-26), by simp, by decide +kernel, by decide +kernel⟩

end NanoLog
