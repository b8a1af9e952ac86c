import Verif.Example
import Verif.Props.Format

/-!
# Properties C14, C15, C16, C17, C21: encoding batches and dictionaries
-/

namespace NanoLog

/-! ## C14 -/

/-- **C14**, messages.  `encodeStep` and `encodeLogMsgs` give `none` if a byte outside the
free space is touched, logically or by the surplus bytes of `pack`.  Whatever the queue, the
limit and the free space, this does not happen, and the batch fits the free space. -/
theorem C14_batch_never_overruns (cfg : Config) (junk : Nat → Nat) {all sites : List Site}
    (hpre : sites <+: all) {tid : Nat} {ck : Checkpoint} {cs : List LogCall} {ms : List OutMsg}
    (hp : List.Forall₂ (Prints all tid ck) cs ms) (more : List Byte) (space nbytes : Nat)
    (np : Bool) (ht : tid < 2 ^ 32) (hr : nbytes ≤ queueSize all cs) :
    ∃ out n, encodeLogMsgs cfg junk sites space (queueBytes all cs ++ more) nbytes tid np =
        some (out, n) ∧ out.length ≤ space := by
  by_cases hsp : 9 ≤ space
  · obtain ⟨pre, suf, body, -, h2, -, h4, -⟩ := encodeLogMsgs_queue cfg junk hpre more cs
      (queue_of_prints hp) space nbytes tid np ht hsp hr
    exact ⟨_, _, h2, h4⟩
  · exact ⟨[], 0, by rw [encodeLogMsgs, if_pos (by omega)], by simp⟩

example : exSites <+: exSites ∧ List.Forall₂ (Prints exSites 1 exCk) exCalls (exMsgs 1 exCk) ∧
    1 < 2 ^ 32 ∧ 40 ≤ queueSize exSites exCalls :=
  ⟨List.prefix_refl _, exPrints _ _, by decide, by decide⟩

/-- **C14**, one message: the bytes physically touched never exceed the bound
`2 * entrySize + 16` against which the free space is checked (runtime/Log.cc:366-372). -/
theorem C14_message_touches {sites : List Site} {tid : Nat} {ck : Checkpoint} {c : LogCall}
    {m : OutMsg} {s : Site} (hp : Prints sites tid ck c m) (hs : sites[c.id]? = some s)
    (junk last : Nat) (more : List Byte) :
    ∃ args rest n, compress junk s.numNibbles s.tys s.params
        (storedArgs s.params c.args ++ more) = some (args, rest) ∧
      encodeTouch s c.id c.ts last (storedArgs s.params c.args ++ more)
        (compressLogHeader c.id c.ts last ++ args) = some n ∧ n ≤ 2 * c.size s + 16 := by
  obtain ⟨s', ok, hm⟩ := hp.ok
  have : s' = s := by have := ok.site; rw [hs] at this; exact (Option.some.inj this).symm
  subst this
  have hsz : argAllocSize s'.params c.args < 2 ^ 32 := by
    have := ok.size; simp only [LogCall.size] at this; omega
  obtain ⟨n, h1, h2⟩ := touch_le (last := last) (junk := junk) ok.id hm ok.valid hsz ok.tys more
  refine ⟨argsOut junk s'.params c.args, more, n, ?_, h1, by omega⟩
  rw [← ok.tys]
  exact compress_eq hm ok.valid hsz junk more

example : ∃ m, Prints exSites 1 exCk exCall2 m ∧ exSites[exCall2.id]? = some exSite0 ∧
    encodeTouch exSite0 0 1020 1010 (storedArgs exSite0.params exCall2.args)
      (compressLogHeader 0 1020 1010 ++ [3, 112, 17, 1]) = some 10 :=
  ⟨_, exCall_int _ (by decide) _ (by decide) _ _, by decide, by decide +kernel⟩

theorem dictEntries_le (space : Nat) (l : List LogInfo) : (dictEntries space l).2.length ≤ space := by
  induction l generalizing space with
  | nil => simp [dictEntries]
  | cons i l ih =>
    simp only [dictEntries]
    split
    · simp
    · have h1 := ih (space - logInfoSize i)
      have h2 := logInfoBytes_length i
      simp only [List.length_append]
      omega

/-- **C14**, dictionary fragments and checkpoints stay inside the free space (these write no
surplus bytes). -/
theorem C14_dictionary_never_overruns (space pos junk : Nat) (all : List LogInfo)
    (c : Checkpoint) (hc : c.Valid) :
    (encodeDict space pos all).2.length ≤ space ∧
      ∀ bs, insertCheckpoint space junk c = some bs → bs.length ≤ space := by
  constructor
  · unfold encodeDict
    split
    · simp
    · have := dictEntries_le (space - 8) (all.drop pos)
      simp only [List.length_append, le_length]
      omega
  · intro bs h
    unfold insertCheckpoint at h
    split at h
    · cases h
    · simp only [Option.some.injEq] at h
      rw [← h, checkpointBytes_length hc]
      omega

example : exCk.Valid ∧ (encodeDict 60 0 (exSites.map Site.info)).2.length = 45 ∧
    (encodeDict 30 0 (exSites.map Site.info)).2.length = 28 ∧
    (insertCheckpoint 40 5 exCk).isSome := by decide +kernel

/-- **C14**, whole runs: no sequence of encoder operations overruns the output buffer (`run`
would be `none`), and the buffer never holds more than its size. -/
theorem C14_run_never_overruns (cfg : Config) (hcfg : cfg.OK) {ck : Checkpoint}
    {all : List Site} {ops : List EncOp} (hok : OpsOK cfg ck all ops)
    (st : EncSt) (hinv : st.Inv cfg) (hall : st.all = all)
    (hfl : FlushedStarts (decide (st.buf = [])) ops) :
    ∃ st' ns, st.run cfg ops = some (st', ns) ∧ st'.buf.length ≤ cfg.output := by
  obtain ⟨st', ns, ms, rs, h1, -, -, -, -, h5⟩ := run_holds cfg hcfg hok st hinv hall hfl
  exact ⟨st', ns, h1, h5.buf⟩

theorem EncSt.init_inv (cfg : Config) : EncSt.init.Inv cfg :=
  ⟨by simp [EncSt.init], by simp [EncSt.init], by simp [EncSt.init], by intro s hs; simp [EncSt.init] at hs⟩

theorem Config.default_ok : Config.default.OK :=
  ⟨by decide, by decide, by decide⟩

/-- An example run: start, dictionary, a batch of two messages' worth of bytes, flush, a
second batch. -/
def exOps : List EncOp :=
  [.start 0 exCk exSites, .dict 2,
   .batch (fun _ => 0) exCalls (queueBytes exSites exCalls) 42 1 true, .flush,
   .batch (fun _ => 7) [exCall2] (queueBytes exSites [exCall2]) 20 1 false]

theorem exBatch1 : BatchOK Config.default exSites 1 exCk exCalls
    (queueBytes exSites exCalls) 42 (exMsgs 1 exCk) :=
  ⟨⟨[], by simp⟩, exPrints 1 exCk, by decide, by decide, by decide, by decide⟩

theorem exBatch2 : BatchOK Config.default exSites 1 exCk [exCall2]
    (queueBytes exSites [exCall2]) 20 ((exMsgs 1 exCk).drop 2) :=
  ⟨⟨[], by simp⟩, .cons (exCall_int _ (by decide) _ (by decide) _ _) .nil, by decide, by decide,
    by decide, by decide⟩

theorem exOps_ok (ck : Checkpoint) (all : List Site) : OpsOK Config.default ck all exOps :=
  .start exCk_plain exSites_ok (by decide) (.dict (.batch exBatch1 (.flush (.batch exBatch2 .nil))))

theorem exOps_flushed : FlushedStarts true exOps := by simp [exOps, FlushedStarts]

example : Config.default.OK ∧ OpsOK Config.default exCk [] exOps ∧
    EncSt.init.Inv Config.default ∧ EncSt.init.all = [] ∧
    FlushedStarts (decide (EncSt.init.buf = [])) exOps :=
  ⟨Config.default_ok, exOps_ok _ _, EncSt.init_inv _, rfl, exOps_flushed⟩

/-! ## C15 -/

/-- **C15.**  Encoding a batch consumes the first `k` messages of the queue for some `k` and
reports exactly their size.  Reading the produced bytes back (with any decoder whose
dictionary describes the statements and whose storage is large enough, anything may follow)
gives the pass flag and exactly what these `k` calls must print. -/
theorem C15_batch_whole_messages (cfg : Config) (junk : Nat → Nat) {all sites : List Site}
    (hpre : sites <+: all) {tid : Nat} {ck : Checkpoint} {cs : List LogCall} {ms : List OutMsg}
    (hp : List.Forall₂ (Prints all tid ck) cs ms) (more : List Byte) (space nbytes : Nat)
    (np : Bool) (ht : tid < 2 ^ 32) (hr : nbytes ≤ queueSize all cs) (hsp : 9 ≤ space) :
    ∃ k ≤ cs.length, ∃ out,
      encodeLogMsgs cfg junk sites space (queueBytes all cs ++ more) nbytes tid np =
        some (out, (queueSize all (cs.take k) : Int)) ∧
      ∀ (d : Dict), Describes d sites → ∀ (bf : BufFrag) (rest : List Byte) (shown : List OutMsg),
        out.length ≤ bf.stor.length → bf.stor.length < 2 ^ 32 →
        ∃ bf1 bf2, readBufferExtent bf ⟨out ++ rest, false⟩ =
            some (true, np, bf1, ⟨rest, false⟩) ∧
          drain ck d (bf1.mem.length + 1) bf1 shown = some (bf2, shown ++ ms.take k) ∧
          bf2.hasMore = false := by
  obtain ⟨pre, suf, body, q1, q2, q3, -⟩ := encodeLogMsgs_queue cfg junk hpre more cs
    (queue_of_prints hp) space nbytes tid np ht hsp hr
  have hpl : cs.take pre.length = pre := by rw [q1]; simp
  refine ⟨pre.length, by rw [q1]; simp, _, by rw [hpl]; exact q2, ?_⟩
  intro d hd bf rest shown hlen h32
  obtain ⟨bf1, r1, r2, r3, r4⟩ := readBufferExtent_at bf q3 np rest false ht hlen (by omega)
  have hpr : List.Forall₂ (Prints sites tid ck) pre (ms.take pre.length) := by
    apply prints_restrict hpre _ q3.ok
    rw [q1] at hp
    exact forall₂_append_left hp
  obtain ⟨bf2, d1, d2, -⟩ := drain_at hd hpr _ r2.length_le bf1 shown r2 r3
  exact ⟨bf1, bf2, r1, d1, d2⟩

/-- Without room for an extent header nothing is consumed and nothing written. -/
theorem C15_no_room (cfg : Config) (junk : Nat → Nat) (sites : List Site) (mem : List Byte)
    (space nbytes tid : Nat) (np : Bool) (h : space < 9) :
    encodeLogMsgs cfg junk sites space mem nbytes tid np = some ([], 0) := by
  rw [encodeLogMsgs, if_pos (by omega)]

/-- The example queue with a limit inside the third message: two messages are consumed. -/
example : List.Forall₂ (Prints exSites 1 exCk) exCalls (exMsgs 1 exCk) ∧
    45 ≤ queueSize exSites exCalls ∧
    (encodeLogMsgs Config.default (fun _ => 0) exSites 200 (queueBytes exSites exCalls) 45 1
      true).map (·.2) = some 42 ∧ queueSize exSites (exCalls.take 2) = 42 :=
  ⟨exPrints _ _, by decide, by decide +kernel, by decide⟩

example : ∃ d, Describes d exSites := by
  refine ⟨(Dict.empty.add exSite0.info).add exSite1.info, ?_⟩
  have h1 := describes_empty.add exSite0_supported
  exact h1.add exSite1_supported

/-! ## C16 -/

theorem dictEntries_all (l : List LogInfo) (space : Nat)
    (h : (l.map logInfoSize).sum < space) : (dictEntries space l).1 = l.length ∧
      (dictEntries space l).2.length = (l.map logInfoSize).sum := by
  induction l generalizing space with
  | nil => simp [dictEntries]
  | cons i l ih =>
    simp only [List.map_cons, List.sum_cons] at h ⊢
    have h1 := ih (space - logInfoSize i) (by omega)
    have h2 := logInfoBytes_length i
    simp only [dictEntries]
    rw [if_neg (by omega)]
    simp only [List.length_cons, List.length_append, h1, h2, and_self]

theorem dictEntries_progress (i : LogInfo) (l : List LogInfo) (space : Nat)
    (h : logInfoSize i < space) : 1 ≤ (dictEntries space (i :: l)).1 := by
  simp only [dictEntries]
  rw [if_neg (by omega)]
  simp

theorem run_append (cfg : Config) (st : EncSt) (a b : List EncOp) :
    st.run cfg (a ++ b) =
      match st.run cfg a with
      | none => none
      | some (st1, ns) =>
        match st1.run cfg b with
        | none => none
        | some (st2, ns') => some (st2, ns ++ ns') := by
  induction a generalizing st with
  | nil =>
    simp only [List.nil_append, EncSt.run]
    cases st.run cfg b with
    | none => rfl
    | some p => rfl
  | cons op a ih =>
    simp only [List.cons_append, EncSt.run]
    cases st.step cfg op with
    | none => rfl
    | some p =>
      obtain ⟨st1, n⟩ := p
      simp only [ih]
      cases st1.run cfg a with
      | none => rfl
      | some q =>
        obtain ⟨st2, ns⟩ := q
        simp only
        cases st2.run cfg b with
        | none => rfl
        | some r => simp

/-- With the statement of the first message known and enough space, a batch consumes it. -/
theorem first_consumed (cfg : Config) (junk : Nat → Nat) {all sites : List Site}
    (hpre : sites <+: all) (more : List Byte) {c : LogCall} {cs : List LogCall}
    (hq : Queue all (c :: cs)) {space nbytes tid : Nat} (np : Bool) (ht : tid < 2 ^ 32)
    (hr : nbytes ≤ queueSize all (c :: cs)) (hid : c.id < sites.length)
    (hlim : callSize all c ≤ nbytes) (hsp : 25 + 2 * callSize all c ≤ space) :
    ∃ out n, encodeLogMsgs cfg junk sites space (queueBytes all (c :: cs) ++ more) nbytes tid np =
      some (out, n) ∧ 0 < n ∧ out.length ≤ space := by
  obtain ⟨pre, suf, body, q1, q2, q3, q4, q5, q6⟩ := encodeLogMsgs_queue cfg junk hpre more
    (c :: cs) hq space nbytes tid np ht (by omega) hr
  obtain ⟨s, ok, -⟩ := hq c (by simp)
  have hcs := callSize_eq ok
  have hc16 : 16 ≤ callSize all c := by rw [hcs, LogCall.size]; omega
  refine ⟨_, _, q2, ?_, q4⟩
  cases pre with
  | nil =>
    exfalso
    simp only [List.nil_append] at q1
    subst q1
    have hb : body = [] := by rw [q3.nil_iff]
    subst hb
    have hl := extentBytes_length tid np []
    have hh := extentHeaderSize_le ht
    simp only [StopsAt, queueSize, List.map_nil, List.sum_nil] at q5
    simp only [List.length_nil] at hl
    omega
  | cons c' pre =>
    simp only [List.cons_append, List.cons.injEq] at q1
    obtain ⟨rfl, -⟩ := q1
    have : queueSize all (c :: pre) = callSize all c + queueSize all pre := by
      simp [queueSize]
    omega

/-- One round of the background thread on a full buffer: flush, write new static
information, try again. -/
def retryRound (known : Nat) (junk : Nat → Nat) (cs : List LogCall) (mem : List Byte)
    (nbytes tid : Nat) (np : Bool) : List EncOp :=
  [.flush, .dict known, .batch junk cs mem nbytes tid np]

theorem round_progress (cfg : Config) (st : EncSt) (hinv : st.Inv cfg) {ck : Checkpoint}
    {known : Nat} (junk : Nat → Nat) {c : LogCall} {cs : List LogCall} {mem : List Byte}
    {nbytes tid : Nat} (np : Bool) {ms : List OutMsg}
    (hb : BatchOK cfg st.all tid ck (c :: cs) mem nbytes ms)
    (hk : c.id < known) (hlim : callSize st.all c ≤ nbytes)
    (hroom : cfg.staging + 25 ≤ cfg.output)
    (hfit : ∀ s ∈ st.all, logInfoSize s.info + 8 < cfg.output) :
    ∃ st' n, st.run cfg (retryRound known junk (c :: cs) mem nbytes tid np) = some (st', [n]) ∧
      st'.Inv cfg ∧ st'.all = st.all ∧ (0 < n ∨ n = 0 ∧ st.pos < st'.pos) ∧
      ((8 + ((st.all.drop st.pos).map fun s => logInfoSize s.info).sum + 25 +
        2 * callSize st.all c ≤ cfg.output) → 0 < n) := by
  obtain ⟨more, hmem⟩ := hb.mem
  have hq := queue_of_prints hb.prints
  obtain ⟨s, ok, -⟩ := hq c (by simp)
  have hlt : c.id < st.all.length := by
    have := ok.site
    by_contra hn; rw [List.getElem?_eq_none (by omega)] at this; cases this
  have hsm := hb.small c (by simp)
  by_cases hd : st.pos < (st.all.take known).length
  · obtain ⟨pos', p1, p2, p3, p4⟩ := encodeDict_eq (st.all.take known) cfg.output st.pos
      (by omega) (by omega)
    have hsl : st.shadow.length = st.pos := by
      rw [hinv.shadow, List.length_take]; have := hinv.pos; omega
    have hsh : st.shadow ++ ((st.all.take known).take pos').drop st.shadow.length =
        st.all.take pos' := by
      have e1 : (st.all.take known).take pos' = st.all.take pos' := by
        rw [List.take_take]; congr 1
        rw [List.length_take] at p1; omega
      have e2 : st.shadow = (st.all.take pos').take st.pos := by
        rw [hinv.shadow, List.take_take]; congr 1; omega
      rw [e1, hsl, e2, List.take_append_drop]
    have hlenk : (st.all.take known).length ≤ st.all.length := by rw [List.length_take]; omega
    have hprog : st.pos < pos' := by
      obtain ⟨i, l, hil⟩ : ∃ i l, (st.all.take known).drop st.pos = i :: l := by
        cases h : (st.all.take known).drop st.pos with
        | nil =>
          have := congrArg List.length h
          simp only [List.length_drop, List.length_nil] at this; omega
        | cons i l => exact ⟨i, l, rfl⟩
      have hi : i ∈ st.all := by
        have : i ∈ (st.all.take known).drop st.pos := by rw [hil]; simp
        exact List.mem_of_mem_take (List.mem_of_mem_drop this)
      have h1 := dictEntries_progress i.info (l.map Site.info) (cfg.output - 8)
        (by have := hfit i hi; omega)
      have h2 := congrArg Prod.fst p3
      rw [encodeDict, if_neg (by omega), ← List.map_drop, hil] at h2
      simp only [List.map_cons] at h2
      omega
    have hbuf : (dictBytes pos' (((st.all.take known).take pos').drop st.pos)).length ≤
        cfg.output := by simpa using p4
    have hpre : st.all.take pos' <+: st.all := List.take_prefix _ _
    have hrun : ∀ out n, encodeLogMsgs cfg junk (st.all.take pos')
        (cfg.output - (dictBytes pos' (((st.all.take known).take pos').drop st.pos)).length)
        (queueBytes st.all (c :: cs) ++ more) nbytes tid np = some (out, n) →
        out.length ≤ cfg.output -
          (dictBytes pos' (((st.all.take known).take pos').drop st.pos)).length →
        ∃ st', st.run cfg (retryRound known junk (c :: cs) mem nbytes tid np) =
          some (st', [n]) ∧ st'.Inv cfg ∧ st'.all = st.all ∧ st'.pos = pos' := by
      intro out n he hol
      refine ⟨⟨st.file ++ st.buf, dictBytes pos' (((st.all.take known).take pos').drop st.pos) ++ out,
        pos', st.all.take pos', st.all⟩, ?_, ⟨rfl, by simp only; omega, ?_, hinv.sites⟩, rfl, rfl⟩
      · simp only [retryRound, EncSt.run, EncSt.step, hd, if_true, List.length_nil, Nat.sub_zero, p3,
          hsh, List.nil_append, hmem, he, Option.toList_none, Option.toList_some, List.append_nil]
      · simp only [List.length_append]; omega
    have hfull : (8 + ((st.all.drop st.pos).map fun s => logInfoSize s.info).sum + 25 +
        2 * callSize st.all c ≤ cfg.output) → c.id < pos' ∧
        (dictBytes pos' (((st.all.take known).take pos').drop st.pos)).length ≤
          8 + ((st.all.drop st.pos).map fun s => logInfoSize s.info).sum := by
      intro hsum
      have hsub : ((((st.all.take known).drop st.pos).map Site.info).map logInfoSize).sum ≤
          ((st.all.drop st.pos).map fun s => logInfoSize s.info).sum := by
        have hmn : ∀ (l : List Site) (j : Nat), (((l.take j).map Site.info).map logInfoSize).sum ≤
            (l.map fun s => logInfoSize s.info).sum := by
          intro l
          induction l with
          | nil => intro j; simp
          | cons x l ih =>
            intro j
            cases j with
            | zero => simp
            | succ j =>
              have := ih j
              simp only [List.take_succ_cons, List.map_cons, List.sum_cons]
              omega
        rw [List.drop_take]
        exact hmn _ _
      have ha := dictEntries_all (((st.all.take known).drop st.pos).map Site.info)
        (cfg.output - 8) (by omega)
      rw [encodeDict, if_neg (by omega), ← List.map_drop] at p3
      have f1 := congrArg Prod.fst p3
      have f2 := congrArg (fun p => p.2.length) p3
      simp only [ha, List.length_append, le_length, List.length_map, List.length_drop,
        List.length_take] at f1 f2
      rw [List.length_take] at hd
      refine ⟨by omega, by omega⟩
    by_cases hcid : c.id < pos' ∧ 25 + 2 * callSize st.all c ≤ cfg.output -
        (dictBytes pos' (((st.all.take known).take pos').drop st.pos)).length
    · obtain ⟨out, n, e1, e2, e3⟩ := first_consumed cfg junk hpre more hq np hb.tid hb.limit
        (by rw [List.length_take]; omega) hlim hcid.2
      obtain ⟨st', r1, r2, r3, r4⟩ := hrun out n e1 e3
      exact ⟨st', n, r1, r2, r3, .inl e2, fun _ => e2⟩
    · have hno : ¬ (8 + ((st.all.drop st.pos).map fun s => logInfoSize s.info).sum + 25 +
          2 * callSize st.all c ≤ cfg.output) := by
        intro h
        obtain ⟨f1, f2⟩ := hfull h
        exact hcid ⟨f1, by omega⟩
      by_cases h9 : 9 ≤ cfg.output -
          (dictBytes pos' (((st.all.take known).take pos').drop st.pos)).length
      · obtain ⟨pre, suf, body, q1, q2, q3, q4, q5, q6⟩ := encodeLogMsgs_queue cfg junk hpre more
          (c :: cs) hq _ nbytes tid np hb.tid h9 hb.limit
        obtain ⟨st', r1, r2, r3, r4⟩ := hrun _ _ q2 q4
        refine ⟨st', _, r1, r2, r3, ?_, fun h => absurd h hno⟩
        rcases Nat.eq_zero_or_pos (queueSize st.all pre) with h | h
        · exact .inr ⟨by rw [h]; rfl, by omega⟩
        · exact .inl (by omega)
      · obtain ⟨st', r1, r2, r3, r4⟩ := hrun [] 0 (C15_no_room _ _ _ _ _ _ _ _ (by omega))
          (by simp)
        exact ⟨st', 0, r1, r2, r3, .inr ⟨rfl, by omega⟩, fun h => absurd h hno⟩
  · have hidp : c.id < st.shadow.length := by
      rw [hinv.shadow, List.length_take]; rw [List.length_take] at hd; omega
    have hpre : st.shadow <+: st.all := by rw [hinv.shadow]; exact List.take_prefix _ _
    obtain ⟨out, n, e1, e2, e3⟩ := first_consumed cfg junk hpre more hq (space := cfg.output) np
      hb.tid hb.limit hidp hlim (by omega)
    refine ⟨⟨st.file ++ st.buf, out, st.pos, st.shadow, st.all⟩, n, ?_,
      ⟨hinv.shadow, hinv.pos, e3, hinv.sites⟩, rfl, .inl e2, fun _ => e2⟩
    simp only [retryRound, EncSt.run, EncSt.step, hd, if_false, List.length_nil, Nat.sub_zero,
      List.nil_append, hmem, e1, Option.toList_none, Option.toList_some, List.append_nil]

/-- **C16.**  After a flush and writing the new static information, the next attempt consumes
at least one message, provided that the static information not yet written and the message
fit the output buffer together. -/
theorem C16_progress_after_flush (cfg : Config) (st : EncSt) (hinv : st.Inv cfg)
    {ck : Checkpoint} {known : Nat} (junk : Nat → Nat) {c : LogCall} {cs : List LogCall}
    {mem : List Byte} {nbytes tid : Nat} (np : Bool) {ms : List OutMsg}
    (hb : BatchOK cfg st.all tid ck (c :: cs) mem nbytes ms)
    (hk : c.id < known) (hlim : callSize st.all c ≤ nbytes)
    (hroom : cfg.staging + 25 ≤ cfg.output)
    (hfit : 8 + ((st.all.drop st.pos).map fun s => logInfoSize s.info).sum + 25 +
        2 * callSize st.all c ≤ cfg.output)
    (hfit1 : ∀ s ∈ st.all, logInfoSize s.info + 8 < cfg.output) :
    ∃ st' n, st.run cfg [.flush, .dict known, .batch junk (c :: cs) mem nbytes tid np] =
      some (st', [n]) ∧ 0 < n := by
  obtain ⟨st', n, h1, -, -, -, h5⟩ := round_progress cfg st hinv junk np hb hk hlim hroom hfit1
  exact ⟨st', n, h1, h5 hfit⟩

/-- **C16**, without the assumption that all new static information fits at once: after at
most as many fruitless rounds as there are statements not yet written, a message is
consumed.  Each single dictionary entry must fit. -/
theorem C16_progress_eventually (cfg : Config) (st : EncSt) (hinv : st.Inv cfg)
    {ck : Checkpoint} {known : Nat} (junk : Nat → Nat) {c : LogCall} {cs : List LogCall}
    {mem : List Byte} {nbytes tid : Nat} (np : Bool) {ms : List OutMsg}
    (hb : BatchOK cfg st.all tid ck (c :: cs) mem nbytes ms)
    (hk : c.id < known) (hlim : callSize st.all c ≤ nbytes)
    (hroom : cfg.staging + 25 ≤ cfg.output)
    (hfit1 : ∀ s ∈ st.all, logInfoSize s.info + 8 < cfg.output) :
    ∃ k ≤ st.all.length - st.pos, ∃ st' n,
      st.run cfg ((List.replicate (k + 1)
        [.flush, .dict known, .batch junk (c :: cs) mem nbytes tid np]).flatten) =
        some (st', List.replicate k 0 ++ [n]) ∧ 0 < n := by
  obtain ⟨j, hj⟩ : ∃ j, st.all.length - st.pos ≤ j := ⟨_, Nat.le_refl _⟩
  induction j generalizing st with
  | zero =>
    obtain ⟨st', n, h1, h2, h3, h4, -⟩ := round_progress cfg st hinv junk np hb hk hlim hroom hfit1
    refine ⟨0, by omega, st', n, by simpa [retryRound] using h1, ?_⟩
    rcases h4 with h | ⟨-, h⟩
    · exact h
    · have := h2.pos; rw [h3] at this; omega
  | succ j ih =>
    obtain ⟨st', n, h1, h2, h3, h4, -⟩ := round_progress cfg st hinv junk np hb hk hlim hroom hfit1
    rcases h4 with h | ⟨hn, h⟩
    · exact ⟨0, by omega, st', n, by simpa [retryRound] using h1, h⟩
    · subst hn
      have hp := h2.pos
      rw [h3] at hp
      obtain ⟨k, hk', st'', n', r1, r2⟩ := ih st' h2 (by rw [h3]; exact hb)
        (by rw [h3]; exact hlim) (by rw [h3]; exact hfit1) (by rw [h3]; omega)
      rw [h3] at hk'
      refine ⟨k + 1, by omega, st'', n', ?_, r2⟩
      rw [List.replicate_succ, List.flatten_cons, run_append]
      simp only [retryRound] at h1
      rw [h1]
      simp only
      rw [r1]
      rfl

/-- The second example batch in the state after the first one: a statement is unwritten,
the buffer is not empty. -/
def exSt : EncSt := ⟨[], checkpointBytes 0 exCk, 1, [exSite0], exSites⟩

theorem exSt_inv : exSt.Inv Config.default :=
  ⟨by decide, by decide, by decide +kernel, exSites_ok⟩

example : exSt.Inv Config.default ∧
    BatchOK Config.default exSt.all 1 exCk exCalls (queueBytes exSites exCalls) 42 (exMsgs 1 exCk) ∧
    exCall0.id < 2 ∧ callSize exSt.all exCall0 ≤ 42 ∧
    Config.default.staging + 25 ≤ Config.default.output ∧
    8 + ((exSt.all.drop exSt.pos).map fun s => logInfoSize s.info).sum + 25 +
        2 * callSize exSt.all exCall0 ≤ Config.default.output ∧
    ∀ s ∈ exSt.all, logInfoSize s.info + 8 < Config.default.output :=
  ⟨exSt_inv, exBatch1, by decide, by decide, by decide, by decide, by decide⟩

/-! ## C17 -/

/-- **C17.**  An extent made of messages smaller than half the staging buffer, with a limit of
at most half the staging buffer (`RELEASE_THRESHOLD`), fits the storage of the decoder, and
the decoder accepts it. -/
theorem C17_decoder_accepts (cfg : Config) (hcfg : cfg.OK) (junk : Nat → Nat)
    {all sites : List Site} (hpre : sites <+: all) {tid : Nat} {ck : Checkpoint}
    {cs : List LogCall} {mem : List Byte} {nbytes : Nat} {ms : List OutMsg}
    (hb : BatchOK cfg all tid ck cs mem nbytes ms) (space : Nat) (hsp : 9 ≤ space) (np : Bool) :
    ∃ out n, encodeLogMsgs cfg junk sites space mem nbytes tid np = some (out, n) ∧
      out.length ≤ cfg.staging + 9 ∧
      ∀ (bf : BufFrag) (rest : List Byte), bf.stor.length = cfg.staging + 9 →
        ∃ bf', readBufferExtent bf ⟨out ++ rest, false⟩ = some (true, np, bf', ⟨rest, false⟩) := by
  obtain ⟨more, rfl⟩ := hb.mem
  obtain ⟨pre, suf, body, q1, q2, q3, q4, q5, q6⟩ := encodeLogMsgs_queue cfg junk hpre more cs
    (queue_of_prints hb.prints) space nbytes tid np hb.tid hsp hb.limit
  have hle := q3.length_le2
  rw [queueSize_prefix hpre q3.ok] at hle
  have hsz := q6 (fun c hc => hb.small c (by rw [q1]; simp [hc]))
  have hxl := extentBytes_length tid np body
  have hh := extentHeaderSize_le hb.tid
  have hhalf := hb.half
  have hst := hcfg.staging
  have hlen : (extentBytes tid np body).length ≤ cfg.staging + 9 := by omega
  refine ⟨_, _, q2, hlen, ?_⟩
  intro bf rest hbf
  obtain ⟨bf1, r1, -⟩ := readBufferExtent_at bf q3 np rest false hb.tid (by omega) (by omega)
  exact ⟨bf1, r1⟩

example : Config.default.OK ∧ exSites <+: exSites ∧
    BatchOK Config.default exSites 1 exCk exCalls (queueBytes exSites exCalls) 42 (exMsgs 1 exCk) ∧
    (BufFrag.init (Config.default.staging + 9)).stor.length = Config.default.staging + 9 :=
  ⟨Config.default_ok, List.prefix_refl _, exBatch1, by simp [BufFrag.init]⟩

/-- A statement with `n` conversions `%hhd` and one with a `%s`. -/
def bigSites (n : Nat) : List Site :=
  [⟨⟨[97], 1, 1, render (List.replicate n
      (.conv ⟨[], .none, .none, .hh, (ch 'd', .signed), .schar⟩))⟩,
     List.replicate n .nonString, List.replicate n (.int .i8)⟩,
   ⟨⟨[97], 2, 1, [37, 115]⟩, [.strNo], [.cstr]⟩]

/-- A call of the first statement: all arguments 1. -/
def smallCall (n : Nat) : LogCall := ⟨0, 5, List.replicate n (.int .i8 1)⟩

/-- A call of the second statement with a string of `len` characters. -/
def bigCall (len : Nat) : LogCall := ⟨1, 6, [.cstr 4096 (List.replicate len 65)]⟩

theorem replicate_matches (n : Nat) :
    Matches (List.replicate n .nonString) (List.replicate n (.int .i8 1)) := by
  induction n with
  | zero => exact .nil
  | succ n ih => rw [List.replicate_succ, List.replicate_succ]; exact .cons (.inl (by decide)) ih

theorem replicate_sizes (n prev : Nat) :
    (getArgSizes (List.replicate n .nonString) prev (List.replicate n (.int .i8 1))).1 = n := by
  induction n with
  | zero => rfl
  | succ n ih =>
    rw [List.replicate_succ, List.replicate_succ, getArgSizes_fst]
    have : getArgSize .nonString prev (.int .i8 1) = (1, 0, prev) := rfl
    rw [this, ih]; simp; omega

theorem smallCall_size (n : Nat) (s : Site) (hs : s.params = List.replicate n .nonString) :
    (smallCall n).size s = 16 + n := by
  simp only [LogCall.size, smallCall, hs, argAllocSize, replicate_sizes]

theorem smallCall_ok (n : Nat) (hn : n < 2 ^ 30) :
    ∃ s, (smallCall n).OK (bigSites n) s ∧ Matches s.params (smallCall n).args ∧
      s.params = List.replicate n .nonString ∧ s.numNibbles = n := by
  refine ⟨_, ⟨rfl, ?_, ?_, (by decide : (0 : Nat) < 2 ^ 32), (by decide : (5 : Nat) < 2 ^ 64), ?_⟩,
    ?_, rfl, ?_⟩
  · simp [smallCall, Arg.ty]
  · intro a ha
    simp only [smallCall] at ha
    rw [List.eq_of_mem_replicate ha]; decide
  · rw [smallCall_size n _ rfl]; omega
  · exact replicate_matches n
  · simp only [Site.numNibbles, numNibblesNeeded]
    rw [List.filter_replicate_of_pos (by decide)]; simp

theorem bigCall_ok (n len : Nat) (hl : len < 2 ^ 30) :
    ∃ s, (bigCall len).OK (bigSites n) s ∧ Matches s.params (bigCall len).args ∧
      s.params = [.strNo] ∧ (bigCall len).size s = 20 + len := by
  have hsz : (bigCall len).size ⟨⟨[97], 2, 1, [37, 115]⟩, [.strNo], [.cstr]⟩ = 20 + len := by
    simp [LogCall.size, bigCall, argAllocSize, getArgSizes, getArgSize, ParamType.code, truncLen]
    omega
  refine ⟨_, ⟨rfl, rfl, ?_, (by decide : (1 : Nat) < 2 ^ 32), (by decide : (6 : Nat) < 2 ^ 64), ?_⟩,
    .cons (.inr trivial) .nil, rfl, hsz⟩
  · intro a ha
    simp only [bigCall, List.mem_singleton] at ha
    subst ha
    refine ⟨by decide, by simp; omega, ?_⟩
    intro b hb
    rw [List.eq_of_mem_replicate hb]; decide
  · rw [hsz]; omega

theorem pks_length_ge {ss : List Scalar} (h : ∀ s ∈ ss, s.Valid) : ss.length ≤ (pks ss).length := by
  induction ss with
  | nil => simp
  | cons s ss ih =>
    have h1 := (Scalar.pack_facts (h s (by simp))).1
    have h2 := ih fun x hx => h x (by simp [hx])
    simp only [pks_cons, List.length_append, List.length_cons]
    omega

theorem argsOut_ge {ps : List ParamType} {as : List Arg} (hm : Matches ps as)
    (ha : ∀ a ∈ as, a.Valid) (junk : Nat) :
    (numNibblesNeeded ps + 1) / 2 + numNibblesNeeded ps +
      (itemStrs (items ps initPrecision as)).length ≤ (argsOut junk ps as).length := by
  have hl := items_scalars_length hm initPrecision
  have he := encodeScalars_length (ss := itemScalars (items ps initPrecision as)) junk
  have hp := pks_length_ge (items_valid (ps := ps) initPrecision ha)
  simp only [argsOut, List.length_append, he]
  simp only [pks] at hp
  omega

theorem smallCall_out {n : Nat} {s : Site} (ok : (smallCall n).OK (bigSites n) s)
    (hm : Matches s.params (smallCall n).args) (junk last : Nat) :
    3 + (n + 1) / 2 + n ≤ (msgOut junk last s (smallCall n)).length := by
  have h1 := argsOut_ge hm ok.valid junk
  have h2 := compressLogHeader_length (ts := (smallCall n).ts) (last := last) ok.id
  have h3 : numNibblesNeeded s.params = n := by
    have := ok.site
    simp only [smallCall, bigSites, List.getElem?_cons_zero, Option.some.injEq] at this
    subst this
    simp only [numNibblesNeeded]
    rw [List.filter_replicate_of_pos (by decide)]; simp
  rw [h3] at h1
  simp only [msgOut, List.length_append]
  omega

theorem bigCall_out {n len : Nat} {s : Site} (ok : (bigCall len).OK (bigSites n) s)
    (hm : Matches s.params (bigCall len).args) (junk last : Nat) :
    4 + len ≤ (msgOut junk last s (bigCall len)).length := by
  have h1 := argsOut_ge hm ok.valid junk
  have h2 := compressLogHeader_length (ts := (bigCall len).ts) (last := last) ok.id
  have h3 : s.params = [.strNo] := by
    have := ok.site
    simp only [bigCall, bigSites, List.getElem?_cons_succ, List.getElem?_cons_zero,
      Option.some.injEq] at this
    subst this
    rfl
  have h4 : (itemStrs (items s.params initPrecision (bigCall len).args)).length = len + 1 := by
    rw [h3]
    simp [bigCall, items, itemStrs, ParamType.code, getArgSize, truncLen, strBody, Arg.ty,
      ATy.charWidth]
  rw [h4] at h1
  simp only [msgOut, List.length_append]
  omega

theorem oversized_length {n len N last : Nat} {body : List Byte}
    (h : Encoded (bigSites n) last (List.replicate N (smallCall n) ++ [bigCall len]) body) :
    N * (3 + (n + 1) / 2 + n) + (4 + len) ≤ body.length := by
  induction N generalizing last body with
  | zero =>
    simp only [List.replicate_zero, List.nil_append] at h
    cases h with
    | @cons _ junk _ s _ bs ok hm ht =>
      have := bigCall_out ok hm junk last
      simp only [List.length_append]; omega
  | succ N ih =>
    simp only [List.replicate_succ, List.cons_append] at h
    cases h with
    | @cons _ junk _ s _ bs ok hm ht =>
      have h1 := smallCall_out ok hm junk last
      have h2 := ih ht
      simp only [List.length_append]
      rw [Nat.succ_mul]; omega

theorem replicate_split {α : Type} {N : Nat} {a b c : α} {pre suf : List α}
    (h : List.replicate N a ++ [b] = pre ++ c :: suf) :
    pre = List.replicate pre.length a ∧ (pre.length < N ∧ c = a ∨ pre.length = N ∧ c = b) := by
  have hlen := congrArg List.length h
  simp only [List.length_append, List.length_replicate, List.length_cons,
    List.length_nil] at hlen
  have hle : pre.length ≤ N := by omega
  have h1 := congrArg (List.take pre.length) h
  rw [List.take_append_of_le_length (by rw [List.length_replicate]; exact hle), List.take_left,
    List.take_replicate, Nat.min_eq_left hle] at h1
  refine ⟨h1.symm, ?_⟩
  have h2 := congrArg (fun l => l[pre.length]?) h
  simp only [List.getElem?_append_right (Nat.le_refl _), Nat.sub_self,
    List.getElem?_cons_zero] at h2
  rcases Nat.lt_or_ge pre.length N with hlt | hge
  · rw [List.getElem?_append_left (by rw [List.length_replicate]; exact hlt)] at h2
    simp only [List.getElem?_replicate, hlt, if_true, Option.some.injEq] at h2
    exact .inl ⟨hlt, h2.symm⟩
  · have he : pre.length = N := by omega
    rw [List.getElem?_append_right (by rw [List.length_replicate]; exact hge)] at h2
    simp only [List.length_replicate, he, Nat.sub_self, List.getElem?_cons_zero,
      Option.some.injEq] at h2
    exact .inr ⟨he, h2.symm⟩

theorem readBufferExtent_too_long (bf : BufFrag) {tid : Nat} (np : Bool) (body rest : List Byte)
    (ht : tid < 2 ^ 32) (hlen : bf.stor.length < (extentBytes tid np body).length)
    (h32 : (extentBytes tid np body).length < 2 ^ 32) :
    ∃ np' bf' f', readBufferExtent bf ⟨extentBytes tid np body ++ rest, false⟩ =
      some (false, np', bf', f') := by
  obtain ⟨b, hb, he, -⟩ := extent_first tid np ht
  have hl := extentBytes_length tid np body
  generalize hL : extentHeaderSize tid + body.length = L at *
  have hhdr : extentBytes tid np body ++ rest =
      (b :: le 4 L) ++ (((extentId tid).2.2 ++ body) ++ rest) := by
    rw [hb, hL]; simp
  have hul : unle (le 4 L) = L := unle_le_of_lt (by simp; omega)
  rw [readBufferExtent, hhdr, read_append' _ _ _ (by simp [le_length])]
  simp only
  rw [if_pos (.inr (.inr (by rw [hul]; omega)))]
  exact ⟨_, _, _, rfl⟩

/-- C17 needs its bound on the size of messages.  With the constants of runtime/Config.h:
1941 messages with 254 `%hhd` arguments each (270 bytes per message, within the limit of
half the staging buffer) followed by one message of exactly half the staging buffer size, all
together in the 1 MB staging buffer.  They are encoded into one extent, which the decoder
rejects: all of them are lost. -/
theorem C17_oversized_false :
    let sites := bigSites 254
    let cs := List.replicate 1941 (smallCall 254) ++ [bigCall 524268]
    queueSize sites cs < 2 ^ 20 ∧ (∀ c ∈ cs, callSize sites c ≤ 2 ^ 19) ∧
    ∃ out, encodeLogMsgs Config.default (fun _ => 0) sites Config.default.output
        (queueBytes sites cs) Config.default.release 1 true =
        some (out, (queueSize sites cs : Int)) ∧
      ∀ (bf : BufFrag) (rest : List Byte), bf.stor.length = Config.default.staging + 9 →
        ∃ np' bf' f', readBufferExtent bf ⟨out ++ rest, false⟩ = some (false, np', bf', f') := by
  intro sites cs
  obtain ⟨s0, ok0, hm0, hp0, -⟩ := smallCall_ok 254 (by decide)
  obtain ⟨s1, ok1, hm1, hp1, hz1⟩ := bigCall_ok 254 524268 (by decide)
  have hs0 : callSize sites (smallCall 254) = 270 := by
    rw [callSize_eq ok0, smallCall_size 254 s0 hp0]
  have hs1 : callSize sites (bigCall 524268) = 524288 := by rw [callSize_eq ok1, hz1]
  have hrep : ∀ k, queueSize sites (List.replicate k (smallCall 254)) = 270 * k := by
    intro k
    induction k with
    | zero => rfl
    | succ k ih =>
      simp only [queueSize, List.replicate_succ, List.map_cons, List.sum_cons, hs0] at ih ⊢
      omega
  have happ : ∀ a b, queueSize sites (a ++ b) = queueSize sites a + queueSize sites b := by
    intro a b; simp [queueSize]
  have hone : queueSize sites [bigCall 524268] = 524288 := by
    simp [queueSize, hs1]
  have htot : queueSize sites cs = 1048358 := by
    simp only [cs]
    rw [happ, hrep, hone]
  have hmem : ∀ c ∈ cs, c = smallCall 254 ∨ c = bigCall 524268 := by
    intro c hc
    simp only [cs, List.mem_append, List.mem_singleton] at hc
    rcases hc with hc | hc
    · exact .inl (List.eq_of_mem_replicate hc)
    · exact .inr hc
  have hq : Queue sites cs := by
    intro c hc
    rcases hmem c hc with rfl | rfl
    · exact ⟨s0, ok0, hm0⟩
    · exact ⟨s1, ok1, hm1⟩
  refine ⟨by rw [htot]; decide, ?_, ?_⟩
  · intro c hc
    rcases hmem c hc with rfl | rfl
    · rw [hs0]; decide
    · rw [hs1]; decide
  have hrel : Config.default.release = 524288 := rfl
  have hout : Config.default.output = 67108864 := rfl
  have hstg : Config.default.staging = 1048576 := rfl
  obtain ⟨pre, suf, body, q1, q2, q3, q4, q5, -⟩ := encodeLogMsgs_queue Config.default (fun _ => 0)
    (List.prefix_refl sites) [] cs hq Config.default.output Config.default.release 1 true
    (by decide) (by decide) (by rw [htot, hrel]; decide)
  rw [List.append_nil] at q2
  have hbl := q3.length_le2
  have hxl := extentBytes_length 1 true body
  have hh := extentHeaderSize_le (tid := 1) (by decide)
  have hsplit := congrArg (queueSize sites) q1
  rw [htot, happ] at hsplit
  have hsuf : suf = [] := by
    cases suf with
    | nil => rfl
    | cons c suf =>
      exfalso
      obtain ⟨p1, p2⟩ := replicate_split q1
      have hps : queueSize sites pre = 270 * pre.length := by
        have := hrep pre.length
        rw [← p1] at this; exact this
      simp only [StopsAt, hrel, hout, hstg, hps] at q5
      rw [hps] at hbl
      rcases p2 with ⟨p2, rfl⟩ | ⟨p2, rfl⟩
      · have hid : (smallCall 254).id < sites.length := by decide
        rw [hs0] at q5
        omega
      · have hid : (bigCall 524268).id < sites.length := (by decide : 1 < 2)
        rw [hs1] at q5
        omega
  subst hsuf
  rw [List.append_nil] at q1
  subst q1
  refine ⟨_, q2, ?_⟩
  intro bf rest hbf
  have hlong := oversized_length (n := 254) (len := 524268) (N := 1941) q3
  rw [htot] at hbl
  exact readBufferExtent_too_long bf true body rest (by decide) (by omega) (by omega)

/-! ## C21 -/

/-- **C21** (partial), one entry: file name, line, severity and format string are recovered
exactly, anything may follow.  Missing: names and formats of 65535 or more bytes, see
`C21_long_string_false`. -/
theorem C21_entry_round_trip_partial {i : LogInfo} (hf : i.Fits) (rest : List Byte) (e : Bool) :
    readLogInfo ⟨logInfoBytes i ++ rest, e⟩ =
      some (some (i, (logInfoBytes i).length), ⟨rest, e⟩) := by
  rw [readLogInfo_ok hf, logInfoBytes_length]

example : exSite0.info.Fits := exSite0_supported.fits

theorem fragText_attachTail (cs : List (Conv × List Byte)) (t : List Byte) :
    fragText (formatFrags (attachTail cs t)) = cs.flatMap (·.2) ++ t := by
  induction cs with
  | nil => simp [attachTail, fragText, formatFrags, Piece.frag]
  | cons c cs ih =>
    cases cs with
    | nil => simp [attachTail, fragText, formatFrags, Piece.frag]
    | cons d cs =>
      simp only [attachTail, fragText, formatFrags, List.map_cons, List.flatMap_cons,
        List.append_assoc] at ih ⊢
      rw [ih]
      simp [Piece.frag]

theorem splitConvs_flat (is : List FItem) (acc : List Byte) :
    (splitConvs acc is).1.flatMap (·.2) ++ (splitConvs acc is).2 = acc ++ render is := by
  induction is generalizing acc with
  | nil => simp [splitConvs, render]
  | cons i is ih =>
    cases i with
    | text b =>
      simp only [splitConvs, ih]; simp [render]
    | pct =>
      simp only [splitConvs, ih]; simp [render]
    | conv c =>
      have := ih []
      simp only [splitConvs, List.flatMap_cons, List.append_assoc, this]
      simp [render, FItem.bytes]

theorem fragText_pieces (is : List FItem) : fragText (formatFrags (pieces is)) = render is := by
  rw [pieces, fragText_attachTail, splitConvs_flat]
  simp

/-- **C21** (partial), whole fragments and the dictionary built from them.  Let a dictionary
describe the first `pos` statements.  After the encoder appended a fragment with as many of
the following statements as fit into `space` bytes, and the decoder read it, every statement
written so far is found under its id with its own file, line, severity and format text.
Missing: formats outside the grammar both parsers understand (`C21_bad_format_false`). -/
theorem C21_fragment_round_trip_partial {sites : List Site} (hs : SitesOK sites)
    {space pos : Nat} (hp : pos ≤ sites.length) (hsp : 8 < space) (hsp' : space < 2 ^ 30)
    {d : Dict} (hd : Describes d (sites.take pos)) (rest : List Byte) :
    ∃ pos' d', pos ≤ pos' ∧ pos' ≤ sites.length ∧
      (encodeDict space pos (sites.map Site.info)).1 = pos' ∧
      readDictionaryFragment d ⟨(encodeDict space pos (sites.map Site.info)).2 ++ rest, false⟩ =
        some (true, d', ⟨rest, false⟩) ∧ Describes d' (sites.take pos') ∧
      ∀ j s, j < pos' → sites[j]? = some s → ∃ m, d'.lookup j = some m ∧ m.file = s.info.file ∧
        m.line = s.info.line ∧ m.level = s.info.sev ∧ fragText m.frags = s.info.fmt := by
  obtain ⟨pos', p1, p2, p3, p4⟩ := encodeDict_eq sites space pos hp hsp
  have hn : AllSupported ((sites.take pos').drop pos) := fun s h =>
    hs s (List.mem_of_mem_take (List.mem_of_mem_drop h))
  obtain ⟨d', h1, h2⟩ := readDictionaryFragment_ok hn pos' (by omega) d hd rest
  have hcat : sites.take pos ++ (sites.take pos').drop pos = sites.take pos' := by
    have : sites.take pos = (sites.take pos').take pos := by
      rw [List.take_take]; congr 1; omega
    rw [this, List.take_append_drop]
  rw [hcat] at h2
  refine ⟨pos', d', p2, p1, by rw [p3], by rw [p3]; exact h1, h2, ?_⟩
  intro j s hj hjs
  have hjt : (sites.take pos')[j]? = some s := by
    rw [List.getElem?_take_of_lt hj]; exact hjs
  obtain ⟨is, sup⟩ := hs s (List.mem_of_getElem? hjs)
  refine ⟨_, by rw [h2.lookup hjt]; exact microOf_supported sup, rfl, rfl, rfl, ?_⟩
  rw [sup.fmt]
  exact fragText_pieces is

example : SitesOK exSites ∧ 1 ≤ exSites.length ∧ (∃ d, Describes d (exSites.take 1)) ∧
    (encodeDict 100 1 (exSites.map Site.info)).1 = 2 :=
  ⟨exSites_ok, by decide, ⟨_, describes_empty.add exSite0_supported⟩, by decide +kernel⟩

theorem takeCStr_length {l s r : List Byte} (h : takeCStr l = some (s, r)) :
    s.length < l.length := by
  induction l generalizing s with
  | nil => simp [takeCStr] at h
  | cons b l ih =>
    simp only [takeCStr] at h
    split at h
    · simp at h; rw [h.1]; simp
    · cases ht : takeCStr l with
      | none => simp [ht] at h
      | some p =>
        simp only [ht, Option.map_some, Option.some.injEq, Prod.mk.injEq] at h
        have := ih (s := p.1) (by rw [ht, ← h.2])
        rw [← h.1]; simp; exact this

/-- C21 is false for long strings: no file name or format string of 65535 or more bytes is
ever recovered, whatever follows in the file (the length fields have 16 bits). -/
theorem C21_long_string_false (i : LogInfo)
    (hl : 65535 ≤ i.file.length ∨ 65535 ≤ i.fmt.length) (rest : List Byte) (e : Bool)
    (j : LogInfo) (n : Nat) (f : FileSt)
    (h : readLogInfo ⟨logInfoBytes i ++ rest, e⟩ = some (some (j, n), f)) : j ≠ i := by
  rintro rfl
  unfold readLogInfo at h
  generalize hr : FileSt.read 9 ⟨logInfoBytes j ++ rest, e⟩ = r at h
  obtain ⟨cli, f1⟩ := r
  simp only at h
  split at h
  · simp at h
  rename_i hc9
  have hu : ∀ l : List Byte, l.length ≤ 2 → unle l < 65536 := by
    intro l hl
    have h1 := unle_lt l
    have h2 : 256 ^ l.length ≤ 256 ^ 2 := Nat.pow_le_pow_right (by omega) hl
    omega
  replace hc9 : cli.length = 9 := by omega
  have u1 := hu ((cli.drop 5).take 2) (by simp; omega)
  have u2 := hu (cli.drop 7) (by simp [hc9])
  have hrl : ∀ (k : Nat) (g : FileSt), (g.read k).1.length ≤ k := by
    intro k g
    unfold FileSt.read
    split
    · simp; omega
    · simp only; omega
  have r1 := hrl (unle ((cli.drop 5).take 2)) f1
  generalize f1.read (unle ((cli.drop 5).take 2)) = r at h r1
  obtain ⟨fb, f2⟩ := r
  simp only at h r1
  have r2 := hrl (unle (cli.drop 7)) f2
  generalize f2.read (unle (cli.drop 7)) = r at h r2
  obtain ⟨mb, f3⟩ := r
  simp only at h r2
  split at h
  · simp at h
  · split at h
    · rename_i a b c d h1 h2
      simp only [Option.some.injEq, Prod.mk.injEq] at h
      have l1 := takeCStr_length h1
      have l2 := takeCStr_length h2
      have e1 := congrArg LogInfo.file h.1.1
      have e2 := congrArg LogInfo.fmt h.1.1
      simp only at e1 e2
      rw [e1] at l1
      rw [e2] at l2
      omega
    · simp at h

/-- C21 is false for formats `createMicroCode` rejects although they compile: a statement
with format `"%hs"` and a statement `"ok"` after it.  The result of `createMicroCode` is
ignored, so after reading both entries the first id leads to the second statement. -/
theorem C21_bad_format_false :
    let bad : LogInfo := ⟨asc "a.cc", 1, 1, asc "%hs"⟩
    let good : LogInfo := ⟨asc "b.cc", 2, 2, asc "ok"⟩
    bad.Fits ∧ good.Fits ∧ (analyze bad.fmt).isSome ∧
    ∃ d f m, readDictionaryFragment Dict.empty
        ⟨(encodeDict 100 0 [bad, good]).2, false⟩ = some (true, d, f) ∧
      d.lookup 0 = some m ∧ m.file = good.file ∧ m.line = good.line := by
  refine ⟨⟨by decide, by decide, by decide, by decide, by decide, by decide⟩,
    ⟨by decide, by decide, by decide, by decide, by decide, by decide⟩, by decide +kernel,
    _, _, _, by rfl, by rfl, by rfl, by rfl⟩

end NanoLog
