import Verif.PreText

/-!
# Properties C49 and C50: preprocessor mode

**C49**: the dictionary that the generated code writes at the start of a log file is read back as the
static information of the statements.

**C50**: a log file written in preprocessor mode, by one or more executions of a program, is decoded to
the messages logged, in the order in which they were handed to the encoder.
-/

namespace NanoLog

/-! ## C49 -/

/-- A statement whose static information the dictionary can hold.  Its format is a literal of the C
grammar with elements `l`, without null character; the file name is plain text; lengths and counters fit
the fields. -/
structure PStmt.OK (s : PStmt) (l : List LitItem) : Prop where
  lit : LitWF l
  range : ∀ i ∈ l, i.InRange
  src : s.fmt = litSrc l
  nul : ∀ i ∈ l, i.value ≠ 0
  len : l.length + 1 < 2 ^ 16
  file : ch '\\' ∉ s.file ∧ 0 ∉ s.file
  fileLen : s.file.length + 1 < 2 ^ 16
  line : s.line < 2 ^ 32
  level : s.level < 256
  count : ∀ fs, pySplit s.fmt = some fs → fs.length < 256 ∧ pyNibbles fs < 256

/-- The decoder's information `m` about statement `s` with a format that denotes the text `v`: context,
the conversions found by the preprocessor, and fragments whose texts make up the format. -/
structure DescribesP (s : PStmt) (v : List Byte) (m : Meta) : Prop where
  file : m.file = s.file
  line : m.line = s.line
  level : m.level = s.level
  text : (m.frags.map Frag.text).flatten = v
  kinds : ∃ fs gs, pySplit s.fmt = some fs ∧ pyFrags fs = some gs ∧ m.numNibbles = pyNibbles fs ∧
    m.frags.map (fun f => (f.ty, f.dynW, f.dynP)) = gs.map fun f => (f.ty, f.dynW, f.dynP)

theorem litFrags_kinds : ∀ {gs hs : List Frag}, litFrags gs = some hs →
    hs.map (fun f => (f.ty, f.dynW, f.dynP)) = gs.map fun f => (f.ty, f.dynW, f.dynP) := by
  intro gs
  induction gs with
  | nil => intro hs h; cases h; rfl
  | cons g gs ih =>
    intro hs h
    obtain ⟨t, gs', h1, h2, rfl⟩ := litFrags_cons h
    rw [List.map_cons, List.map_cons, ih h2]

theorem entry_ok {s : PStmt} {l : List LitItem} (ok : s.OK l) {e : PEntry} (h : s.entry = some e) :
    e.Fits ∧ DescribesP s (l.map LitItem.value) e.info := by
  obtain ⟨fs, gs, name, frags, h1, h2, h3, h4, rfl⟩ := entry_inv h
  obtain ⟨init, t, p1, p2, p3⟩ := pySplit_pieces h1
  rw [cLit_plain ok.file.1] at h3
  obtain rfl := Option.some.inj h3
  have hv := cLit_grammar ok.lit ok.range
  rw [← ok.src, p2] at hv
  obtain ⟨hs, q1, q2, q3⟩ := pieces_lit t init p3 gs (by rw [pyFrags_text h2, p1]) _ hv
  rw [h4] at q1
  obtain rfl := Option.some.inj q1
  have hlen : gs.length = fs.length := by
    have := congrArg List.length (pyFrags_text h2); simpa using this
  obtain ⟨c1, c2⟩ := ok.count fs h1
  have hfr : ∀ f ∈ frags, ∀ b ∈ f.text, b ∈ l.map LitItem.value := by
    intro f hf b hb
    rw [← q2, List.mem_flatten]
    exact ⟨f.text, List.mem_map_of_mem hf, hb⟩
  have hle : ∀ f ∈ frags, f.text.length ≤ l.length := by
    intro f hf
    have e1 : (l.map LitItem.value).length = l.length := by simp
    rw [← e1, ← q2]
    exact (List.sublist_flatten_of_mem (List.mem_map_of_mem hf)).length_le
  refine ⟨⟨c2, by rw [q3, hlen]; exact c1, ok.level, ok.line, rfl, ok.fileLen, ok.file.2, ?_⟩,
    ⟨rfl, rfl, rfl, q2, fs, gs, h1, h2, rfl, litFrags_kinds h4⟩⟩
  intro f hf
  refine ⟨by have := hle f hf; have := ok.len; omega, fun h0 => ?_⟩
  obtain ⟨i, i1, i2⟩ := List.mem_map.1 (hfr f hf 0 h0)
  exact ok.nul i i1 i2

/-- All statements of a program are fine; `ls` are the elements of their formats. -/
def StmtsOK (ss : List PStmt) (ls : List (List LitItem)) : Prop := All2 PStmt.OK ss ls

theorem stmts_fit : ∀ {ss : List PStmt} {ls}, StmtsOK ss ls → ∀ {es}, entriesOf ss = some es →
    (∀ e ∈ es, e.Fits) ∧ All2 (fun (p : PStmt × List LitItem) e => DescribesP p.1 (p.2.map LitItem.value) e.info)
      (ss.zip ls) es := by
  intro ss ls h
  induction h with
  | nil => intro es h; cases h; exact ⟨by simp, .nil⟩
  | @cons s l ss ls ok hss ih =>
    intro es h
    rw [entriesOf] at h
    cases h1 : s.entry with
    | none => rw [h1] at h; cases h
    | some e =>
      cases h2 : entriesOf ss with
      | none => rw [h1, h2] at h; cases h
      | some es' =>
        rw [h1, h2] at h
        obtain rfl := Option.some.inj h
        obtain ⟨i1, i2⟩ := ih h2
        obtain ⟨e1, e2⟩ := entry_ok ok h1
        refine ⟨fun x hx => ?_, .cons e2 i2⟩
        rcases List.mem_cons.1 hx with rfl | hx
        · exact e1
        · exact i1 x hx

theorem all2_getElem {α β : Type} {R : α → β → Prop} {as : List α} {bs : List β} (h : All2 R as bs) :
    as.length = bs.length ∧ ∀ (i : Nat) a, as[i]? = some a → ∃ b, bs[i]? = some b ∧ R a b := by
  induction h with
  | nil => simp
  | @cons a b as bs hab h ih =>
    refine ⟨by simp [ih.1], fun i x hx => ?_⟩
    cases i with
    | zero => simp at hx; subst hx; exact ⟨b, rfl, hab⟩
    | succ i => simpa using ih.2 i x (by simpa using hx)

/-- **C49** (partial: for statements that `PStmt.OK` describes).  A new decoder that reads the
checkpoint and dictionary written by the generated code learns the checkpoint times and, for every
identifier, the static information of its statement; identifiers beyond the last have none; what follows in
the file is not touched.  `junk`, `j` are old contents of the output buffer, `raw` of the decoder's
memory. -/
theorem C49_dictionary_partial {ss : List PStmt} {ls : List (List LitItem)} (hok : StmtsOK ss ls)
    {es : List PEntry} (hes : entriesOf ss = some es) {junk : Nat → Nat} {j space : Nat} {c : Checkpoint}
    {b : List Byte} (hb : checkpointP junk j space c es = some b) (hc : c.TimesOK) (hs : space < 2 ^ 32)
    (raw : List Byte) (hr : 2 * space ≤ raw.length) (ck : Checkpoint) (rest : List Byte) (e : Bool) :
    ∃ c' d, readDictP ck ⟨raw, 0, []⟩ ⟨b ++ rest, e⟩ = some (true, c', d, ⟨rest, e⟩) ∧ SameTimes c c' ∧
      (∀ (i : Nat) (s : PStmt) (l : List LitItem), ss[i]? = some s → ls[i]? = some l →
        ∃ m, d.lookup i = some m ∧ DescribesP s (l.map LitItem.value) m) ∧
      ∀ i, ss.length ≤ i → d.lookup i = none := by
  obtain ⟨f1, f2⟩ := stmts_fit hok hes
  obtain ⟨c', d, r1, r2, r3, -, -⟩ := readDictP_ok f1 hb hc hs (d := ⟨raw, 0, []⟩) (.inl rfl) hr ck rest e
  refine ⟨c', d, r1, r2, ?_, ?_⟩
  · intro i s l hi hl
    obtain ⟨en, e1, e2⟩ := (all2_getElem f2).2 i (s, l) (by rw [List.getElem?_zip_eq_some]; exact ⟨hi, hl⟩)
    exact ⟨en.info, r3.lookup e1, e2⟩
  · intro i hi
    have hl : d.ptrs.length = es.length := by
      have := congrArg List.length r3; simpa using this
    have hn : d.ptrs[i]? = none := by
      rw [List.getElem?_eq_none_iff, hl, (entriesOf_get hes).1]; exact hi
    simp only [PDict.lookup, hn]

theorem entries_name {ss : List PStmt} : ∀ {es}, entriesOf ss = some es → ∀ e ∈ es, e.name.length < e.nameLen := by
  induction ss with
  | nil => intro es h; cases h; simp
  | cons s ss ih =>
    intro es h e he
    rw [entriesOf] at h
    cases h1 : s.entry with
    | none => rw [h1] at h; cases h
    | some e' =>
      cases h2 : entriesOf ss with
      | none => rw [h1, h2] at h; cases h
      | some es' =>
        rw [h1, h2] at h
        obtain rfl := Option.some.inj h
        rcases List.mem_cons.1 he with rfl | he
        · obtain ⟨fs, gs, name, frags, -, -, h3, -, rfl⟩ := entry_inv h1
          have := cLit_length h3
          simp only; omega
        · exact ih h2 e he

/-- **C49**, writing: for any statements the preprocessor accepts, the generated code never writes beyond
the end of the buffer, although it tests the space before it knows the strings. -/
theorem C49_no_overrun {ss : List PStmt} {es : List PEntry} (hes : entriesOf ss = some es)
    {junk : Nat → Nat} {j space : Nat} {c : Checkpoint} (hf : c.freq.length = 8) {b : List Byte}
    (hb : checkpointP junk j space c es = some b) : b.length ≤ space := by
  unfold checkpointP at hb
  split at hb
  · cases hb
  · cases hw : writeDict junk (space - 40) es with
    | none => rw [hw] at hb; cases hb
    | some bs =>
      rw [hw] at hb
      obtain rfl := Option.some.inj hb
      have := (writeDict_size junk es (entries_name hes) _ _ hw).2
      rw [List.length_append]
      have h40 : (checkpointBytes j { c with newBytes := bs.length % 2 ^ 32, total := es.length % 2 ^ 32 }).length = 40 := by
        simp [checkpointBytes, hf]
      omega

/-- **C49**, literals: the compiler model used for the texts agrees with the C grammar of literals. -/
theorem C49_literal {l : List LitItem} (h : LitWF l) (hr : ∀ i ∈ l, i.InRange) :
    cLit (litSrc l) = some (l.map LitItem.value) := cLit_grammar h hr

/-! ## C50 -/

/-- The run of the encoder on operations that meet the requirements. -/
theorem runP_holds {cfg : Config} {es : List PEntry} {fns : GenFns}
    {ck : Option Checkpoint} {e : Bool} {ops : List POp} (h : OpsP cfg es fns ck e ops) (st : PSt)
    (he : e = true → st.buf = []) :
    ∃ st' ns l X, PSt.run cfg es fns st ops = some (st', ns) ∧ ConsumedP fns ck ops ns l ∧
      st'.file ++ st'.buf = st.file ++ st.buf ++ X ∧
      HoldsP es fns cfg.output (cfg.staging + 9) ck X l := by
  induction h generalizing st with
  | nil => exact ⟨st, [], [], [], rfl, .nil, by simp, .nil⟩
  | @start ck junk j c ops hc hj hfit h ih =>
    obtain ⟨b, hb⟩ := hfit
    have h0 := he rfl
    obtain ⟨st', ns, l, X, i1, i2, i3, i4⟩ := ih ⟨st.file, b⟩ (by simp)
    refine ⟨st', ns, l, b ++ X, ?_, .start i2, ?_, .ckpt hc hb i4⟩
    · rw [PSt.run, PSt.step, if_neg (by simp [h0]), hb]
      simp [i1]
    · rw [i3, h0]; simp
  | @flush ck e ops h ih =>
    obtain ⟨st', ns, l, X, i1, i2, i3, i4⟩ := ih ⟨st.file ++ st.buf, []⟩ (fun _ => rfl)
    refine ⟨st', ns, l, X, ?_, .flush i2, by simpa using i3, i4⟩
    rw [PSt.run, PSt.step]
    simp [i1]
  | @batch ck e junk cs q more nbytes tid np ops hq hlim hhalf hsmall ht h ih =>
    by_cases h9 : 9 > cfg.output - st.buf.length
    · obtain ⟨st', ns, l, X, i1, i2, i3, i4⟩ := ih ⟨st.file, st.buf⟩ (by simp)
      refine ⟨st', 0 :: ns, l, X, ?_, ?_, i3, i4⟩
      · rw [PSt.run, PSt.step, encodeLogMsgsP, if_pos h9]
        simp [i1]
      · simpa [pSizes] using ConsumedP.batch (junk := junk) (cs := cs) (mem := q ++ more) (nbytes := nbytes)
          (tid := tid) (np := np) (k := 0) (by omega) i2
    · obtain ⟨k, body, k1, k2, k3, k4, k5, -⟩ := encodeLogMsgsP_queue cfg junk more hq
        (cfg.output - st.buf.length) nbytes tid np ht (by omega) hlim hsmall
      obtain ⟨st', ns, l, X, i1, i2, i3, i4⟩ := ih ⟨st.file, st.buf ++ extentBytes tid np body⟩ (by simp)
      have hl := extentBytes_length tid np body
      have hh := extentHeaderSize_le ht
      refine ⟨st', (pSizes fns (cs.take k) : Int) :: ns, _, extentBytes tid np body ++ X, ?_, .batch k1 i2,
        by rw [i3]; simp, .ext k3 ht (by omega) i4⟩
      rw [PSt.run, PSt.step, k2]
      simp [i1]

/-- What is in the file after one or more executions. -/
theorem runP_file {es : List PEntry} {fns : GenFns} (cfg : Config) {junk : Nat → Nat} {j : Nat} {c : Checkpoint}
    {ops : List POp} (h : OpsP cfg es fns none true (.start junk j c :: ops ++ [.flush])) :
    ∃ st ns l b X, PSt.run cfg es fns ⟨[], []⟩ (.start junk j c :: ops ++ [.flush]) = some (st, ns) ∧
      ConsumedP fns none (.start junk j c :: ops ++ [.flush]) ns l ∧ st.buf = [] ∧ c.TimesOK ∧
      checkpointP junk j cfg.output c es = some b ∧ st.file = b ++ X ∧
      HoldsP es fns cfg.output (cfg.staging + 9) (some c) X l := by
  rw [List.cons_append] at h ⊢
  cases h with
  | start hc hj hfit h =>
  obtain ⟨b, hb⟩ := hfit
  obtain ⟨st, ns, l, X, i1, i2, i3, i4⟩ := runP_holds h ⟨[], b⟩ (by simp)
  have hrun : PSt.run cfg es fns ⟨[], []⟩ (.start junk j c :: (ops ++ [.flush])) = some (st, ns) := by
    rw [PSt.run, PSt.step, if_neg (by simp), hb]
    simp [i1]
  have hbuf : st.buf = [] := by
    have key : ∀ (os : List POp) (s0 s1 : PSt) (n : List Int),
        PSt.run cfg es fns s0 (os ++ [.flush]) = some (s1, n) → s1.buf = [] := by
      intro os
      induction os with
      | nil =>
        intro s0 s1 n h
        simp only [List.nil_append, PSt.run, PSt.step, Option.map_some, Option.some.injEq, Prod.mk.injEq] at h
        rw [← h.1]
      | cons o os ih =>
        intro s0 s1 n h
        rw [List.cons_append, PSt.run] at h
        cases h1 : s0.step cfg es fns o with
        | none => rw [h1] at h; cases h
        | some p =>
          rw [h1] at h
          simp only at h
          cases h2 : PSt.run cfg es fns p.1 (os ++ [.flush]) with
          | none => rw [h2] at h; cases h
          | some r =>
            rw [h2] at h
            simp only [Option.map_some, Option.some.injEq, Prod.mk.injEq] at h
            rw [← h.1]
            exact ih p.1 r.1 r.2 h2
    exact key _ _ _ _ i1
  refine ⟨st, ns, l, b, X, hrun, .start i2, hbuf, hc, hb, ?_, i4⟩
  rw [hbuf, List.append_nil, List.nil_append] at i3
  exact i3

/-- **C50** (partial: for statements that `PStmt.OK` describes, sizes in range, one program).  One or more
executions of a program in preprocessor mode, each beginning with a checkpoint and dictionary, write a
log file: no operation has undefined behaviour, and the decoder reads the file without error and prints
exactly the calls consumed, in order, each with its thread, time stamp, checkpoint times, context, the text
of its format, and arguments `printf` cannot tell from those of the call.  `raw` and `bf` are arbitrary
old contents of the decoder's memory. -/
theorem C50_file_partial {ss : List PStmt} {ls : List (List LitItem)} (hok : StmtsOK ss ls)
    {es : List PEntry} {fns : GenFns} (hp : Program ss es fns) (cfg : Config) (ho : cfg.output < 2 ^ 32)
    (hs : cfg.staging + 9 < 2 ^ 32) {junk : Nat → Nat} {j : Nat} {c : Checkpoint} {ops : List POp}
    (h : OpsP cfg es fns none true (.start junk j c :: ops ++ [.flush])) :
    ∃ st ns l, PSt.run cfg es fns ⟨[], []⟩ (.start junk j c :: ops ++ [.flush]) = some (st, ns) ∧
      ConsumedP fns none (.start junk j c :: ops ++ [.flush]) ns l ∧ st.buf = [] ∧
      ∀ (raw : List Byte) (bf : BufFrag), 2 * cfg.output ≤ raw.length → bf.stor.length = cfg.staging + 9 →
        ∃ ms, decodeFileP raw bf st.file = some (true, ms) ∧ All2 (PPrints ss) l ms := by
  obtain ⟨f1, -⟩ := stmts_fit hok hp.entries
  obtain ⟨st, ns, l, b, X, h1, h2, h3, hc, hb, i3, i4⟩ := runP_file cfg h
  refine ⟨st, ns, l, h1, h2, h3, ?_⟩
  intro raw bf hraw hbf
  obtain ⟨c', d, r1, r2, r3, r4, r5⟩ := readDictP_ok f1 hb hc ho (d := ⟨raw, 0, []⟩) (.inl rfl) hraw
    ⟨0, 0, [], 0, 0⟩ X false
  obtain ⟨s', ms, l1, l2, l3, l4⟩ := loopP_holds hp f1 ho hs i4 ⟨⟨X, false⟩, true, c', d, bf, []⟩ rfl rfl
    (fun c0 h0 => by cases h0; exact ⟨r2, r3⟩) r4 (by rw [r5]; exact hraw) hbf (st.file.length + 1)
    (by rw [i3]; simp; omega)
  refine ⟨ms, ?_, l4⟩
  rw [decodeFileP]
  rw [i3] at l1 ⊢
  rw [r1]
  simp only [l1, Option.map_some, l2, l3, List.nil_append]

/-- **C50**, progress: with an empty output buffer, a batch consumes its first message if the message is
within the limit and its worst case fits into the buffer. -/
theorem C50_progress (cfg : Config) (es : List PEntry) (fns : GenFns) (file : List Byte) (junk : Nat → Nat)
    {c : PCall} {cs : List PCall} {q : List Byte} (more : List Byte) (hq : QueuedP fns (c :: cs) q)
    {nbytes tid : Nat} (np : Bool) (ht : tid < 2 ^ 32) (hlim : nbytes ≤ pSizes fns (c :: cs))
    (hsmall : ∀ x ∈ c :: cs, pSize fns x < cfg.staging / 2) (hfirst : pSize fns c ≤ nbytes)
    (hroom : 2 * pSize fns c + 25 ≤ cfg.output) :
    ∃ st' n, PSt.step cfg es fns ⟨file, []⟩ (.batch junk (c :: cs) (q ++ more) nbytes tid np) =
      some (st', some n) ∧ (pSize fns c : Int) ≤ n := by
  obtain ⟨k, body, k1, k2, k3, k4, k5, k6⟩ := encodeLogMsgsP_queue cfg junk more hq
    cfg.output nbytes tid np ht (by omega) hlim hsmall
  refine ⟨⟨file, extentBytes tid np body⟩, _, by rw [PSt.step]; simp [k2]; rfl, ?_⟩
  cases k with
  | succ k =>
    rw [List.take_succ_cons, pSizes_cons]; push_cast; omega
  | zero =>
    exfalso
    cases k3
    have hl := extentBytes_length tid np []
    have hh := extentHeaderSize_le ht
    simp only [List.length_nil, Nat.add_zero] at hl
    cases hq with
    | cons ok hb hq =>
      have h16 := (encodeStepP_call cfg junk ok hb 0 0 0 []).2.1
      simp only [List.take_zero, List.drop_zero, StopsP] at k6
      have e0 : pSizes fns [] = 0 := rfl
      rw [e0, hl] at k6
      rcases k6 with k6 | ⟨k6, -⟩ | k6
      · simp at k6; omega
      · simp at k6; omega
      · omega

/-! ### Generated decompression functions -/

/-- Call `c` of thread `tid` decoded by a generated function. -/
inductive GShows (metas : List GMeta) : Nat × PCall → GMsg → Prop where
  | mk {tid c ctx vs} (hm : metas[c.id]? = some ctx) (ha : All2 Recovered c.args vs) :
      GShows metas (tid, c) ⟨tid, c.id, c.ts, ctx, vs⟩

theorem drainG_at {fns : GenFns} {metas : List GMeta} (hlen : metas.length = fns.length) (oob : Option GMeta)
    (tid : Nat) (cs : List PCall) (fuel : Nat) (hf : cs.length ≤ fuel) (bf : BufFrag) (out : List GMsg)
    (ha : AtP fns bf cs) (ht : bf.tid = tid) :
    ∃ ms bf', drainG fns metas oob fuel bf out = some (some (bf', out ++ ms)) ∧
      All2 (GShows metas) (cs.map (tid, ·)) ms := by
  induction cs generalizing fuel bf out with
  | nil =>
    have hm : bf.hasMore = false := ha
    exact ⟨[], bf, by cases fuel <;> simp [drainG, hm], .nil⟩
  | cons c cs ih =>
    cases fuel with
    | zero => simp at hf
    | succ fuel =>
      obtain ⟨hmore, hid, hts, fs, o, body, tail, ok, hg, hmem, hleft, henc⟩ := ha
      obtain ⟨vs, v1, v2⟩ := hg.gen (body ++ tail)
      obtain ⟨bf', n1, n2, n3, -⟩ := nextHeader_at hmem hleft (hts ▸ henc)
      have hlt : c.id < metas.length := by
        rw [hlen]; exact (List.getElem?_eq_some_iff.1 ok.fn).1
      have hctx : metas[c.id]? = some metas[c.id] := List.getElem?_eq_getElem hlt
      have hl0 : ¬ (bf.left < 0 ∨ bf.hasMore = false) := by simp [hmore, hleft]; omega
      have hstep : decompressNextG fns metas oob bf = some (some ⟨tid, c.id, c.ts, metas[c.id], vs⟩, bf') := by
        rw [decompressNextG, if_neg hl0, hid, hctx]
        simp only [ok.fn, hmem, v1, n1, Option.map_some, ht, hts]
      obtain ⟨ms, bf'', h6, h7⟩ := ih fuel (by simp at hf; omega) bf'
        (out ++ [⟨tid, c.id, c.ts, metas[c.id], vs⟩]) n2 (by rw [n3, ht])
      refine ⟨_ :: ms, bf'', ?_, .cons (.mk hctx v2) h7⟩
      simp only [drainG, hmore, if_true, hstep, Option.toList_some, h6]
      simp

/-- **C50**, generated functions: what `encodeLogMsgs` produces for a queue of messages is read back by the
generated decompression functions, with the context of each statement and all arguments. -/
theorem C50_generated (cfg : Config) (junk : Nat → Nat) {fns : GenFns} {metas : List GMeta}
    (hlen : metas.length = fns.length) (oob : Option GMeta) (more : List Byte) {cs : List PCall} {q : List Byte}
    (hq : QueuedP fns cs q) (space nbytes tid : Nat) (np : Bool) (ht : tid < 2 ^ 32) (hsp : 9 ≤ space)
    (hr : nbytes ≤ pSizes fns cs) (hsm : ∀ c ∈ cs, pSize fns c < cfg.staging / 2)
    (hs : cfg.staging + 9 < 2 ^ 32) (hhalf : nbytes ≤ cfg.staging / 2)
    (bf : BufFrag) (hbf : bf.stor.length = cfg.staging + 9) (rest : List Byte) :
    ∃ bytes k bf' ms, k ≤ cs.length ∧
      encodeLogMsgsP cfg junk fns space (q ++ more) nbytes tid np =
        some (bytes, (pSizes fns (cs.take k) : Int)) ∧
      readBufferExtent bf ⟨bytes ++ rest, false⟩ = some (true, np, bf', ⟨rest, false⟩) ∧
      (∃ bf'', drainG fns metas oob (bf'.mem.length + 1) bf' [] = some (some (bf'', ms))) ∧
      All2 (GShows metas) ((cs.take k).map (tid, ·)) ms := by
  obtain ⟨k, body, k1, k2, k3, k4, k5, k6⟩ := encodeLogMsgsP_queue cfg junk more hq space nbytes tid np ht hsp hr hsm
  have hl := extentBytes_length tid np body
  have hh := extentHeaderSize_le ht
  obtain ⟨bf', r1, r2, r3, r4⟩ := readBufferExtent_atP bf k3 np rest false ht (by omega) (by omega)
  obtain ⟨ms, bf'', q1, q2⟩ := drainG_at hlen oob tid (cs.take k) (bf'.mem.length + 1) r2.length_le bf' [] r2 r3
  exact ⟨_, k, bf', ms, k1, k2, r1, ⟨bf'', by simpa using q1⟩, q2⟩

/-- **C50** fails for damaged or foreign files with generated functions (compare C29): at a message whose
identifier has no generated function, the decoder reads beyond the array of contexts; if that goes well, it
returns without advancing, and the loop around it never ends, whatever the rest of the file. -/
theorem C50_unknown_id_false (fns : GenFns) (metas : List GMeta) (hlen : metas.length = fns.length)
    (bf : BufFrag) (hm : bf.hasMore = true) (hl : 0 ≤ bf.left) (hid : fns.length ≤ bf.id) :
    (∀ fuel, drainG fns metas none (fuel + 1) bf [] = none) ∧
    ∀ g fuel, drainG fns metas (some g) fuel bf [] = some none := by
  have h0 : ¬ (bf.left < 0 ∨ bf.hasMore = false) := by simp [hm]; omega
  have h1 : metas[bf.id]? = none := by rw [List.getElem?_eq_none_iff]; omega
  have h2 : fns[bf.id]? = none := by rw [List.getElem?_eq_none_iff]; omega
  constructor
  · intro fuel
    have hs : decompressNextG fns metas none bf = none := by rw [decompressNextG, if_neg h0, h1]
    simp only [drainG, hm, if_true, hs]
  · intro g fuel
    have hs : decompressNextG fns metas (some g) bf = some (none, bf) := by
      rw [decompressNextG, if_neg h0, h1]; simp only [h2]
    induction fuel with
    | zero => simp only [drainG, hm, if_true]
    | succ fuel ih =>
      simp only [drainG, hm, if_true, hs]
      exact ih

/-! ### A concrete case -/

/-- Text without special characters as elements of a literal. -/
def plains (s : List Byte) : List LitItem := s.map .plain

/-- No special characters. -/
def allPlain (s : List Byte) : Bool := s.all fun c => c ≠ ch '"' ∧ c ≠ ch '\\' ∧ c ≠ 10 ∧ c ≠ 0

theorem plains_ok {s : List Byte} (h : allPlain s = true) {l : List LitItem} (hl : LitWF l)
    (hr : ∀ i ∈ l, i.InRange) (hn : ∀ i ∈ l, i.value ≠ 0) :
    LitWF (plains s ++ l) ∧ (∀ i ∈ plains s ++ l, i.InRange) ∧ litSrc (plains s ++ l) = s ++ litSrc l ∧
      ∀ i ∈ plains s ++ l, i.value ≠ 0 := by
  induction s with
  | nil => exact ⟨hl, hr, rfl, hn⟩
  | cons c s ih =>
    simp only [allPlain, List.all_cons, Bool.and_eq_true, decide_eq_true_eq] at h
    obtain ⟨i1, i2, i3, i4⟩ := ih h.2
    refine ⟨⟨⟨h.1.1, h.1.2.1, h.1.2.2.1⟩, trivial, i1⟩, ?_, ?_, ?_⟩
    · intro i hi
      rcases List.mem_cons.1 hi with rfl | hi
      · trivial
      · exact i2 i hi
    · show litSrc (.plain c :: (plains s ++ l)) = _
      rw [litSrc_cons, i3]; rfl
    · intro i hi
      rcases List.mem_cons.1 hi with rfl | hi
      · exact h.1.2.2.2
      · exact i4 i hi

/-- Two statements: `"Start\n"` in line 10, and `"%s: %*d of %.*s %.2s %ls %Lf"` in line 300. -/
def exStmts : List PStmt :=
  [⟨asc "Start" ++ [ch '\\', ch 'n'], asc "main.cc", 10, 2⟩, ⟨exGenFmt, asc "lib/io.cc", 300, 1⟩]

/-- The elements of their formats. -/
def exElems : List (List LitItem) := [plains (asc "Start") ++ [.simple (ch 'n') 10], plains exGenFmt]

theorem exStmts_ok : StmtsOK exStmts exElems := by
  refine .cons ?_ (.cons ?_ .nil)
  · obtain ⟨h1, h2, h3, h4⟩ := plains_ok (s := asc "Start") (by decide) (l := [.simple (ch 'n') 10])
      ⟨by decide, trivial, trivial⟩ (by intro i hi; simp at hi; subst hi; trivial)
      (by intro i hi; simp at hi; subst hi; decide)
    refine ⟨h1, h2, h3.symm, h4, by decide, by decide, by decide, by decide, by decide, ?_⟩
    intro fs h
    have : pySplit (asc "Start" ++ [ch '\\', ch 'n']) = some [⟨none, .none, .none, asc "Start" ++ [ch '\\', ch 'n']⟩] := by
      decide +kernel
    have hh : pySplit (asc "Start" ++ [ch '\\', ch 'n']) = some fs := h
    rw [this] at hh
    obtain rfl := Option.some.inj hh
    decide +kernel
  · obtain ⟨h1, h2, h3, h4⟩ := plains_ok (s := exGenFmt) (by decide) (l := []) trivial (by simp) (by simp)
    rw [List.append_nil] at h1 h2 h3 h4
    refine ⟨h1, h2, by rw [h3]; simp [litSrc], h4, by decide, by decide, by decide, by decide, by decide, ?_⟩
    intro fs h
    have : pySplit exGenFmt = some exGenFs := by decide +kernel
    have hh : pySplit exGenFmt = some fs := h
    rw [this] at hh
    obtain rfl := Option.some.inj hh
    decide +kernel

/-- Their dictionary entries. -/
def exEntries : List PEntry :=
  [⟨0, 2, 10, 8, asc "main.cc", [⟨none, false, false, asc "Start" ++ [10]⟩]⟩,
   ⟨4, 1, 300, 10, asc "lib/io.cc",
    [⟨some .charPtr, false, false, asc "%s"⟩, ⟨some .int, true, false, asc ": %*d"⟩,
     ⟨some .charPtr, false, true, asc " of %.*s"⟩, ⟨some .charPtr, false, false, asc " %.2s"⟩,
     ⟨some .wcharPtr, false, false, asc " %ls"⟩, ⟨some .longDouble, false, false, asc " %Lf"⟩]⟩]

/-- Their generated functions. -/
def exFns : GenFns := [[⟨none, .none, .none, asc "Start" ++ [ch '\\', ch 'n']⟩], exGenFs]

theorem exProgram : Program exStmts exEntries exFns := ⟨by decide +kernel, by decide +kernel⟩

/-- Times of two executions. -/
def exTimes : Checkpoint := ⟨2000, 1700000000, [0, 0, 0, 0, 0, 0, 224, 65], 0, 0⟩
/-- Times of the second execution. -/
def exTimes' : Checkpoint := ⟨9000, 1700000777, [0, 0, 0, 0, 0, 0, 224, 65], 0, 0⟩

theorem exTimes_ok : exTimes.TimesOK ∧ exTimes'.TimesOK :=
  ⟨⟨by decide, by decide, rfl⟩, ⟨by decide, by decide, rfl⟩⟩

theorem exists_of_isSome {α : Type} {o : Option α} (h : o.isSome = true) : ∃ b, o = some b := by
  cases o with
  | none => cases h
  | some b => exact ⟨b, rfl⟩

theorem exFit : (∃ b, checkpointP (fun _ => 0) 0 Config.default.output exTimes exEntries = some b) ∧
    ∃ b, checkpointP (fun n => n) 5 Config.default.output exTimes' exEntries = some b :=
  ⟨exists_of_isSome (by decide +kernel), exists_of_isSome (by decide +kernel)⟩

/-- C49 applies to the two statements. -/
example (raw : List Byte) (hr : 2 * 2 ^ 26 ≤ raw.length) (rest : List Byte) :
    ∃ b c' d, checkpointP (fun n => n) 5 (2 ^ 26) exTimes' exEntries = some b ∧ b.length ≤ 2 ^ 26 ∧
      readDictP exTimes ⟨raw, 0, []⟩ ⟨b ++ rest, false⟩ = some (true, c', d, ⟨rest, false⟩) ∧
      c'.unixTime = 1700000777 ∧ d.lookup 2 = none ∧
      ∃ m, d.lookup 1 = some m ∧ m.line = 300 ∧ (m.frags.map Frag.text).flatten = exGenFmt := by
  obtain ⟨b, hb⟩ := exFit.2
  obtain ⟨c', d, h1, h2, h3, h4⟩ := C49_dictionary_partial exStmts_ok exProgram.entries hb exTimes_ok.2
    (by decide) raw hr exTimes rest false
  obtain ⟨m, m1, m2⟩ := h3 1 _ _ rfl rfl
  refine ⟨b, c', d, hb, C49_no_overrun exProgram.entries exTimes_ok.2.2.2 hb, h1, h2.2.1, h4 2 (by decide), m, m1, m2.line, ?_⟩
  rw [m2.text]; decide +kernel

/-- A call of the second statement. -/
def exPCall : PCall := ⟨1, 5000, exGenArgs⟩
/-- A call of the first. -/
def exPCall0 : PCall := ⟨0, 4000, []⟩

theorem exSize : pSize exFns exPCall = 68 ∧ pSize exFns exPCall0 = 16 := by decide +kernel

theorem exPCall_ok : exPCall.OK exFns exGenFs ∧
    exPCall0.OK exFns [⟨none, .none, .none, asc "Start" ++ [ch '\\', ch 'n']⟩] := by
  constructor
  · exact ⟨rfl, exGen_call, exGen_readable, by decide, by decide, by rw [exSize.1]; decide⟩
  · exact ⟨rfl, .text _, by simp [exPCall0], by decide, by decide, by rw [exSize.2]; decide⟩

theorem exQueued : ∃ q, QueuedP exFns [exPCall0, exPCall] q := by
  obtain ⟨b, e1, -⟩ := call_facts exPCall_ok.1
  obtain ⟨b0, e0, -⟩ := call_facts exPCall_ok.2
  exact ⟨_, .cons exPCall_ok.2 e0 (.cons exPCall_ok.1 e1 .nil)⟩

theorem exOpsP {q : List Byte} (hq : QueuedP exFns [exPCall0, exPCall] q) :
    OpsP Config.default exEntries exFns none true
      (.start (fun _ => 0) 0 exTimes :: [.batch (fun _ => 0) [exPCall0, exPCall] (q ++ [1, 2, 3]) 84 3 true,
        .flush, .start (fun n => n) 5 exTimes',
        .batch (fun n => n) [exPCall0, exPCall] (q ++ [1, 2, 3]) 30 70000 false] ++ [.flush]) := by
  have hsz : pSizes exFns [exPCall0, exPCall] = 84 := by
    simp [pSizes, exSize.1, exSize.2]
  have hsm : ∀ c ∈ [exPCall0, exPCall], pSize exFns c < Config.default.staging / 2 := by
    intro c hc
    simp only [List.mem_cons, List.not_mem_nil, or_false] at hc
    rcases hc with rfl | rfl
    · rw [exSize.2]; decide
    · rw [exSize.1]; decide
  exact
    .start exTimes_ok.1 (by decide) exFit.1 <|
    .batch hq (by rw [hsz]; decide) (by decide) hsm (by decide) <| .flush <|
    .start exTimes_ok.2 (by decide) exFit.2 <|
    .batch hq (by rw [hsz]; decide) (by decide) hsm (by decide) <| .flush .nil

/-- Two executions: in the first one, a batch with two messages of thread 3; in the second the same from
thread 70000 (with an extended header), of which only the first message is within the limit. -/
example : ∃ q more st ns l, QueuedP exFns [exPCall0, exPCall] q ∧
    PSt.run Config.default exEntries exFns ⟨[], []⟩
      [.start (fun _ => 0) 0 exTimes, .batch (fun _ => 0) [exPCall0, exPCall] (q ++ more) 84 3 true, .flush,
       .start (fun n => n) 5 exTimes', .batch (fun n => n) [exPCall0, exPCall] (q ++ more) 30 70000 false,
       .flush] = some (st, ns) ∧ ns.length = 2 ∧
    ConsumedP exFns none
      [.start (fun _ => 0) 0 exTimes, .batch (fun _ => 0) [exPCall0, exPCall] (q ++ more) 84 3 true, .flush,
       .start (fun n => n) 5 exTimes', .batch (fun n => n) [exPCall0, exPCall] (q ++ more) 30 70000 false,
       .flush] ns l ∧
    ∀ (raw : List Byte) (bf : BufFrag), 2 ^ 27 ≤ raw.length → bf.stor.length = 2 ^ 20 + 9 →
      ∃ ms, decodeFileP raw bf st.file = some (true, ms) ∧ All2 (PPrints exStmts) l ms := by
  obtain ⟨q, hq⟩ := exQueued
  have hops := exOpsP hq
  obtain ⟨st, ns, l, h1, h2, -, h4⟩ := C50_file_partial exStmts_ok exProgram Config.default (by decide)
    (by decide) hops
  refine ⟨q, [1, 2, 3], st, ns, l, hq, h1, ?_, h2, h4⟩
  cases h2 with
  | start h2 => cases h2 with
    | batch _ h2 => cases h2 with
      | flush h2 => cases h2 with
        | start h2 => cases h2 with
          | batch _ h2 => cases h2 with
            | flush h2 => cases h2; rfl

/-- C50's progress: the first message of the queue is consumed. -/
example : ∃ q st' n, QueuedP exFns [exPCall0, exPCall] q ∧
    PSt.step Config.default exEntries exFns ⟨[1], []⟩ (.batch (fun _ => 0) [exPCall0, exPCall] (q ++ [7]) 20 3 true)
      = some (st', some n) ∧ 16 ≤ n := by
  obtain ⟨q, hq⟩ := exQueued
  have hsz : pSizes exFns [exPCall0, exPCall] = 84 := by simp [pSizes, exSize.1, exSize.2]
  obtain ⟨st', n, h1, h2⟩ := C50_progress Config.default exEntries exFns [1] (fun _ => 0) [7] hq
    (nbytes := 20) (tid := 3) true (by decide) (by rw [hsz]; decide)
    (by
      intro c hc
      simp only [List.mem_cons, List.not_mem_nil, or_false] at hc
      rcases hc with rfl | rfl
      · rw [exSize.2]; decide
      · rw [exSize.1]; decide) (by rw [exSize.2]; decide) (by rw [exSize.2]; decide)
  rw [exSize.2] at h2
  exact ⟨q, st', n, hq, h1, h2⟩

/-- The generated functions read both messages back. -/
example (bf : BufFrag) (hbf : bf.stor.length = 2 ^ 20 + 9) :
    ∃ q bytes k bf' ms, QueuedP exFns [exPCall0, exPCall] q ∧
      encodeLogMsgsP Config.default (fun _ => 0) exFns 1000 (q ++ []) 84 3 true =
        some (bytes, (pSizes exFns ([exPCall0, exPCall].take k) : Int)) ∧
      readBufferExtent bf ⟨bytes ++ [9], false⟩ = some (true, true, bf', ⟨[9], false⟩) ∧
      (∃ bf'', drainG exFns [⟨asc "main.cc", 10, 2⟩, ⟨asc "lib/io.cc", 300, 1⟩] none (bf'.mem.length + 1) bf' []
        = some (some (bf'', ms))) ∧
      All2 (GShows [⟨asc "main.cc", 10, 2⟩, ⟨asc "lib/io.cc", 300, 1⟩])
        (([exPCall0, exPCall].take k).map (3, ·)) ms := by
  obtain ⟨q, hq⟩ := exQueued
  have hsz : pSizes exFns [exPCall0, exPCall] = 84 := by simp [pSizes, exSize.1, exSize.2]
  obtain ⟨bytes, k, bf', ms, -, h⟩ := C50_generated Config.default (fun _ => 0) (fns := exFns)
    (metas := [⟨asc "main.cc", 10, 2⟩, ⟨asc "lib/io.cc", 300, 1⟩]) rfl none [] hq 1000 84 3 true
    (by decide) (by decide) (by rw [hsz]; decide)
    (by
      intro c hc
      simp only [List.mem_cons, List.not_mem_nil, or_false] at hc
      rcases hc with rfl | rfl
      · rw [exSize.2]; decide
      · rw [exSize.1]; decide) (by decide) (by decide) bf hbf [9]
  exact ⟨q, bytes, k, bf', ms, hq, h⟩

/-! ### What goes wrong -/

/-- Does a new decoder accept the dictionary of the statements? -/
def dictAccepted (ss : List PStmt) : Option Bool :=
  match entriesOf ss with
  | none => none
  | some es =>
    match checkpointP (fun _ => 0) 0 1000 exTimes es with
    | none => none
    | some b => (readDictP exTimes ⟨List.replicate 2000 0, 0, []⟩ ⟨b, false⟩).map (·.1)

/-- Part of **C49** is false: a format with a null character, `"a\0b"`, is legal C, but the dictionary
cannot be read: the copy stops at the null character, the length does not. -/
theorem C49_null_false : dictAccepted [⟨asc "a" ++ [ch '\\', ch '0'] ++ asc "b", asc "m.cc", 1, 2⟩] = some false
    ∧ dictAccepted [⟨asc "ab", asc "m.cc", 1, 2⟩] = some true := by
  constructor <;> decide +kernel

/-- The same for a file name with a backslash (`"dir\\m.cc"` in the output of the C preprocessor). -/
theorem C49_backslash_false : dictAccepted [⟨asc "ab", asc "dir" ++ [ch '\\', ch '\\'] ++ asc "m.cc", 1, 2⟩]
    = some false := by decide +kernel

/-- A program with one statement, `"<t>%d"` in file `m.cc`, executed once with argument `v`. -/
def oneStmt (t : List Byte) (v : Int) (file : List Byte) : Option (List Byte) :=
  match entriesOf [⟨t ++ asc "%d", asc "m.cc", 1, 2⟩], fnsOf [⟨t ++ asc "%d", asc "m.cc", 1, 2⟩],
    genEntry 0 7 [⟨some (pyStr "int"), .none, .none, t ++ asc "%d"⟩] [.scalar (.int .i32 v)] with
  | some es, some fns, some q =>
    (PSt.run ⟨1000, 1000, 500⟩ es fns ⟨file, []⟩
      [.start (fun _ => 0) 0 exTimes, .batch (fun _ => 0) [] q q.length 1 true, .flush]).map (·.1.file)
  | _, _, _ => none

/-- Result of decoding: texts and arguments. -/
def decodedTexts (bytes : List Byte) : Option (Bool × List (List (List Byte × Option PArg))) :=
  (decodeFileP (List.replicate 2000 0) (BufFrag.init 1009) bytes).map fun r =>
    (r.1, r.2.map fun m => m.parts.map fun d => (d.text, d.arg))

/-- **C50** is false for executions of different programs in one file (compare C27, where every execution
has its own dictionary): the second dictionary is read behind the first in memory, but the index is built
from the start of the memory.  If the sizes agree, the messages of the second program appear with the texts
of the first, without any error. -/
theorem C50_other_program_false :
    ((oneStmt (asc "up ") 5 []).bind fun f1 => (oneStmt (asc "dn ") 6 f1).bind decodedTexts) =
      some (true, [[(asc "up %d", some (.scalar (.int 5)))], [(asc "up %d", some (.scalar (.int 6)))]])
    ∧ ((oneStmt (asc "dn ") 6 []).bind decodedTexts) = some (true, [[(asc "dn %d", some (.scalar (.int 6)))]]) := by
  constructor <;> decide +kernel

/-- If the sizes differ, the rest of the file is lost. -/
theorem C50_other_program_lost_false :
    ((oneStmt (asc "up ") 5 []).bind fun f1 => (oneStmt (asc "down ") 6 f1).bind decodedTexts) =
      some (false, [[(asc "up %d", some (.scalar (.int 5)))]]) := by decide +kernel

/-- A message with identifier 2 (of a newer program) read with the functions of a program that has two
statements. -/
example (fuel : Nat) : drainG exFns [⟨asc "main.cc", 10, 2⟩, ⟨asc "lib/io.cc", 300, 1⟩] (some ⟨[], 0, 0⟩) fuel
    { BufFrag.init 1009 with mem := [1, 2, 3], left := 3, hasMore := true, id := 2 } [] = some none :=
  (C50_unknown_id_false exFns _ rfl _ rfl (by decide) (by decide)).2 _ fuel

/-- The literal `"a\x41\102\n"`. -/
example : cLit (asc "a" ++ [ch '\\', ch 'x', ch '4', ch '1', ch '\\', ch '1', ch '0', ch '2', ch '\\', ch 'n'])
    = some (asc "aAB" ++ [10]) :=
  C49_literal (l := [.plain (ch 'a'), .hex [ch '4', ch '1'], .oct [ch '1', ch '0', ch '2'], .simple (ch 'n') 10])
    ⟨by decide, trivial, by decide, by intro b hb; cases hb; decide, by decide,
      (fun h => absurd h (by decide)), by decide, trivial, trivial⟩
    (by
      intro i hi
      simp only [List.mem_cons, List.not_mem_nil, or_false] at hi
      rcases hi with rfl | rfl | rfl | rfl <;> first | trivial | (show _ < 256; decide))

end NanoLog
