import Verif.Props.OrderedCut

/-!
# C72: damage behind a valid log does not reach the messages in front of it

The file is the log of a run followed by arbitrary bytes.  For the unordered loop and for the
iterator, everything in front is delivered, whatever follows, if the decoder does not abort (an
abort may lose what `stdio` has not written yet).  For ordered decompression the claim is false.
-/

namespace NanoLog

/-! ## Output only grows -/

theorem drain_mono {ck : Checkpoint} {d : Dict} (n : Nat) {bf bf' : BufFrag} {out out' : List OutMsg}
    (h : drain ck d n bf out = some (bf', out')) : out <+: out' := by
  induction n generalizing bf out with
  | zero =>
    simp only [drain, Option.some.injEq, Prod.mk.injEq] at h
    rw [h.2]; exact List.prefix_refl _
  | succ n ih =>
    rw [drain] at h
    split at h
    · split at h
      · simp at h
      · exact (List.prefix_append _ _).trans (ih h)
    · simp only [Option.some.injEq, Prod.mk.injEq] at h
      rw [h.2]; exact List.prefix_refl _

theorem unorderedStep_mono {s s' : Dec} (h : unorderedStep s = some s') : s.out <+: s'.out := by
  unfold unorderedStep at h
  simp only at h
  split at h
  · split at h
    · simp at h
    · simp only [Option.some.injEq] at h; subst h; exact List.prefix_refl _
    · split at h
      · simp at h
      · rename_i hd
        simp only [Option.some.injEq] at h; subst h
        exact drain_mono _ hd
  · split at h
    · simp at h
    · simp only [Option.some.injEq] at h; subst h; exact List.prefix_refl _
  · split at h
    · simp at h
    · simp only [Option.some.injEq] at h; subst h; exact List.prefix_refl _
  · simp only [Option.some.injEq] at h; subst h; exact List.prefix_refl _

theorem unorderedLoop_mono (n : Nat) {s s' : Dec} (h : unorderedLoop n s = some s') : s.out <+: s'.out := by
  induction n generalizing s with
  | zero =>
    simp only [unorderedLoop, Option.some.injEq] at h
    subst h; exact List.prefix_refl _
  | succ n ih =>
    rw [unorderedLoop] at h
    split at h
    · split at h
      · simp at h
      · rename_i hs
        exact (unorderedStep_mono hs).trans (ih h)
    · simp only [Option.some.injEq] at h
      subst h; exact List.prefix_refl _

theorem iterLoop_out (n : Nat) {s s' : Dec} {b : Bool} (h : iterLoop n s = some (b, s')) : s'.out = s.out := by
  induction n generalizing s with
  | zero =>
    simp only [iterLoop, Option.some.injEq, Prod.mk.injEq] at h
    rw [h.2]
  | succ n ih =>
    rw [iterLoop] at h
    split at h
    · simp only at h
      split at h
      · split at h
        · simp at h
        · simp only [Option.some.injEq, Prod.mk.injEq] at h; rw [← h.2]
        · simpa using ih h
      · split at h
        · simp at h
        · simpa using ih h
        · simp only [Option.some.injEq, Prod.mk.injEq] at h; rw [← h.2]
      · split at h
        · simp at h
        · simpa using ih h
      · simpa using ih h
    · simp only [Option.some.injEq, Prod.mk.injEq] at h
      rw [h.2]

theorem next_mono {s s' : Dec} {b : Bool} {m : Option OutMsg} (h : s.next = some (b, m, s')) :
    s.out <+: s'.out := by
  unfold Dec.next at h
  split at h
  · split at h
    · simp at h
    · simp only [Option.some.injEq, Prod.mk.injEq] at h
      rw [← h.2.2]; exact List.prefix_append _ _
  · split at h
    · simp only [Option.some.injEq, Prod.mk.injEq] at h
      rw [h.2.2]; exact List.prefix_refl _
    · split at h
      · simp at h
      · rename_i hl
        simp only [Option.some.injEq, Prod.mk.injEq] at h
        rw [← h.2.2, iterLoop_out _ hl]; exact List.prefix_refl _
      · rename_i hl
        split at h
        · simp at h
        · simp only [Option.some.injEq, Prod.mk.injEq] at h
          rw [← h.2.2, iterLoop_out _ hl]; exact List.prefix_append _ _

theorem iterate_mono (n : Nat) {s s' : Dec} (h : s.iterate n = some s') : s.out <+: s'.out := by
  induction n generalizing s with
  | zero =>
    simp only [Dec.iterate, Option.some.injEq] at h
    subst h; exact List.prefix_refl _
  | succ n ih =>
    rw [Dec.iterate] at h
    split at h
    · simp at h
    · rename_i hn
      simp only [Option.some.injEq] at h
      subst h; exact next_mono hn
    · rename_i hn
      exact (next_mono hn).trans (ih h)

/-! ## Records followed by any bytes -/

theorem skipPad_id {b : Byte} {bs : List Byte} (h : entryType b ≠ .invalid) :
    FileSt.skipPad ⟨b :: bs, false⟩ = ⟨b :: bs, false⟩ := by
  simp [FileSt.skipPad, h]

/-- If the loop ends normally, the messages of well-formed records in front are delivered. -/
theorem unordered_prefix {cap : Nat} {ck : Checkpoint} {known : List Site} {rs : List Rec}
    {ms : List OutMsg} (h : Holds cap ck known rs ms) (tail : List Byte) (n : Nat) (s s' : Dec)
    (hf : s.file = ⟨recBytes rs ++ tail, false⟩ ∨ s.file = FileSt.skipPad ⟨recBytes rs ++ tail, false⟩)
    (hn : s.file.measure ≤ n) (hg : s.good = true) (hck : s.ck = ck)
    (hd : Describes s.dict known) (hb : s.bf.stor.length = cap)
    (hl : unorderedLoop n s = some s') : s.out ++ ms <+: s'.out := by
  -- one step of the loop
  have go : ∀ {n : Nat} {s s1 : Dec}, s.file.eof = false → s.good = true → s.file.measure ≤ n →
      unorderedStep s = some s1 → unorderedLoop n s = some s' →
      ∃ n', s1.file.measure ≤ n' ∧ unorderedLoop n' s1 = some s' := by
    intro n s s1 he hg hn hs hl
    have hm := unorderedStep_measure he hs
    cases n with
    | zero => omega
    | succ n =>
      rw [unorderedLoop, if_pos ⟨he, hg⟩, hs] at hl
      exact ⟨n, by omega, hl⟩
  induction h generalizing s n with
  | nil => rw [List.append_nil]; exact unorderedLoop_mono n hl
  | @ckpt ck known junk c rs ms hc hj h ih =>
    obtain ⟨b, bs, hbb, ht⟩ := checkpointBytes_head junk c
    have hfile : s.file = ⟨checkpointBytes junk c ++ (recBytes rs ++ tail), false⟩ := by
      have e : recBytes (.ckpt junk c :: rs) ++ tail = checkpointBytes junk c ++ (recBytes rs ++ tail) := by
        simp [recBytes, Rec.bytes]
      rw [e] at hf
      rcases hf with hf | hf
      · exact hf
      · rw [hf, hbb, List.cons_append, skipPad_id (by rw [ht]; simp)]
    have he : s.file.eof = false := by rw [hfile]
    have hpk : s.file.peek = (.checkpoint, s.file) := by
      rw [hfile]; simp [FileSt.peek, hbb, ht]
    have hst : unorderedStep s = some { s with file := ⟨recBytes rs ++ tail, false⟩, good := true
                                               ck := c, dict := Dict.empty } := by
      simp only [unorderedStep, hpk]
      rw [hfile, readDictionary_ok hc]
    obtain ⟨n', g1, g2⟩ := go he hg hn hst hl
    have := ih n' _ (Or.inl (by rfl)) g1 (by rfl) (by rfl) describes_empty hb g2
    exact this
  | @dict ck known total new rs ms hnew hlen h ih =>
    obtain ⟨b, bs, hbb, ht⟩ := dictBytes_head total new
    have hfile : s.file = ⟨dictBytes total new ++ (recBytes rs ++ tail), false⟩ := by
      have e : recBytes (.dict total new :: rs) ++ tail = dictBytes total new ++ (recBytes rs ++ tail) := by
        simp [recBytes, Rec.bytes]
      rw [e] at hf
      rcases hf with hf | hf
      · exact hf
      · rw [hf, hbb, List.cons_append, skipPad_id (by rw [ht]; simp)]
    have he : s.file.eof = false := by rw [hfile]
    have hpk : s.file.peek = (.dict, s.file) := by
      rw [hfile]; simp [FileSt.peek, hbb, ht]
    obtain ⟨d', hd1, hd2⟩ := readDictionaryFragment_ok hnew total hlen s.dict hd (recBytes rs ++ tail)
    have hst : unorderedStep s = some { s with file := ⟨recBytes rs ++ tail, false⟩, good := true
                                               dict := d' } := by
      simp only [unorderedStep, hpk]
      rw [hfile, hd1]
    obtain ⟨n', g1, g2⟩ := go he hg hn hst hl
    have := ih n' _ (Or.inl (by rfl)) g1 (by rfl) hck hd2 hb g2
    exact this
  | @ext ck known tid np cs body rs ms' ms hen hp ht hlen hcap h ih =>
    obtain ⟨b, bs, hbb, htp⟩ := extentBytes_head tid np body ht
    have hfile : s.file = ⟨extentBytes tid np body ++ (recBytes rs ++ tail), false⟩ := by
      have e : recBytes (.ext tid np cs body :: rs) ++ tail =
          extentBytes tid np body ++ (recBytes rs ++ tail) := by
        simp [recBytes, Rec.bytes]
      rw [e] at hf
      rcases hf with hf | hf
      · exact hf
      · rw [hf, hbb, List.cons_append, skipPad_id (by rw [htp]; simp)]
    have he : s.file.eof = false := by rw [hfile]
    have hpk : s.file.peek = (.extent, s.file) := by
      rw [hfile]; simp [FileSt.peek, hbb, htp]
    obtain ⟨bf', r1, r2, r3, r4⟩ := readBufferExtent_at s.bf hen np (recBytes rs ++ tail) false ht
      (by omega) (by omega)
    obtain ⟨bf'', q1, q2, q3⟩ := drain_at (d := s.dict) hd hp (bf'.mem.length + 1) r2.length_le
      bf' s.out r2 r3
    have hst : unorderedStep s = some { s with file := ⟨recBytes rs ++ tail, false⟩, bf := bf''
                                               out := s.out ++ ms' } := by
      simp only [unorderedStep, hpk]
      rw [hfile, r1]
      simp only
      rw [hck, q1]
    obtain ⟨n', g1, g2⟩ := go he hg hn hst hl
    have := ih n' _ (.inl rfl) g1 hg hck hd (by simp; omega) g2
    simpa using this
  | @pad ck known bs rs ms hz h ih =>
    have e : recBytes (.pad bs :: rs) ++ tail = bs ++ (recBytes rs ++ tail) := by
      simp [recBytes, Rec.bytes]
    rw [e, skipPad_append hz] at hf
    rcases hf with hf | hf
    · cases bs with
      | nil => exact ih n s (.inl (by simpa using hf)) hn hg hck hd hb hl
      | cons b bs =>
        have he : s.file.eof = false := by rw [hf]
        have hpk : s.file.peek = (.invalid, s.file) := by
          rw [hf]; simp [FileSt.peek, hz b (by simp)]
        have hst : unorderedStep s = some { s with file := FileSt.skipPad ⟨recBytes rs ++ tail, false⟩ } := by
          simp only [unorderedStep, hpk]
          rw [hf, skipPad_append hz]
        obtain ⟨n', g1, g2⟩ := go he hg hn hst hl
        have := ih n' _ (Or.inr (by rfl)) g1 hg hck hd hb g2
        exact this
    · exact ih n s (.inr hf) hn hg hck hd hb hl

/-- The records of a run; more bytes follow. -/
theorem FileRun.opened {cfg c all ops st ns ms} (h : FileRun cfg c all ops st ns ms) (junk : List Byte)
    (s0 : Dec) :
    ∃ q, Holds (cfg.staging + 9) c [] q ms ∧
      s0.openFile (st.contents ++ junk) = some (true, { s0 with
        file := ⟨recBytes q ++ junk, false⟩, good := true, ck := c, dict := Dict.empty, out := [] }) := by
  obtain ⟨ck', rss, mss, ht, hm⟩ := h.trace
  obtain ⟨jk, ops', rfl⟩ := h.starts
  obtain ⟨q, hq⟩ := ht.starts
  have hh : Holds (cfg.staging + 9) c [] (.ckpt jk c :: q) ms := by
    rw [← hq, ← hm]; exact ht.holds.1
  have hc : st.contents = checkpointBytes jk c ++ recBytes q := by
    rw [EncSt.contents, ht.bytes, hq]; simp [EncSt.init, recBytes, Rec.bytes]
  cases hh with
  | ckpt hp hj hh =>
    refine ⟨q, hh, ?_⟩
    rw [hc, List.append_assoc, Dec.openFile, readDictionary_ok hp]

/-! ## C72 -/

/-- **C72**, unordered.  Arbitrary bytes `junk` follow the log of a run (any number of
executions): the file is opened, and if the loop ends without abort, what it printed begins with
all messages of the run, in order. -/
theorem C72_unordered_partial {cfg c all ops st ns ms} (h : FileRun cfg c all ops st ns ms)
    (junk : List Byte) (bf : BufFrag) (hbf : bf.stor.length = cfg.staging + 9) (s0 : Dec) :
    ∃ s, s0.openFile (st.contents ++ junk) = some (true, s) ∧
      ∀ g s', s.unordered bf = some (g, s') → ms <+: s'.out := by
  obtain ⟨q, hh, ho⟩ := h.opened junk s0
  refine ⟨_, ho, fun g s' hu => ?_⟩
  unfold Dec.unordered at hu
  split at hu
  · simp at hu
  · rename_i s1 hl
    simp only [Option.some.injEq, Prod.mk.injEq] at hu
    have := unordered_prefix hh junk _ _ s1 (.inl rfl) (measure_le _) rfl rfl describes_empty hbf hl
    rw [← hu.2]
    simpa using this

/-- **C72**, iterator: the same for `getNextLogStatement`, called until it returns `false` or
more often than the run has messages. -/
theorem C72_iterator_partial {cfg c all ops st ns ms} (h : FileRun cfg c all ops st ns ms)
    (junk : List Byte) :
    ∃ s, (Dec.new (cfg.staging + 9)).openFile (st.contents ++ junk) = some (true, s) ∧
      ∀ k s', ms.length < k → s.iterate k = some s' → ms <+: s'.out := by
  obtain ⟨q, hh, ho⟩ := h.opened junk (Dec.new (cfg.staging + 9))
  refine ⟨_, ho, fun k s' hk hu => ?_⟩
  obtain ⟨s1, i1, -, i3, -⟩ := iterate_leads hh junk
    { Dec.new (cfg.staging + 9) with file := ⟨recBytes q ++ junk, false⟩, good := true, ck := c
                                     dict := Dict.empty, out := [] }
    ⟨rfl, rfl, rfl⟩ rfl rfl describes_empty (by simp [Dec.new, BufFrag.init])
  obtain ⟨j, rfl⟩ : ∃ j, k = ms.length + (j + 1) := ⟨k - ms.length - 1, by omega⟩
  rw [i1 j] at hu
  have := iterate_mono _ hu
  rw [i3] at this
  simpa using this

/-- The hypothesis of the theorems holds for a run with two messages, followed by the header of
an extent that is too large, and both interfaces end normally on this file. -/
example : ∃ st ns ms s g s1 s2, FileRun exCfg exCk exSites (exTsOps exCk [(true, [10]), (true, [20])]) st ns ms ∧
    ms.length = 2 ∧
    (Dec.new (exCfg.staging + 9)).openFile (st.contents ++ [2, 255, 255, 255, 127]) = some (true, s) ∧
    s.unordered (BufFrag.init (exCfg.staging + 9)) = some (g, s1) ∧ s.iterate 3 = some s2 := by
  obtain ⟨st, ns, ms, h⟩ := exTsRun exCk_plain (by decide : ExTs [(true, [10]), (true, [20])])
  have hF := exTsExecExts (ck := exCk) (by decide : ExTs [(true, [10]), (true, [20])]) (by decide +kernel)
  obtain ⟨jk, bs, hfl, -⟩ := h.body' hF
  obtain ⟨s, ho, -⟩ := C72_unordered_partial h [2, 255, 255, 255, 127] (BufFrag.init (exCfg.staging + 9))
    (by simp [BufFrag.init]) (Dec.new (exCfg.staging + 9))
  have hc : ((EncSt.init.run exCfg (exTsOps exCk [(true, [10]), (true, [20])])).bind fun x =>
      ((Dec.new (exCfg.staging + 9)).openFile (x.1.contents ++ [2, 255, 255, 255, 127])).map fun y =>
        ((y.2.unordered (BufFrag.init (exCfg.staging + 9))).isSome, (y.2.iterate 3).isSome)) =
      some (true, true) := by decide +kernel
  rw [h.run] at hc
  simp only [Option.bind_some, ho, Option.map_some, Option.some.injEq, Prod.mk.injEq, Option.isSome_iff_exists] at hc
  obtain ⟨⟨⟨g, s1⟩, e1⟩, ⟨s2, e2⟩⟩ := hc
  exact ⟨st, ns, ms, s, g, s1, s2, h, by rw [← hfl]; rfl, ho, e1, e2⟩

/-- **C72 is false of the code for ordered decompression**: a run with the messages of times 10
and 20 in two passes, followed by the header of an extent that is too large.  The loop ends after
the message of time 10 (see `C70_damaged_false`), although both had been read. -/
theorem C72_ordered_false :
    ∃ cfg c all ops st ns ms junk pick s s', FileRun cfg c all ops st ns ms ∧ Picks pick ∧
      (Dec.new (cfg.staging + 9)).openFile (st.contents ++ junk) = some (true, s) ∧
      s.ordered (cfg.staging + 9) [] pick = some s' ∧ s'.mode = .done ∧
      ms.map OutMsg.ts = [10, 20] ∧ s'.out.map OutMsg.ts = [10] := by
  obtain ⟨st, ns, ms, h⟩ := exTsRun exCk_plain (by decide : ExTs [(true, [10]), (true, [20])])
  have hF := exTsExecExts (ck := exCk) (by decide : ExTs [(true, [10]), (true, [20])]) (by decide +kernel)
  obtain ⟨jk, bs, hfl, -⟩ := h.body' hF
  have hc : ((EncSt.init.run exCfg (exTsOps exCk [(true, [10]), (true, [20])])).map fun x =>
      orderedTimes exCfg (x.1.contents ++ [2, 255, 255, 255, 127])) = some (some [10]) := by decide +kernel
  rw [h.run] at hc
  simp only [Option.map_some, Option.some.injEq] at hc
  obtain ⟨s, s', h1, h2, h3, h4⟩ := orderedTimes_some hc
  exact ⟨_, _, _, _, st, ns, ms, _, _, s, s', h, firstMin_picks, h1, h2, h3, by rw [← hfl]; rfl, h4⟩

end NanoLog
