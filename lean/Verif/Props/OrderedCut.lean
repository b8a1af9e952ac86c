import Verif.OrderedCut
import Verif.Props.DecHeap

/-!
# C71: a crash loses only the tail, also for ordered decompression

C28 is about the unordered loop and the iterator.  Here the file is read by `decompressTo`
(runtime/Log.cc:1816-1967), which the `decompressor` program uses by default.  When the file
ends inside a record, the read fails *and* the end of the file is reached, so that
`mustDepleteAllStages` is set and everything buffered is printed; compare `C70_damaged_false`,
where the read fails before the end of the file.
-/

namespace NanoLog

/-! ## Lemmas -/

/-- As `pool_bound`; the bound is 0 for an empty pool. -/
theorem pool_bound_zero (pool : List BufFrag) :
    ∃ T, (∀ bf ∈ pool, bf.ts ≤ T) ∧ (pool = [] → T = 0) := by
  by_cases h : pool = []
  · exact ⟨0, by simp [h], fun _ => rfl⟩
  · obtain ⟨T, hT⟩ := pool_bound pool
    exact ⟨T, hT, fun e => absurd e h⟩

/-! ## C71 -/

/-- **C71**, one execution.  The file of a run is cut at byte `n`, anywhere behind what the
operations `ops1` wrote.  Ordered decompression ends normally, for every choice among equal
time stamps and whatever fragments earlier decompressions left; it prints an interleaving of
the first `k` extents of the run (each in its own order, hence every message of them once and
nothing else), among them all extents of `ops1`.  If these extents are as `C26_chronological_partial`
asks, the messages come out in time order. -/
theorem C71_cut {cfg c all ops1 ops2 st1 ns1 ms1 st ns ms F1 F}
    (h1 : FileRun cfg c all ops1 st1 ns1 ms1) (h : FileRun cfg c all (ops1 ++ ops2) st ns ms)
    (hF1 : ExecExts cfg c all ops1 F1) (hF : ExecExts cfg c all (ops1 ++ ops2) F)
    (n : Nat) (hn1 : st1.contents.length ≤ n) (hn : n ≤ st.contents.length)
    {pick : Nat → List BufFrag → Nat} (hp : Picks pick)
    {pool : List BufFrag} (hpool : ∀ bf ∈ pool, bf.stor.length = cfg.staging + 9) (s0 : Dec) :
    ∃ s s' k, s0.openFile (st.contents.take n) = some (true, s) ∧
      s.ordered (cfg.staging + 9) pool pick = some s' ∧ s'.mode = .done ∧
      F1 <+: F.take k ∧ Merge ((F.take k).map Prod.snd) s'.out ∧
      (n = st.contents.length → F.take k = F) ∧
      ((∀ e ∈ F.take k, Chrono e.2) → Apart 3 (stagesOf [] (F.take k)) →
        Progress (stagesOf [] (F.take k)) → (pool = [] ∨ ∀ e ∈ F.take k, e.2 ≠ []) →
        Chrono s'.out) := by
  obtain ⟨T, hT, hT0⟩ := pool_bound_zero pool
  obtain ⟨jk, hc, h40, hcase⟩ := cut_exec h hF n hn
  have hn40 : ¬ n < 40 := by
    obtain ⟨jk1, bs1, -, hc1, e1, -⟩ := h1.body' hF1
    have : (checkpointBytes jk1 c).length = 40 := checkpointBytes_length hc1.1
    rw [e1, List.length_append] at hn1
    omega
  rcases hcase with ⟨hlt, -⟩ | ⟨-, bs, tail, k, e1, e2, e3, e4, e5⟩
  · exact absurd hlt hn40
  have ho : s0.openFile (st.contents.take n) =
      some (true, { s0 with file := ⟨bs, false⟩, good := true, ck := c
                            dict := Dict.empty, out := [] }) := by
    rw [e1, Dec.openFile, readDictionary_ok hc]
  obtain ⟨s1, q1, q2, q3⟩ := sim_open (pick := pick) hp e2
    { s0 with file := ⟨bs, false⟩, good := true, ck := c, dict := Dict.empty, out := [] }
    rfl rfl rfl rfl (fun bf hbf => ⟨hpool bf hbf, hT bf hbf⟩)
  obtain ⟨o, s2, r1, r2, r3, r4, -⟩ := sim_last (pick := pick) hp e3 q3
  have hout : s2.out = o := by rw [r3, q2]; simp
  refine ⟨_, s2, k, ho, OStar.done hp (room_of_stor hpool) (q1.trans r2).star r4, r4,
    e5 _ _ _ _ _ _ rfl h1 hF1 hn1, ?_, e4, ?_⟩
  · rw [hout]; have := r1.merge (by simp); simpa [ASt.pend] using this
  · intro g1 g2 g3 g4
    rw [hout]
    refine (r1.chrono (ASt.J.init g1 g2 g3 ?_)).1
    rintro ⟨e, he, hnil⟩
    rcases g4 with g4 | g4
    · exact hT0 g4
    · exact absurd hnil (g4 e he)

/-- **C71**, the code with pointers, free list and the library's heaps (`Verif/DecHeap.lean`):
the same for a decoder object in any state earlier calls can leave it in. -/
theorem C71_cut_heaps {cfg c all ops1 ops2 st1 ns1 ms1 st ns ms F1 F}
    (h1 : FileRun cfg c all ops1 st1 ns1 ms1) (h : FileRun cfg c all (ops1 ++ ops2) st ns ms)
    (hF1 : ExecExts cfg c all ops1 F1) (hF : ExecExts cfg c all (ops1 ++ ops2) F)
    (n : Nat) (hn1 : st1.contents.length ≤ n) (hn : n ≤ st.contents.length)
    {o : Objs} (hu : Used (cfg.staging + 9) o) (s0 : Dec) :
    ∃ s r k, s0.openFile (st.contents.take n) = some (true, s) ∧
      s.orderedHeap (cfg.staging + 9) o = some r ∧ r.mode = .done ∧
      F1 <+: F.take k ∧ Merge ((F.take k).map Prod.snd) r.out ∧
      (n = st.contents.length → F.take k = F) := by
  obtain ⟨s, -, -, q1, -⟩ := C71_cut h1 h hF1 hF n hn1 hn firstMin_picks (hu.pool (by omega)) s0
  obtain ⟨pick, hp, hr⟩ := C70_heaps (by omega) hu s
  obtain ⟨s', t, k, p1, p2, p3, p4, p5, p6, -⟩ := C71_cut h1 h hF1 hF n hn1 hn hp (hu.pool (by omega)) s0
  rw [q1] at p1
  simp only [Option.some.injEq, Prod.mk.injEq, true_and] at p1
  subst p1
  rcases hr with ⟨-, e⟩ | ⟨r, t', e1, e2, e3, e4, e5, -⟩
  · rw [p2] at e; simp at e
  · rw [p2] at e2
    simp only [Option.some.injEq] at e2
    subst e2
    exact ⟨s, r, k, q1, e1, e5, p4, e3 ▸ p5, p6⟩

/-- **C71**, several executions in one file, the last one cut at any byte `n` (also inside its
checkpoint, or at its very beginning): the complete executions are printed as in
`C27_ordered_partial`, under the same conditions, and of the last one the first `k` extents, among
them all extents written completely in front of byte `n`. -/
theorem C71_appended_partial {cfg c0 all0 ops0 st0 ns0 ms0 F0} (h0 : FileRun cfg c0 all0 ops0 st0 ns0 ms0)
    (hF0 : ExecExts cfg c0 all0 ops0 F0) {file : List Byte} {Fs : List Exts} (hx : Execs cfg file Fs)
    {pool : List BufFrag} (hpool : ∀ bf ∈ pool, bf.stor.length = cfg.staging + 9)
    (o0 : Ordered F0 (decide (pool = []))) (oFs : ∀ F ∈ Fs, Ordered F false)
    {c all ops st ns ms F} (h : FileRun cfg c all ops st ns ms) (hF : ExecExts cfg c all ops F)
    (n : Nat) (hn : n ≤ st.contents.length)
    {pick : Nat → List BufFrag → Nat} (hp : Picks pick) (s0 : Dec) :
    ∃ s s' a b o k, s0.openFile (st0.contents ++ (file ++ st.contents.take n)) = some (true, s) ∧
      s.ordered (cfg.staging + 9) pool pick = some s' ∧ s'.mode = .done ∧ s'.out = a ++ b ++ o ∧
      Merge (F0.map Prod.snd) a ∧ Chrono a ∧ PrintsAll Fs b ∧
      Merge ((F.take k).map Prod.snd) o ∧ (n = st.contents.length → F.take k = F) ∧
      ∀ ops1 ops2 st1 ns1 ms1 F1, ops = ops1 ++ ops2 → FileRun cfg c all ops1 st1 ns1 ms1 →
        ExecExts cfg c all ops1 F1 → st1.contents.length ≤ n → F1 <+: F.take k := by
  obtain ⟨T, hT, hT0⟩ := pool_bound_zero pool
  obtain ⟨jk, hc, h40, hcase⟩ := cut_exec h hF n hn
  obtain ⟨b0, l0, e1, e2⟩ := checkpointBytes_head jk c
  have htl : TailOK (st.contents.take n) := by
    intro b hb
    have : (st.contents.take n).head? = some b0 := by
      cases n with
      | zero => simp at hb
      | succ n =>
        rcases hcase with ⟨-, e⟩ | ⟨-, bs, tail, k, e, -⟩
        · rw [e, e1]; simp
        · rw [e, e1]; simp
    rw [this] at hb
    simp only [Option.some.injEq] at hb
    rw [← hb]; exact e2
  have htl' : TailOK (file ++ st.contents.take n) := by
    intro b hb
    cases file with
    | nil => exact htl b hb
    | cons x l => exact hx.tailOK b (by simpa using hb)
  have hJ : ASt.J 0 ⟨[], [], F0, T, .fill⟩ := ASt.J.init o0.chrono o0.apart o0.prog (by
    rintro ⟨e, he, hnil⟩
    by_cases hpe : pool = []
    · exact hT0 hpe
    · exact absurd hnil (o0.empty (by simp [hpe]) e he))
  obtain ⟨s, a, s1, T', r1, r2, r3, r4, r5⟩ := first_run h0 hF0 hp htl'
    (fun bf hbf => ⟨hpool bf hbf, hT bf hbf⟩) (fun _ => ⟨0, hJ⟩) s0
  obtain ⟨b, s2, ck', T'', g1, g2, g3, g4⟩ := execs_tail (pick := pick) hp hx htl oFs r5
  have hma : Merge (F0.map Prod.snd) a := by
    have := r2.merge (by simp); simpa [ASt.pend] using this
  have hca : Chrono a := (r2.chrono hJ).1
  rcases hcase with ⟨hlt, e⟩ | ⟨-, bs, tail, k, i1, i2, i3, i4, i5⟩
  · rw [e] at g4
    obtain ⟨s3, u1, u2, u3, -⟩ := sim_cut_ckpt (pick := pick) hc hlt g4
    have hlen : ∀ {ops1 st1 ns1 ms1 F1}, FileRun cfg c all ops1 st1 ns1 ms1 → ExecExts cfg c all ops1 F1 →
        40 ≤ st1.contents.length := by
      intro ops1 st1 ns1 ms1 F1 h1 hF1
      obtain ⟨jk1, bs1, -, hc1, e1, -⟩ := h1.body' hF1
      have : (checkpointBytes jk1 c).length = 40 := checkpointBytes_length hc1.1
      rw [e1, List.length_append]; omega
    refine ⟨s, s3, a, b, [], 0, r1,
      OStar.done hp (room_of_stor hpool) ((r3.trans g1).trans u1.star) u3, u3, ?_, hma, hca, g3, ?_, ?_, ?_⟩
    · rw [u2, g2, r4]; simp
    · simpa using Merge.nil (by simp)
    · intro e; have := hlen h hF; omega
    · intro ops1 ops2 st1 ns1 ms1 F1 _ h1 hF1 hle
      have := hlen h1 hF1; omega
  · rw [i1] at g4
    obtain ⟨s3, u1, u2, u3⟩ := sim_next (pick := pick) hp hc g4 i2
    obtain ⟨o, s4, v1, v2, v3, v4, -⟩ := sim_last (pick := pick) hp i3 u3
    refine ⟨s, s4, a, b, o, k, r1,
      OStar.done hp (room_of_stor hpool) ((r3.trans g1).trans (u1.trans v2).star) v4, v4, ?_, hma, hca, g3, ?_,
      i4, i5⟩
    · rw [v3, u2, g2, r4]
    · have := v1.merge (by simp); simpa [ASt.pend] using this

/-! ## Examples -/

/-- The operations of the first `k` extents and the others. -/
theorem exTsOps_split (ck : Checkpoint) (gs gs' : List (Bool × List Nat)) :
    exTsOps ck (gs ++ gs') = exTsOps ck gs ++ gs'.map exTsBatch := by
  simp [exTsOps]

/-- `C71_cut` and `C71_cut_heaps` apply to a log of three extents, the last of them cut after 7
bytes, and what remains is not in file order: the times in the file are 30, 31; 10, 12; 11, 40. -/
example : ∃ st1 ns1 ms1 st ns ms,
    FileRun exCfg exCk exSites (exTsOps exCk [(true, [30, 31]), (false, [10, 12])]) st1 ns1 ms1 ∧
    FileRun exCfg exCk exSites
      (exTsOps exCk [(true, [30, 31]), (false, [10, 12])] ++ [(true, [11, 40])].map exTsBatch) st ns ms ∧
    ExecExts exCfg exCk exSites (exTsOps exCk [(true, [30, 31]), (false, [10, 12])])
      (exTsExts exCk [(true, [30, 31]), (false, [10, 12])]) ∧
    ExecExts exCfg exCk exSites
      (exTsOps exCk [(true, [30, 31]), (false, [10, 12])] ++ [(true, [11, 40])].map exTsBatch)
      (exTsExts exCk exGs) ∧
    st1.contents.length + 7 < st.contents.length ∧ Used (exCfg.staging + 9) (Objs.new (exCfg.staging + 9)) ∧
    orderedTimes exCfg (st.contents.take (st1.contents.length + 7)) = some [10, 12, 30, 31] := by
  obtain ⟨st1, ns1, ms1, h1⟩ := exTsRun exCk_plain (by decide : ExTs [(true, [30, 31]), (false, [10, 12])])
  obtain ⟨st, ns, ms, h⟩ := exTsRun exCk_plain (by decide : ExTs exGs)
  have hF1 := exTsExecExts (ck := exCk) (by decide : ExTs [(true, [30, 31]), (false, [10, 12])]) (by decide +kernel)
  have hF := exTsExecExts (ck := exCk) (by decide : ExTs exGs) (by decide +kernel)
  have hc : ((EncSt.init.run exCfg (exTsOps exCk [(true, [30, 31]), (false, [10, 12])])).bind fun x =>
      (EncSt.init.run exCfg (exTsOps exCk exGs)).map fun y =>
        (decide (x.1.contents.length + 7 < y.1.contents.length),
          orderedTimes exCfg (y.1.contents.take (x.1.contents.length + 7)))) =
      some (true, some [10, 12, 30, 31]) := by decide +kernel
  rw [h1.run, h.run] at hc
  simp only [Option.bind_some, Option.map_some, Option.some.injEq, Prod.mk.injEq, decide_eq_true_eq] at hc
  have e : exGs = [(true, [30, 31]), (false, [10, 12])] ++ [(true, [11, 40])] := rfl
  rw [← exTsOps_split, ← e]
  exact ⟨st1, ns1, ms1, st, ns, ms, h1, h, hF1, hF, hc.1, .new, hc.2⟩

/-- `C71_appended_partial` applies to a complete execution followed by a cut one. -/
example : ∃ st ns ms st2 ns2 ms2 F F2, FileRun exCfg exCk exSites (exTsOps exCk exGoodGs) st ns ms ∧
    ExecExts exCfg exCk exSites (exTsOps exCk exGoodGs) F ∧ Ordered F true ∧
    Execs exCfg [] [] ∧
    FileRun exCfg exCk2 exSites (exTsOps exCk2 exGoodGs) st2 ns2 ms2 ∧
    ExecExts exCfg exCk2 exSites (exTsOps exCk2 exGoodGs) F2 ∧ 60 < st2.contents.length := by
  obtain ⟨st, ns, ms, h⟩ := exTsRun exCk_plain (by decide : ExTs exGoodGs)
  obtain ⟨st2, ns2, ms2, h2⟩ := exTsRun exCk2_plain (by decide : ExTs exGoodGs)
  have hF := exTsExecExts (ck := exCk) (by decide : ExTs exGoodGs) (by decide +kernel)
  have hF2 := exTsExecExts (ck := exCk2) (by decide : ExTs exGoodGs) (by decide +kernel)
  have hc : ((EncSt.init.run exCfg (exTsOps exCk2 exGoodGs)).map fun y =>
      decide (60 < y.1.contents.length)) = some true := by decide +kernel
  rw [h2.run] at hc
  simp only [Option.map_some, Option.some.injEq, decide_eq_true_eq] at hc
  exact ⟨st, ns, ms, st2, ns2, ms2, _, _, h, hF, exGood_ordered _ _, .nil, h2, hF2, hc⟩

end NanoLog
