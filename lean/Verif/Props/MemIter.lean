import Verif.MemIterLemmas
import Verif.MemOrderedTerm
import Verif.Props.PreMode
import Verif.Props.Ordered

/-!
# C29 and C50 for the iterator and for ordered decoding, with the decoder's memory

`Verif.Props.MemTerm` has the theorems on C29 for unordered decoding.
-/

namespace NanoLog

/-! ## C29 -/

/-- The loop inside one call of the iterator, for files of either mode, any bytes, any decoder state:
a higher bound on the number of iterations gives the same result, and the loop ends because its condition
is false. -/
theorem C29_memory_next_partial (s : PDec) (k : Nat) :
    iterLoopM (s.file.inp.length + 2 + k) s = iterLoopM (s.file.inp.length + 2) s ∧
    ∀ s', iterLoopM (s.file.inp.length + 2) s = some (true, s') →
      ¬ (s'.bf.hasMore = false ∧ s'.file.eof = false ∧ s'.good = true) :=
  iterLoopM_fuel _ s (by have := measure_le s.file; omega) k

/-- A caller that calls the iterator until it returns `false` terminates. -/
theorem C29_no_infinite_memory_iteration_partial (f : Nat → PDec) :
    ¬ ∀ i, ∃ m, (f i).next = some (true, m, f (i + 1)) := by
  intro h
  have : ∀ i, (f i).bound + i ≤ (f 0).bound := by
    intro i
    induction i with
    | zero => simp
    | succ i ih =>
      obtain ⟨m, hm⟩ := h i
      have := nextM_progress hm
      omega
  have := this ((f 0).bound + 1)
  omega

/-- Ordered decoding, for files of either mode: `C29_ordered_terminates_partial` with the decoder's
memory. -/
theorem C29_memory_ordered_partial {cap : Nat} {pick : Nat → List BufFrag → Nat}
    (hp : Picks pick) (s : PDec) {pool : List BufFrag} (hpool : ∀ bf ∈ pool, bf.stor.length = cap)
    (k : Nat) :
    MSt.loop cap pick (OSt.fuel cap s.file + k) (s.startOrdered pool) = s.ordered cap pool pick ∧
    ∀ s', s.ordered cap pool pick = some s' → s'.mode = .done :=
  MSt.loop_fuel hp s (room_of_stor hpool) k

/-- There is no infinite execution. -/
theorem C29_no_infinite_memory_ordered_partial {cap : Nat} {pick : Nat → List BufFrag → Nat}
    (hp : Picks pick) (s : PDec) {pool : List BufFrag} (hpool : ∀ bf ∈ pool, bf.stor.length = cap)
    (f : Nat → MSt) (h0 : f 0 = s.startOrdered pool) :
    ¬ ∀ i, (f i).mode ≠ .done ∧ (f i).step cap pick = some (f (i + 1)) := by
  intro h
  have hl : ∀ n i, MSt.loop cap pick n (f i) = some (f (i + n)) := by
    intro n
    induction n with
    | zero => intro i; rfl
    | succ n ih =>
      intro i
      rw [MSt.loop, if_neg (h i).1, (h i).2]
      simp only [ih]
      congr 2; omega
  have h1 := hl (OSt.fuel cap s.file) 0
  rw [h0] at h1
  exact (h _).1 ((MSt.loop_fuel hp s (room_of_stor hpool) 0).2 _ h1)

/-- A checkpoint with a damaged dictionary (12 bytes that are no record) after some padding: the iterator
returns `false`, ordered decoding ends. -/
example : ∃ s : PDec, s.file.eof = false ∧ s.good = true ∧ s.bf.hasMore = false ∧
    (s.next.map fun r => (r.1, r.2.2.good)) = some (false, false) ∧
    ((s.ordered 100 [] fun _ => firstMin).map fun r => (r.mode, r.good)) = some (.done, false) :=
  ⟨⟨⟨[0, 0] ++ checkpointBytes 0 ⟨1, 2, [0, 0, 0, 0, 0, 0, 224, 65], 12, 3⟩ ++ List.replicate 11 7, false⟩, true,
    ⟨0, 0, [], 0, 0⟩, ⟨List.replicate 100 0, 0, []⟩, BufFrag.init 100, []⟩, by decide +kernel⟩

/-! ## C50 -/

/-- **C50**, iterator (partial as `C50_file_partial`): one or more executions of a program in preprocessor
mode; a new decoder opens the file, calling the iterator until it returns `false` yields exactly the calls
consumed, in order, and no error.  (This is how `minMaxMean` reads the log.) -/
theorem C50_iterator_partial {ss : List PStmt} {ls : List (List LitItem)} (hok : StmtsOK ss ls)
    {es : List PEntry} {fns : GenFns} (hp : Program ss es fns) (cfg : Config) (ho : cfg.output < 2 ^ 32)
    (hs : cfg.staging + 9 < 2 ^ 32) {junk : Nat → Nat} {j : Nat} {c : Checkpoint} {ops : List POp}
    (h : OpsP cfg es fns none true (.start junk j c :: ops ++ [.flush])) :
    ∃ st ns l, PSt.run cfg es fns ⟨[], []⟩ (.start junk j c :: ops ++ [.flush]) = some (st, ns) ∧
      ConsumedP fns none (.start junk j c :: ops ++ [.flush]) ns l ∧ st.buf = [] ∧
      ∀ (raw : List Byte) (bf : BufFrag), 2 * cfg.output ≤ raw.length → bf.stor.length = cfg.staging + 9 →
        bf.hasMore = false →
        ∃ s ms, openM raw bf st.file = some (true, s) ∧ All2 (PPrints ss) l ms ∧
          ∀ n, ms.length < n → ∃ s', s.iterate n = some s' ∧ s'.out = ms ∧ s'.good = true ∧
            s'.file = ⟨[], true⟩ := by
  obtain ⟨f1, -⟩ := stmts_fit hok hp.entries
  obtain ⟨st, ns, l, b, X, h1, h2, h3, hc, hb, i3, i4⟩ := runP_file cfg h
  refine ⟨st, ns, l, h1, h2, h3, ?_⟩
  intro raw bf hraw hbf hmore
  obtain ⟨c', d, r1, r2, r3, r4, r5⟩ := readDictP_ok f1 hb hc ho (d := ⟨raw, 0, []⟩) (.inl rfl) hraw
    ⟨0, 0, [], 0, 0⟩ X false
  obtain ⟨s1, ms, l1, l2, l3, l4, l5⟩ := iterateM_holds hp f1 ho hs i4 ⟨⟨X, false⟩, true, c', d, bf, []⟩ rfl
    ⟨hmore, rfl, rfl⟩ (fun c0 h0 => by cases h0; exact ⟨r2, r3⟩) r4 (by rw [r5]; exact hraw) hbf
  refine ⟨_, ms, by rw [openM, i3, r1]; rfl, l5, fun n hn => ?_⟩
  obtain ⟨s', e1, e2, e3, e4, -⟩ := iterateM_end l2 l4 (n - ms.length - 1)
  refine ⟨s', ?_, by rw [e2, l3]; rfl, e3, e4⟩
  have := l1 (n - ms.length - 1)
  rw [show ms.length + (n - ms.length - 1 + 1) = n by omega] at this
  rw [← e1, ← this]

/-- The two executions of the example of `C50_file_partial`, a new decoder. -/
example : ∃ q, OpsP Config.default exEntries exFns none true
      (.start (fun _ => 0) 0 exTimes :: [.batch (fun _ => 0) [exPCall0, exPCall] (q ++ [1, 2, 3]) 84 3 true,
        .flush, .start (fun n => n) 5 exTimes',
        .batch (fun n => n) [exPCall0, exPCall] (q ++ [1, 2, 3]) 30 70000 false] ++ [.flush]) ∧
    Program exStmts exEntries exFns ∧ StmtsOK exStmts exElems ∧
    (BufFrag.init (2 ^ 20 + 9)).stor.length = Config.default.staging + 9 ∧
    (BufFrag.init (2 ^ 20 + 9)).hasMore = false := by
  obtain ⟨q, hq⟩ := exQueued
  exact ⟨q, exOpsP hq, exProgram, exStmts_ok, List.length_replicate .., rfl⟩

end NanoLog
