import Verif.Props.EndToEnd
import Verif.Props.ComposedReturn
import Verif.Props.ComposedQuiet

/-!
# C74: the default decompressor prints every message in the end

`sync`, and infinite executions, with the output of `decompressTo` (`orderedFile`) in place of the unordered loop.
-/

namespace NanoLog

variable {cfg : Config} {prog : List Site}

/-- Full claim: when `sync` has returned, everything logged before is printed (false of the code as for C66:
`C66_unordered_false`, and, if threads end, `C31_delete_false`).
Proved here: when `sync` (or the one in `setLogFile`) has been woken, not spuriously, the ordered decompressor prints all
messages of calls that had returned when it was called and whose stores had reached memory by then, which includes all
messages of the calling thread; each thread's in call order, if its time stamps increase.  As in `C66_sync_partial`, for
programs in which at most one thread logs or no thread that logs ends before. -/
theorem C74_sync_partial (hP : ProgOK cfg prog) (h0 : 0 < cfg.staging) {ls ls' : List CLbl} {c c1 c2 : Cr} {t : Nat} {l : Lbl}
    {sw : Bool} (h : CrExec cfg prog ls c) (hl : l = .sync t ∨ l = .setFile t true)
    (ha : c.act cfg prog (.rt l) = .ok c1) (hr : c1.run cfg prog ls' = .ok c2) (hok : ∀ l' ∈ ls', l'.OK cfg prog)
    (hw : (c2.rt.thr t).pc = .woken sw) (hs : .rt (.spurious t) ∉ ls')
    (hc : allocs (calls (ls ++ .rt l :: ls')) ≤ 1 ∨
      allocs (calls (ls ++ .rt l :: ls')) ≤ 2 ^ 32 ∧ ∀ u, .exit u ∉ ls ++ .rt l :: ls')
    {o : Objs} (hu : Used (cfg.staging + 9) o) :
    (c.sb t).buf = [] ∧
    ∃ outs : List (List OutMsg), c2.rt.files.map (orderedFile (cfg.staging + 9) o) = outs.map some ∧
      ∀ u b, (c2.rt.thr u).bid = some b → ∃ n msgs, ((c.sb u).buf = [] → finished u ls ≤ n) ∧
        n ≤ (mustRecord prog u (calls (ls ++ .rt l :: ls'))).length ∧
        List.Forall₂ (MsgOf prog b) ((mustRecord prog u (calls (ls ++ .rt l :: ls'))).take n) msgs ∧
        (outs.flatten.filter fun m => m.tid == b).Perm msgs ∧
        ((stamps u (calls (ls ++ .rt l :: ls'))).Pairwise (· < ·) → (outs.flatten.filter fun m => m.tid == b) = msgs) := by
  obtain ⟨f0, ms, f1, f2⟩ := C66_sync_partial hP h0 h hl ha hr hok hw hs hc
  have hx : CrExec cfg prog (ls ++ .rt l :: ls') c2 := by
    obtain ⟨jk, k, c0, e1, e2, e3, e4, e5⟩ := h
    refine ⟨jk, k, c0, e1, e2, e3, fun l' hl' => ?_, ?_⟩
    · rcases List.mem_append.1 hl' with hm | hm
      · exact e4 l' hm
      · rcases List.mem_cons.1 hm with rfl | hm
        · rcases hl with rfl | rfl <;> trivial
        · exact hok l' hm
    · refine Cr.run_app e5 ?_
      simp only [Cr.run, ha]
      exact hr
  have hn : allocs (calls (ls ++ .rt l :: ls')) ≤ 2 ^ 32 := by
    rcases hc with h | h
    · exact Nat.le_trans h (by decide)
    · exact h.1
  obtain ⟨ms', outs, g1, g2, g3, g4⟩ := exec_ordered hP h0 hx hn hu
  rw [f1] at g1
  obtain rfl := some_inj g1
  refine ⟨f0, outs, g2, fun u b hb => ?_⟩
  obtain ⟨n, k1, k2, k3⟩ := f2 u b hb
  exact ⟨n, _, k1, k2, k3, g3.1.filter _, g4 u b hb⟩

/-- Full claim: every message is printed at some time (false of the code, as for C53: `C53_threads_false`).
Proved here: whatever had been logged by calls that have returned at time `k` is printed by the ordered decompressor from
some time `J` on, at whatever moment it is run and whatever the decoder object was used for before, without gaps for each
thread, and in call order if its time stamps increase; while threads go on logging, calling `sync` and `setLogFile`, and
ending, for ever.  Hypotheses: as for `C67_busy_partial`. -/
theorem C74_busy_partial (hP : ProgOK cfg prog) (hL : LiveOK cfg prog) (h0 : 0 < cfg.staging) (r : CrRun cfg prog)
    (hF : r.Fair) {K : Nat} (hs : r.NoStartFrom K) (hroom : 3 * cfg.staging + 25 ≤ cfg.output)
    (hn : ∀ j, allocs (calls (r.labels j)) ≤ 2 ^ 32) (k : Nat) :
    ∃ J ≥ k, ∀ j ≥ J, ∀ o, Used (cfg.staging + 9) o → ∃ outs : List (List OutMsg),
      (r.σ j).rt.files.map (orderedFile (cfg.staging + 9) o) = outs.map some ∧
      ∀ u b, ((r.σ j).rt.thr u).bid = some b → ∃ n msgs, finished u (r.labels k) ≤ n ∧
        n ≤ (mustRecord prog u (calls (r.labels j))).length ∧
        List.Forall₂ (MsgOf prog b) ((mustRecord prog u (calls (r.labels j))).take n) msgs ∧
        (outs.flatten.filter fun m => m.tid == b).Perm msgs ∧
        ((stamps u (calls (r.labels j))).Pairwise (· < ·) → (outs.flatten.filter fun m => m.tid == b) = msgs) := by
  obtain ⟨J, hJ, hb⟩ := C67_busy_partial hP hL h0 r hF hs hroom hn k
  refine ⟨J, hJ, fun j hj o hu => ?_⟩
  obtain ⟨ms, f1, f2⟩ := hb j hj
  obtain ⟨ms', outs, g1, g2, g3, g4⟩ := exec_ordered hP h0 (r.exec j) (hn j) hu
  rw [f1] at g1
  obtain rfl := some_inj g1
  refine ⟨outs, g2, fun u b hb => ?_⟩
  obtain ⟨n, k1, k2, k3⟩ := f2 u b hb
  exact ⟨n, _, k1, k2, k3, g3.1.filter _, g4 u b hb⟩

/-- Full claim as for `C74_busy_partial`.  Proved here, if from `K` on no log call returns and neither `sync` nor
`setLogFile` is called: from some time on the ordered decompressor prints everything the threads that are not in a log
call have logged, once, and nothing else of these threads. -/
theorem C74_persisted_partial (hP : ProgOK cfg prog) (hL : LiveOK cfg prog) (h0 : 0 < cfg.staging) (r : CrRun cfg prog)
    (hF : r.Fair) {K : Nat} (hq : r.QuietFrom K) (he : (r.σ K).rt.exit = false)
    (hn : ∀ j, allocs (calls (r.labels j)) ≤ 2 ^ 32) :
    ∃ J ≥ K, ∀ j ≥ J, ∀ o, Used (cfg.staging + 9) o → ∃ outs : List (List OutMsg),
      (r.σ j).rt.files.map (orderedFile (cfg.staging + 9) o) = outs.map some ∧
      ∀ t b, ((r.σ j).rt.thr t).bid = some b →
        (((r.σ j).rt.thr t).pc = .idle ∨ ((r.σ j).rt.thr t).pc = .exited) →
        ∃ msgs, List.Forall₂ (MsgOf prog b) (mustRecord prog t (calls (r.labels j))) msgs ∧
        (outs.flatten.filter fun m => m.tid == b).Perm msgs ∧
        ((stamps t (calls (r.labels j))).Pairwise (· < ·) → (outs.flatten.filter fun m => m.tid == b) = msgs) := by
  obtain ⟨J, hJ, hb⟩ := C69_persisted_partial hP hL h0 r hF hq he hn
  refine ⟨J, hJ, fun j hj o hu => ?_⟩
  obtain ⟨ms, f1, f2⟩ := hb j hj
  obtain ⟨ms', outs, g1, g2, g3, g4⟩ := exec_ordered hP h0 (r.exec j) (hn j) hu
  rw [f1] at g1
  obtain rfl := some_inj g1
  exact ⟨outs, g2, fun t b hb hpc => ⟨_, f2 t b hb hpc, g3.1.filter _, g4 t b hb⟩⟩

/-- Case for `C74_sync_partial`: thread 2 calls `sync` after thread 1 has logged; when it returns the message is printed. -/
example : ∃ c c1 c2, CrExec exCfg exSites (exCr1 ++ exCrDrain 1 22) c ∧ c.act exCfg exSites (.rt (.sync 2)) = .ok c1 ∧
    c1.run exCfg exSites (exCrSynced 2) = .ok c2 ∧ (c2.rt.thr 2).pc = .woken false ∧
    allocs (calls (exCr1 ++ exCrDrain 1 22 ++ .rt (.sync 2) :: exCrSynced 2)) ≤ 1 ∧ (c.sb 1).buf = [] ∧
    c.rt.files.map (orderedFile 265 (Objs.new 265)) = [some []] ∧
    (c2.rt.files.map (orderedFile 265 (Objs.new 265))).map (Option.map (List.map OutMsg.ts)) = [some [1000]] := by
  obtain ⟨c, c1, c2, h1, h2, h3, hp⟩ := exCrSync_ok (ls := exCr1 ++ exCrDrain 1 22) (l := .sync 2) (ls' := exCrSynced 2)
    (p := fun c c2 => (c2.rt.thr 2).pc = .woken false && (c.sb 1).buf = [] &&
      c.rt.files.map (orderedFile 265 (Objs.new 265)) = [some []] &&
      (c2.rt.files.map (orderedFile 265 (Objs.new 265))).map (Option.map (List.map OutMsg.ts)) = [some [1000]])
    (by decide +kernel) (by decide +kernel)
  simp only [Bool.and_eq_true, decide_eq_true_eq] at hp
  exact ⟨c, c1, c2, h1, h2, h3, hp.1.1.1, by decide +kernel, hp.1.1.2, hp.1.2, hp.2⟩

/-- Case for `C74_persisted_partial`: at 30 the message of thread 1 is in the store buffer of its processor. -/
example : ∃ (r : CrRun exCfg exSites), r.Fair ∧ r.QuietFrom 30 ∧ (r.σ 30).rt.exit = false ∧
    ((r.σ 30).sb 1).buf.length = 22 ∧ (∀ j, allocs (calls (r.labels j)) ≤ 2 ^ 32) ∧
    ∃ J ≥ 30, ∀ j ≥ J, ∀ o, Used 265 o → ∃ outs : List (List OutMsg),
      (r.σ j).rt.files.map (orderedFile 265 o) = outs.map some ∧
      ∀ t b, ((r.σ j).rt.thr t).bid = some b →
        (((r.σ j).rt.thr t).pc = .idle ∨ ((r.σ j).rt.thr t).pc = .exited) →
        ∃ msgs, List.Forall₂ (MsgOf exSites b) (mustRecord exSites t (calls (r.labels j))) msgs ∧
        (outs.flatten.filter fun m => m.tid == b).Perm msgs ∧
        ((stamps t (calls (r.labels j))).Pairwise (· < ·) → (outs.flatten.filter fun m => m.tid == b) = msgs) := by
  obtain ⟨r, c0, h0, hF, hl, hσ, hq, hn⟩ := exCrLasso (ls := exCrWait) (by decide +kernel) (by decide +kernel) (by decide +kernel)
    (by decide +kernel)
  have hlen : exCrWait.length = 97 := by decide +kernel
  have hc : exCrCheck (exCrWait.take 30) (fun c => !c.rt.exit && (c.sb 1).buf.length == 22) = true := by decide +kernel
  unfold exCrCheck at hc
  rw [h0] at hc
  simp only [hσ 30 (by omega), Bool.and_eq_true, beq_iff_eq, Bool.not_eq_true'] at hc
  have hq' : r.QuietFrom 30 := CrRun.quietFrom (crFrom hl hq _ (fun _ h => h) (by decide +kernel))
  have hn' : ∀ j, allocs (calls (r.labels j)) ≤ 2 ^ 32 := fun j => Nat.le_trans (hn j) (by rw [hlen]; decide)
  exact ⟨r, hF, hq', hc.1, hc.2, hn', C74_persisted_partial exProgOK exLive (by decide) r hF hq' hc.1 hn'⟩

/-- Case for `C74_busy_partial`. -/
example : ∃ (r : CrRun exCfg exSites), r.Fair ∧ r.NoStartFrom 7 ∧
    ∃ J ≥ 77, ∀ j ≥ J, ∀ o, Used 265 o → ∃ outs : List (List OutMsg),
      (r.σ j).rt.files.map (orderedFile 265 o) = outs.map some ∧
      ∀ u b, ((r.σ j).rt.thr u).bid = some b → ∃ n msgs, finished u (r.labels 77) ≤ n ∧
        n ≤ (mustRecord exSites u (calls (r.labels j))).length ∧
        List.Forall₂ (MsgOf exSites b) ((mustRecord exSites u (calls (r.labels j))).take n) msgs ∧
        (outs.flatten.filter fun m => m.tid == b).Perm msgs ∧
        ((stamps u (calls (r.labels j))).Pairwise (· < ·) → (outs.flatten.filter fun m => m.tid == b) = msgs) := by
  obtain ⟨r, c0, h0, hF, hl, hσ, hq, hn⟩ := exCrLasso (ls := exCrE) (by decide +kernel) (by decide +kernel) (by decide +kernel)
    (by decide +kernel)
  have hlen : exCrE.length ≤ 2 ^ 32 := by decide +kernel
  have hs : r.NoStartFrom 7 := by
    intro j hj t h
    by_cases hjl : j < exCrE.length
    · rw [hl j hjl] at h
      have := List.all_eq_true.1 (show (exCrE.drop 7).all (fun l => match l with | .rt (.push _) => false | _ => true) = true by
        decide +kernel) (.rt (.push t)) (List.mem_of_getElem? (i := j - 7) (by
          rw [List.getElem?_drop, show 7 + (j - 7) = j by omega]; exact h))
      cases this
    · exact (hq j (by omega) _ h).2 t rfl
  exact ⟨r, hF, hs, C74_busy_partial exProgOK exLive (by decide) r hF hs (by decide) (fun j => Nat.le_trans (hn j) hlen) 77⟩

end NanoLog
