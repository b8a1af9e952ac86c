import Verif.RuntimeNew
import Verif.Props.RuntimeBusy

/-!
# Messages that are never written because new threads keep starting (C53)
-/

namespace NanoLog

/-- The claim of C53 is false if threads go on starting for ever: in this fair execution, in which nobody
calls `sync` or `setLogFile` and no thread ends or waits, a message logged by thread 0 stays in its staging buffer for
ever although no thread has more than one message queued; the other hypotheses of `C53_served_partial` hold.
While the background thread works on the last buffer of `threadBuffers` a new thread appends another
buffer, so the scan never comes back to the first one. -/
theorem C53_threads_false : ∃ (r : RtRun exCfg exSites) (K : Nat), r.Fair ∧
    (∀ k l, r.lbl k = some l → l.logging = true) ∧
    ProgOK exCfg exSites ∧ LiveOK exCfg exSites ∧ 3 * exCfg.staging + 25 ≤ exCfg.output ∧
    (∀ j ≥ K, ((r.σ j).thr 0).q = [nwMsg] ∧ (r.σ j).exit = false ∧
      ∀ t, ((r.σ j).thr t).q.length ≤ 1 ∧ queueSize (r.σ j).sites ((r.σ j).thr t).q ≤ exCfg.staging) ∧
    ∀ k, ∃ j ≥ k, ∃ t, r.lbl j = some (.push t) := by
  obtain ⟨r, hF, hl, hN'⟩ := nw_run
  have hN := fun k hk => (hN' k hk).1
  have hfit : ∀ j ≥ 24, ∀ t, queueSize (r.σ j).sites ((r.σ j).thr t).q ≤ exCfg.staging := by
    intro j hj t
    have h1 := (hN j hj).short t
    obtain ⟨hC, hI⟩ := (r.exec j).inv exProgOK
    match h : ((r.σ j).thr t).q with
    | [] => simp [queueSize]
    | [c] =>
      have hm : c ∈ ((r.σ j).thr t).log := by rw [(hC.thr t).log, h]; simp
      obtain ⟨site, is, ds, ok, -, -, hs⟩ := hI.log t c hm
      simp only [queueSize, List.map_cons, List.map_nil, List.sum_cons, List.sum_nil, callSize, ok.site]
      omega
    | _ :: _ :: _ => rw [h] at h1; simp at h1
  refine ⟨r, 24, hF, hl, exProgOK, exLive, by decide, fun j hj => ⟨(hN j hj).zero, (hN j hj).exit, fun t =>
    ⟨(hN j hj).short t, hfit j hj t⟩⟩, fun k => ?_⟩
  by_contra hno
  have hb : r.NoStartFrom (max k 24) := fun j hj t h => hno ⟨j, by omega, t, h⟩
  have hlog : ∀ j ≥ max k 24, ((r.σ j).thr 0).log.length = ((r.σ (max k 24)).thr 0).log.length := by
    intro j hj
    induction j, hj using Nat.le_induction with
    | base => rfl
    | succ j hj ih =>
      rw [← ih]
      have hs := r.step j
      cases hlj : r.lbl j with
      | none => rw [hlj] at hs; simp only at hs; rw [hs]
      | some l =>
        rw [hlj] at hs
        rw [act_log_eq hs 0]
        cases l <;> try rfl
        case commit t =>
          have : t ≠ 0 := fun h => (hN' j (by omega)).2 (by rw [hlj, h])
          simp [this]
  obtain ⟨j, hj, h1⟩ := C53_served_partial exProgOK exLive r hF hb (by decide)
    (fun j hj t => hfit j (by omega) t) (k := max k 24) (t := 0) (by rw [(hN _ (by omega)).zero]; simp)
  rw [hlog j hj, (hN j (by omega)).zero, (hN _ (by omega)).zero] at h1
  omega

end NanoLog
