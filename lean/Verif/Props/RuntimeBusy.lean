import Verif.RuntimeSwitch
import Verif.Props.RuntimeLive

/-!
# Messages reach the file while threads go on logging (C53)
-/

namespace NanoLog

variable {cfg : Config} {prog : List Site}

/-- Every message reaches the file although logging goes on: whatever had been logged (by calls that have
returned) at time `k` is decoded from the files from some time `J` on, in order and without gaps for each
thread.  Threads may log, register statements, call `sync` and `setLogFile`, and end, for ever.  Hypotheses: the
output buffer is more than three times as large as a staging buffer (runtime/Config.h:36-41: 64 times), what is
in a thread's buffer fits into a staging buffer (C07-C11), and from `K` on no thread starts using NanoLog.  (If
threads go on starting for ever the claim is false, `C53_threads_false`.) -/
theorem C53_busy_partial (hP : ProgOK cfg prog) (hL : LiveOK cfg prog) (r : RtRun cfg prog) (hF : r.Fair)
    {K : Nat} (hs : r.NoStartFrom K) (hroom : 3 * cfg.staging + 25 ≤ cfg.output)
    (hfit : ∀ j ≥ K, ∀ t, queueSize (r.σ j).sites ((r.σ j).thr t).q ≤ cfg.staging)
    (hn : ∀ j, allocs (r.labels j) ≤ 2 ^ 32) (k : Nat) :
    ∃ J ≥ k, ∀ j ≥ J, ∃ outs : List (List OutMsg),
      (r.σ j).files.map (decodeFile (cfg.staging + 9)) = outs.map some ∧
      ∀ u b, ((r.σ j).thr u).bid = some b → ∃ n, returned u (r.labels k) ≤ n ∧
        n ≤ (mustRecord prog u (r.labels j)).length ∧
        List.Forall₂ (MsgOf prog b) ((mustRecord prog u (r.labels j)).take n)
          (outs.flatten.filter fun m => m.tid == b) := by
  obtain ⟨J, hJ, hd⟩ := RtRun.persisted_all hP hL hF hs hroom hfit k
  refine ⟨J, hJ, fun j hj => ?_⟩
  have hdj := hd j hj
  have hx := r.exec j
  obtain ⟨hC, hI⟩ := hx.inv hP
  obtain ⟨outs, a1, a2, -⟩ := C30_prefix hP hx (hn j)
  obtain ⟨outs', b1, g, b2, b3⟩ := onDisk_decode hI hC hdj
  have : outs' = outs := by
    rw [a1] at b1
    exact (List.map_injective_iff.2 (fun _ _ h => Option.some.inj h) b1).symm
  subst this
  refine ⟨outs', a1, ?_⟩
  intro u b hub
  obtain ⟨n, g1, -⟩ := a2 u b hub
  have h3 := from_thread b2 (fun t u b => (hx.bids.2 (hn j)).2 t u b) (t := u) (b := b) hub
  have hlen := h3.length_eq
  have hge := b3 u
  have hret := returned_log (r.exec k) u
  have hg := g1.length_eq
  rw [List.length_take] at hg
  refine ⟨min n (mustRecord prog u (r.labels j)).length, by omega, Nat.min_le_right _ _, ?_⟩
  rw [List.take_eq_take_min] at g1
  exact g1

/-- Every staging buffer is served although logging goes on: if a thread's buffer is not empty, a message
is taken from it later.  Hypotheses as for `C53_busy_partial`. -/
theorem C53_served_partial (hP : ProgOK cfg prog) (hL : LiveOK cfg prog) (r : RtRun cfg prog) (hF : r.Fair)
    {K : Nat} (hs : r.NoStartFrom K) (hroom : 3 * cfg.staging + 25 ≤ cfg.output)
    (hfit : ∀ j ≥ K, ∀ t, queueSize (r.σ j).sites ((r.σ j).thr t).q ≤ cfg.staging)
    {k t : Nat} (hq : ((r.σ k).thr t).q ≠ []) :
    ∃ j ≥ k, ((r.σ k).thr t).log.length - ((r.σ k).thr t).q.length <
      ((r.σ j).thr t).log.length - ((r.σ j).thr t).q.length := by
  have hcount : ∀ j, ((r.σ j).thr t).log.length = (byThr t (r.σ j).encoded).length + ((r.σ j).thr t).q.length := by
    intro j
    have := congrArg List.length (((r.exec j).inv hP).1.thr t).log
    rwa [List.length_append] at this
  have hpos : 0 < ((r.σ k).thr t).q.length := List.length_pos_iff.2 hq
  have hk := hcount k
  obtain ⟨j, hj, hd⟩ := RtRun.persisted_all hP hL hF hs hroom hfit k
  have hle : ((r.σ k).thr t).log.length ≤ (byThr t (r.σ j).encoded).length := by
    have h1 : (r.σ j).encoded = (r.σ j).persisted ++ (r.σ j).gO ++ (r.σ j).gB := rfl
    rcases hd j (Nat.le_refl _) with h | ⟨-, h⟩
    · exact Nat.le_trans (h t) (byThr_prefix (by rw [h1, List.append_assoc]; exact List.prefix_append _ _) t)
    · exact Nat.le_trans (h t) (byThr_prefix (by rw [h1]; exact List.prefix_append _ _) t)
  have := hcount j
  exact ⟨j, hj, by omega⟩

/-! ## Case: `C52_starved_false` -/

/-- Messages the step adds to the queue of `u`. -/
def Lbl.adds (u : Nat) : Lbl → Nat
  | .commit t => if t = u then 1 else 0
  | _ => 0

/-- Only a completed log call makes a queue longer. -/
theorem act_q_len {s s' : Rt} {l : Lbl} (hC : RtInv s) (hC' : RtInv s') (ha : s.act cfg prog l = .ok s') (u : Nat) :
    (s'.thr u).q.length ≤ (s.thr u).q.length + l.adds u := by
  have h1 := congrArg List.length (hC.thr u).log
  have h2 := congrArg List.length (hC'.thr u).log
  have h3 : (s'.thr u).log.length = (s.thr u).log.length + l.adds u := by
    rw [act_log_eq ha u]; cases l <;> rfl
  have h4 := byThr_prefix (act_hist hC ha).2.2 u
  rw [List.length_append] at h1 h2
  omega

/-- At most one message is queued at any time. -/
theorem sv_short {r : RtRun exCfg exSites} (hl : ∀ k, r.lbl k = some (svLbl k))
    (hq : ∀ m, ((r.σ (17 + 14 * m)).thr 2).q = []) (k u : Nat) (hk : 17 ≤ k) :
    ((r.σ k).thr u).q.length ≤ 1 := by
  have hstep : ∀ k, ((r.σ (k + 1)).thr u).q.length ≤ ((r.σ k).thr u).q.length + (svLbl k).adds u := by
    intro k
    have hs := r.step k
    rw [hl k] at hs
    exact act_q_len ((r.exec k).inv exProgOK).1 ((r.exec (k + 1)).inv exProgOK).1 hs u
  by_cases hu : u = 2
  · subst hu
    have h5 : ∀ i < 14, i ≠ 4 → (match svRound[i]? with | some (.commit _) => false | _ => true) = true := by
      decide +kernel
    have key : ∀ m i, i ≤ 14 → ((r.σ (17 + 14 * m + i)).thr 2).q.length ≤ if i ≤ 4 then 0 else 1 := by
      intro m i
      induction i with
      | zero => intro _; rw [Nat.add_zero, hq m]; simp
      | succ i ih =>
        intro hi
        have h1 := ih (by omega)
        have h2 := hstep (17 + 14 * m + i)
        have h3 := svLbl_round (m := m) (i := i) (by omega)
        by_cases h4 : i = 4
        · subst h4
          simp only [Nat.le_refl, if_true] at h1
          refine Nat.le_trans h2 ?_
          rw [if_neg (by omega)]
          have : (svLbl (17 + 14 * m + 4)).adds 2 ≤ 1 := by
            unfold Lbl.adds
            split
            · split <;> omega
            · omega
          omega
        · have h6 := h5 i (by omega) h4
          rw [h3] at h6
          have h7 : (svLbl (17 + 14 * m + i)).adds 2 = 0 := by
            unfold Lbl.adds
            split at h6
            · cases h6
            · rename_i hne
              split
              · rename_i t ht; exact absurd (by rw [ht]) (hne t)
              · rfl
          rw [h7] at h2
          refine Nat.le_trans h2 (Nat.le_trans h1 ?_)
          split <;> split <;> omega
    have h1 := key ((k - 17) / 14) ((k - 17) % 14) (by omega)
    rw [show 17 + 14 * ((k - 17) / 14) + (k - 17) % 14 = k by omega] at h1
    refine Nat.le_trans h1 ?_
    split <;> omega
  · have h0 : ∀ k, ((r.σ k).thr u).q.length ≤ 0 := by
      intro k
      induction k with
      | zero =>
        obtain ⟨jk, c, -, -, hi⟩ := r.start
        unfold Rt.init at hi
        split at hi
        · cases hi
        · rw [← Option.some.inj hi]; simp [Thr.init]
      | succ k ih =>
        refine Nat.le_trans (hstep k) ?_
        have := List.all_eq_true.1 (show ((svStart ++ svRound).all fun l => match l with | .commit t => t == 2 | _ => true)
          = true by decide +kernel) _ (svLbl_mem k)
        unfold Lbl.adds
        split
        · rename_i t ht
          rw [ht] at this
          simp only [beq_iff_eq] at this
          rw [if_neg (by omega)]; exact ih
        · exact ih
    exact Nat.le_trans (h0 k) (by omega)

/-- Case for `C53_served_partial` and `C53_busy_partial`: threads log for ever, a call of `sync` is waiting for
ever, and what has been logged at any time gets to the file. -/
example : ∃ (r : RtRun exCfg exSites), r.Fair ∧ r.NoStartFrom 17 ∧
    (∀ k, ∃ j ≥ k, r.lbl j = some (.commit 2)) ∧
    ∀ k, ∃ J ≥ k, ∀ j ≥ J, ∃ outs : List (List OutMsg),
      (r.σ j).files.map (decodeFile 265) = outs.map some ∧
      ∀ u b, ((r.σ j).thr u).bid = some b → ∃ n, returned u (r.labels k) ≤ n ∧
        n ≤ (mustRecord exSites u (r.labels j)).length ∧
        List.Forall₂ (MsgOf exSites b) ((mustRecord exSites u (r.labels j)).take n)
          (outs.flatten.filter fun m => m.tid == b) := by
  obtain ⟨r, hF, hl, hq, hw, hc⟩ := sv_run
  have hround : ∀ (p : Lbl → Bool), svRound.all p = true → ∀ k ≥ 17, p (svLbl k) = true := by
    intro p hp k hk
    have := svLbl_round (m := (k - 17) / 14) (i := (k - 17) % 14) (by omega)
    rw [show 17 + 14 * ((k - 17) / 14) + (k - 17) % 14 = k by omega] at this
    exact List.all_eq_true.1 hp _ (List.mem_of_getElem? this)
  have hb : r.NoStartFrom 17 := by
    intro j hj t h
    rw [hl j] at h
    have := hround Lbl.busy (by decide +kernel) j hj
    rw [Option.some.inj h] at this
    cases this
  have hfit : ∀ j ≥ 17, ∀ t, queueSize (r.σ j).sites ((r.σ j).thr t).q ≤ exCfg.staging := by
    intro j hj t
    have h1 := sv_short hl hq j t hj
    obtain ⟨hC, hI⟩ := (r.exec j).inv exProgOK
    match h : ((r.σ j).thr t).q with
    | [] => simp [queueSize]
    | [c] =>
      have hm : c ∈ ((r.σ j).thr t).log := by rw [(hC.thr t).log, h]; simp
      obtain ⟨site, is, ds, ok, -, -, hs⟩ := hI.log t c hm
      simp only [queueSize, List.map_cons, List.map_nil, List.sum_cons, List.sum_nil, callSize, ok.site]
      omega
    | _ :: _ :: _ => rw [h] at h1; simp at h1
  have hn : ∀ j, allocs (r.labels j) ≤ 2 ^ 32 := by
    intro j
    have : allocs (r.labels j) ≤ min j 17 := by
      induction j with
      | zero => simp [RtRun.labels, allocs]
      | succ j ih =>
        have happ : ∀ a b : List Lbl, allocs (a ++ b) = allocs a + allocs b := by
          intro a b; simp only [allocs, List.filter_append, List.length_append]
        rw [r.labels_succ, hl j, happ]
        by_cases hj : j < 17
        · have : allocs (some (svLbl j)).toList ≤ 1 := List.length_filter_le _ _
          omega
        · have := hround (fun l => match l with | .takeId _ => false | _ => true) (by decide +kernel) j (by omega)
          have h2 : allocs (some (svLbl j)).toList = 0 := by
            simp only [Option.toList_some, allocs, List.length_eq_zero_iff]
            rw [List.filter_cons_of_neg]
            · rfl
            · split <;> rename_i h
              · rw [h] at this; cases this
              · simp
          omega
    have : min j 17 ≤ 2 ^ 32 := by omega
    omega
  refine ⟨r, hF, hb, fun k => ?_, ?_⟩
  · obtain ⟨j, hj, h1, -⟩ := hc k
    exact ⟨j, hj, h1⟩
  · exact C53_busy_partial exProgOK exLive r hF hb (by decide) hfit hn

end NanoLog
