import Verif.ComposedReturn
import Verif.Props.ComposedBusy

/-!
# C68: log calls return

For the infinite executions of `Composed.lean`, in which a thread whose staging buffer is full waits for the background
thread.
-/

namespace NanoLog

variable {cfg : Config} {prog : List Site}

/-- Full claim: every log call returns (false of the code if threads start for ever: the background thread may then never
write, `C53_threads_false`, and a thread whose staging buffer is full waits for it).
Proved here: a thread in a log call at time `k`, at whatever place, returns from it, also if its staging buffer is full
and it has to wait.  Hypotheses: as for `C67_busy_partial`, and `CrRun.Runs`. -/
theorem C68_returns_partial (hP : ProgOK cfg prog) (hL : LiveOK cfg prog) (h0 : 0 < cfg.staging) (r : CrRun cfg prog)
    (hF : r.Fair) (hR : r.Runs) {K : Nat} (hs : r.NoStartFrom K) (hroom : 3 * cfg.staging + 25 ≤ cfg.output) {k t : Nat}
    (hc : ((r.σ k).rt.thr t).pc.inCall = true) : ∃ j ≥ k, r.lbl j = some (.finish t) := by
  obtain ⟨als, bls, hf⟩ := r.flat hP h0
  obtain ⟨r', h⟩ := hf.run
  obtain ⟨j, hj, ⟨m, hm⟩, -⟩ := CrRun.comes hR _ k hc rfl
  obtain ⟨i, hi, hl⟩ := h.returns hP hL h0 hF hR hs hroom hm
  exact ⟨i, by omega, hl⟩

theorem finished_mono (t : Nat) {a b : List CLbl} (h : a <+: b) : finished t a ≤ finished t b := by
  obtain ⟨x, rfl⟩ := h
  induction x generalizing a with
  | nil => simp
  | cons l x ih =>
    have := ih (a := a ++ [l])
    rw [finished_snoc, List.append_assoc] at this
    exact Nat.le_trans (Nat.le_add_right _ _) this

theorem CrRun.labels_mono (r : CrRun cfg prog) {k j : Nat} (h : k ≤ j) : r.labels k <+: r.labels j := by
  induction j, h using Nat.le_induction with
  | base => exact List.prefix_rfl
  | succ j h ih => rw [r.labels_succ]; exact ih.trans (List.prefix_append _ _)

/-- Full claim as for `C68_returns_partial`.  Proved here: the message of a log call in progress at time `k` is decoded
from the files from some time on, after the messages of all earlier calls of the same thread. -/
theorem C68_recorded_partial (hP : ProgOK cfg prog) (hL : LiveOK cfg prog) (h0 : 0 < cfg.staging) (r : CrRun cfg prog)
    (hF : r.Fair) (hR : r.Runs) {K : Nat} (hs : r.NoStartFrom K) (hroom : 3 * cfg.staging + 25 ≤ cfg.output)
    (hn : ∀ j, allocs (calls (r.labels j)) ≤ 2 ^ 32) {k t : Nat} (hc : ((r.σ k).rt.thr t).pc.inCall = true) :
    ∃ J ≥ k, ∀ j ≥ J, ∃ outs : List (List OutMsg),
      (r.σ j).rt.files.map (decodeFile (cfg.staging + 9)) = outs.map some ∧
      ∀ b, ((r.σ j).rt.thr t).bid = some b → ∃ n, finished t (r.labels k) < n ∧
        n ≤ (mustRecord prog t (calls (r.labels j))).length ∧
        List.Forall₂ (MsgOf prog b) ((mustRecord prog t (calls (r.labels j))).take n)
          (outs.flatten.filter fun m => m.tid == b) := by
  obtain ⟨i, hi, hl⟩ := C68_returns_partial hP hL h0 r hF hR hs hroom hc
  obtain ⟨J, hJ, h⟩ := C67_busy_partial hP hL h0 r hF hs hroom hn (i + 1)
  refine ⟨J, by omega, fun j hj => ?_⟩
  obtain ⟨outs, h1, h2⟩ := h j hj
  refine ⟨outs, h1, fun b hb => ?_⟩
  obtain ⟨n, h3, h4, h5⟩ := h2 t b hb
  refine ⟨n, Nat.lt_of_lt_of_le ?_ h3, h4, h5⟩
  rw [r.labels_succ, hl, Option.toList_some, finished_snoc]
  have := finished_mono t (r.labels_mono hi)
  simp
  omega

/-- Thread 1 logs one more message. -/
def exCrMore (ts : Nat) (n : Int) : List CLbl :=
  ([.call 1 0 [.int .i32 n], .readId 1 false, .stamp 1 ts, .reserve 1].map .rt) ++
  exStores 1 (entryBytes exSite0 ⟨0, ts, [.int .i32 n]⟩)

/-- Twelve messages of twenty bytes in a staging buffer of 256 bytes; then the call of a thirteenth, which finds no
space at the end and may not start over at the beginning, as nothing has been read. -/
def exCrFull : List CLbl :=
  exCr1 ++ (List.range 11).flatMap (fun i => exCrMore (1001 + i) i) ++ exCrDrain 1 264 ++
  exRt [.call 1 0 [.int .i32 70000], .readId 1 false, .stamp 1 1020, .reserve 1] ++
  [.write 1 (.reserve 20), .write 1 .pstep, .write 1 .pstep]

/-- The background thread reads the twelve messages, the thread starts over at the beginning and writes the thirteenth,
which is read as well. -/
def exCrFreed : List CLbl :=
  exCrFull ++ exRt [.top, .dict false] ++ [.peek, .follow] ++ (List.range 240).map .look ++
  [.encode (fun _ => 0) [], .storeC 1] ++ (List.range 120).map .look ++ [.encode (fun _ => 0) [], .storeC 1] ++
  List.replicate 5 (.write 1 .pstep) ++
  ((entryBytes exSite0 ⟨0, 1020, [.int .i32 70000]⟩).zipIdx.map fun p => .write 1 (.put p.2 p.1)) ++ [.finish 1] ++
  exRt [.scanned none, .aio, .write, .disk 140] ++ exCrDrain 1 26 ++ exRt [.top, .dict false] ++ [.peek, .follow, .follow] ++
  (List.range 20).map .look ++ [.encode (fun _ => 0) [], .storeC 1, .storeC 1] ++
  exRt [.scanned none, .aio, .aioDone none, .write, .disk 13]

/-- Case for `C68_returns_partial` and `C68_recorded_partial`: at time 586 the thread waits for space, twelve calls have
returned and nothing has been read; the call returns and thirteen messages reach the file. -/
example : ∃ (r : CrRun exCfg exSites), r.Fair ∧ r.Runs ∧ r.NoStartFrom 7 ∧ ((r.σ 586).rt.thr 1).pc.inCall = true ∧
    (∃ n c, ((r.σ 586).sb 1).pc = .wrapping n c) ∧ ((r.σ 586).sb 1).got = [] ∧ finished 1 (r.labels 586) = 12 ∧
    (∃ j ≥ 586, r.lbl j = some (.finish 1)) ∧
    ∃ J ≥ 586, ∀ j ≥ J, ∃ outs : List (List OutMsg),
      (r.σ j).rt.files.map (decodeFile 265) = outs.map some ∧
      ∀ b, ((r.σ j).rt.thr 1).bid = some b → ∃ n, finished 1 (r.labels 586) < n ∧
        n ≤ (mustRecord exSites 1 (calls (r.labels j))).length ∧
        List.Forall₂ (MsgOf exSites b) ((mustRecord exSites 1 (calls (r.labels j))).take n)
          (outs.flatten.filter fun m => m.tid == b) := by
  have hc : exCrCheck exCrFreed (fun c => crIdleB c && (c.sb 1).cbuf.isEmpty && (c.sb 2).cbuf.isEmpty) = true := by
    decide +kernel
  have hl : exCrFreed.all exCLbl = true := by decide +kernel
  have hw : (exCrFreed.all fun l => l.who == none || l.who == some 1 || l.who == some 2) = true := by decide +kernel
  have hlen : exCrFreed.length ≤ 2 ^ 32 ∧ 586 ≤ exCrFreed.length := by decide +kernel
  unfold exCrCheck at hc
  cases h0 : Cr.init exCfg 0 exCk with
  | none => rw [h0] at hc; cases hc
  | some c0 =>
  have hn : crNotifies c0 exCrFreed = true ∧ crOnce c0 exCrFreed = true := by
    have : (match Cr.init exCfg 0 exCk with | some c0 => crNotifies c0 exCrFreed && crOnce c0 exCrFreed | none => false) = true := by
      decide +kernel
    rw [h0] at this
    simpa using this
  rw [h0] at hc
  simp only at hc
  cases hr : c0.run exCfg exSites exCrFreed with
  | off => rw [hr] at hc; cases hc
  | ub => rw [hr] at hc; cases hc
  | ok c =>
  rw [hr] at hc
  simp only [Bool.and_eq_true, List.isEmpty_iff] at hc
  have hi := crIdleB_idle h0 hr hw hc.1.1
  have hcb : ∀ t, (c.sb t).cbuf = [] := by
    intro t
    by_cases h1 : t = 1
    · rw [h1]; exact hc.1.2
    by_cases h2 : t = 2
    · rw [h2]; exact hc.2
    refine crOnce_cbuf hr hn.2 h1 h2 ?_
    simp only [Cr.init, Option.map_eq_some_iff] at h0
    obtain ⟨x, -, rfl⟩ := h0
    rfl
  let r := crLassoRun exCrFreed c0 c h0 hl hr hi
  have hF : r.Fair := crLassoRun_fair h0 hl hr hi hn.1
  have hR : r.Runs := crLassoRun_runs h0 hl hr hi hcb hn.2
  have hlb : ∀ k < exCrFreed.length, r.lbl k = exCrFreed[k]? := by
    intro k hk
    simp [r, crLassoRun, crLassoLbl, List.getElem?_eq_getElem hk]
  have hlab : ∀ k ≤ exCrFreed.length, r.labels k = exCrFreed.take k := by
    intro k
    induction k with
    | zero => intro _; rfl
    | succ k ih =>
      intro hk
      rw [r.labels_succ, ih (by omega), hlb k (by omega), List.take_add_one]
  have hs : r.NoStartFrom 7 := by
    intro j hj t h
    by_cases hjl : j < exCrFreed.length
    · rw [hlb j hjl] at h
      have := List.all_eq_true.1 (show (exCrFreed.drop 7).all (fun l => match l with | .rt (.push _) => false | _ => true) = true by
        decide +kernel) (.rt (.push t)) (List.mem_of_getElem? (i := j - 7) (by
          rw [List.getElem?_drop, show 7 + (j - 7) = j by omega]; exact h))
      cases this
    · have h2 : r.lbl j = some (crLasso exCrFreed c0 j).idleLbl := by
        simp [r, crLassoRun, crLassoLbl, List.getElem?_eq_none (show exCrFreed.length ≤ j by omega)]
      rw [h2] at h
      exact (crLasso_tail hr hi j (by omega)).lbl.2.2.2.2 t (Option.some.inj h)
  have hst : c0.run exCfg exSites exCrFull = .ok (r.σ 586) := by
    have := crLasso_prefix hr 586 hlen.2
    have hpre : exCrFull <+: exCrFreed := by
      unfold exCrFreed
      simp only [List.append_assoc]
      exact List.prefix_append _ _
    have h586 : exCrFull.length = 586 := by decide +kernel
    rw [← h586, ← List.prefix_iff_eq_take.1 hpre] at this
    have hσ : ∀ k, r.σ k = crLasso exCrFreed c0 k := fun _ => rfl
    rw [hσ, this, h586]
  have hp : exCrCheck exCrFull (fun c => (c.rt.thr 1).pc.inCall && (c.sb 1).got.isEmpty &&
      match (c.sb 1).pc with | .wrapping .. => true | _ => false) = true := by decide +kernel
  unfold exCrCheck at hp
  rw [h0] at hp
  simp only [hst, Bool.and_eq_true, List.isEmpty_iff] at hp
  have hall : ∀ j, allocs (calls (r.labels j)) ≤ 2 ^ 32 := fun j =>
    Nat.le_trans (crLassoRun_allocs h0 hl hr hi j) hlen.1
  refine ⟨r, hF, hR, hs, hp.1.1, ?_, hp.1.2, ?_, ?_, ?_⟩
  · have := hp.2
    split at this
    · rename_i n c' e; exact ⟨n, c', e⟩
    · cases this
  · rw [hlab 586 hlen.2]; decide +kernel
  · exact C68_returns_partial exProgOK exLive (by decide) r hF hR hs (by decide) hp.1.1
  · exact C68_recorded_partial exProgOK exLive (by decide) r hF hR hs (by decide) hall hp.1.1

end NanoLog
