import Verif.ComposedLasso
import Verif.Props.RuntimeBusy

/-!
# C67: messages reach the file, with the staging buffers byte by byte

`C53_busy_partial`, `C52_sync_returns_partial` and others, for the infinite executions of `Composed.lean`.
-/

namespace NanoLog

variable {cfg : Config} {prog : List Site}

theorem allocs_le {a b : List Lbl} (h : a <+: b) : allocs a ≤ allocs b := by
  obtain ⟨x, rfl⟩ := h
  simp only [allocs, List.filter_append, List.length_append]
  omega

section
variable {r : CrRun cfg prog} {als bls : Nat → List Lbl} {r' : RtRun cfg prog}

/-- No more ids are given out than in the run it stands for. -/
theorem RunOf.allocs (h : RunOf r als bls r') (hn : ∀ j, allocs (calls (r.labels j)) ≤ 2 ^ 32) (j : Nat) :
    NanoLog.allocs (r'.labels j) ≤ 2 ^ 32 := by
  obtain ⟨G, kls, rr, τ, held, hR, -⟩ := h.rel (j / 8 + 1)
  refine Nat.le_trans (allocs_le (b := als (j / 8 + 1)) ?_) (by rw [hR.alloc]; exact hn _)
  rw [h.labels, h.flat.succ]
  unfold flatTo
  exact List.prefix_append_right_inj _ |>.2 (List.take_prefix _ _)

end

/-- Full claim: every message reaches the file at some time (false of the code, as for C53: `C53_threads_false`).
Proved here, for the runtime with its staging buffers byte by byte: whatever had been logged (by calls that have
returned, whether or not their stores have reached memory) at time `k` is decoded from the files from some time `J` on,
in order and without gaps for each thread, while threads go on logging, registering statements, calling `sync` and
`setLogFile`, and ending, for ever.  Hypotheses: fairness of the scheduler, the disk and the memory; the output buffer is
more than three times as large as a staging buffer (runtime/Config.h:36-41: 64 times); from `K` on no thread starts
using NanoLog. -/
theorem C67_busy_partial (hP : ProgOK cfg prog) (hL : LiveOK cfg prog) (h0 : 0 < cfg.staging) (r : CrRun cfg prog)
    (hF : r.Fair) {K : Nat} (hs : r.NoStartFrom K) (hroom : 3 * cfg.staging + 25 ≤ cfg.output)
    (hn : ∀ j, allocs (calls (r.labels j)) ≤ 2 ^ 32) (k : Nat) :
    ∃ J ≥ k, ∀ j ≥ J, ∃ outs : List (List OutMsg),
      (r.σ j).rt.files.map (decodeFile (cfg.staging + 9)) = outs.map some ∧
      ∀ u b, ((r.σ j).rt.thr u).bid = some b → ∃ n, finished u (r.labels k) ≤ n ∧
        n ≤ (mustRecord prog u (calls (r.labels j))).length ∧
        List.Forall₂ (MsgOf prog b) ((mustRecord prog u (calls (r.labels j))).take n)
          (outs.flatten.filter fun m => m.tid == b) := by
  obtain ⟨als, bls, hf⟩ := r.flat hP h0
  obtain ⟨r', h⟩ := hf.run
  obtain ⟨j1, hj1, hd⟩ := h.drained_all hF k
  obtain ⟨J, hJ, hb⟩ := C53_busy_partial hP hL r' (h.fair hF) (h.noStart hs) hroom (fun j _ t => h.fits hP j t)
    (h.allocs hn) (8 * j1)
  refine ⟨max k J, by omega, fun j hj => ?_⟩
  obtain ⟨outs, f1, f2⟩ := hb (8 * j) (by omega)
  obtain ⟨G, kls, rr, τ, held, hR, hσ⟩ := h.rel j
  have hfl : (r'.σ (8 * j)).files = (r.σ j).rt.files := by
    rw [hσ]
    show G.closed.map _ ++ _ = _
    rw [hR.closed]
    rfl
  refine ⟨outs, by rw [← hfl]; exact f1, fun u b hub => ?_⟩
  obtain ⟨n, g1, g2, g3⟩ := f2 u b (by rw [hσ]; exact (hR.thr u).bid.trans hub)
  rw [h.labels, Flat.to_mul] at g1 g2 g3
  have hpre : mustRecord prog u (als j) <+: mustRecord prog u (calls (r.labels j)) := ⟨_, (hR.obs u).rcd.symm⟩
  refine ⟨n, Nat.le_trans (hd u) g1, Nat.le_trans g2 hpre.length_le, ?_⟩
  rw [take_of_prefix hpre g2]
  exact g3

/-- `exCrB` up to the end of the second write. -/
def exCrE : List CLbl := exCrB.take 158

/-- Case for `C67_busy_partial`: thread 1 logs two messages, the second waits in the store buffer while the first is
read; when its second call has returned nothing is in the file; later both are. -/
example : ∃ (r : CrRun exCfg exSites), r.Fair ∧ r.NoStartFrom 7 ∧ finished 1 (r.labels 77) = 2 ∧
    ((r.σ 77).sb 1).buf.length = 22 ∧ ((r.σ 77).sb 1).got = [] ∧ ((r.σ 77).rt.thr 1).bid = some 0 ∧
    ∃ J ≥ 77, ∀ j ≥ J, ∃ outs : List (List OutMsg),
      (r.σ j).rt.files.map (decodeFile 265) = outs.map some ∧
      ∀ u b, ((r.σ j).rt.thr u).bid = some b → ∃ n, finished u (r.labels 77) ≤ n ∧
        n ≤ (mustRecord exSites u (calls (r.labels j))).length ∧
        List.Forall₂ (MsgOf exSites b) ((mustRecord exSites u (calls (r.labels j))).take n)
          (outs.flatten.filter fun m => m.tid == b) := by
  obtain ⟨r, c0, h0, hF, hl, hσ, hq, hn⟩ := exCrLasso (ls := exCrE) (by decide +kernel) (by decide +kernel) (by decide +kernel)
    (by decide +kernel)
  have hlab : ∀ k ≤ exCrE.length, r.labels k = exCrE.take k := by
    intro k
    induction k with
    | zero => intro _; rfl
    | succ k ih =>
      intro hk
      rw [r.labels_succ, ih (by omega), hl k (by omega), List.take_add_one]
  have hlen : exCrE.length ≤ 2 ^ 32 ∧ 77 ≤ exCrE.length := by decide +kernel
  have hs : r.NoStartFrom 7 := by
    intro j hj t h
    by_cases hjl : j < exCrE.length
    · rw [hl j hjl] at h
      have := List.all_eq_true.1 (show (exCrE.drop 7).all (fun l => match l with | .rt (.push _) => false | _ => true) = true by
        decide +kernel) (.rt (.push t)) (List.mem_of_getElem? (i := j - 7) (by
          rw [List.getElem?_drop, show 7 + (j - 7) = j by omega]; exact h))
      cases this
    · exact (hq j (by omega) _ h).2 t rfl
  have h77 : ∃ c, c0.run exCfg exSites (exCrE.take 77) = .ok c ∧ (c.sb 1).buf.length = 22 ∧ (c.sb 1).got = [] ∧
      (c.rt.thr 1).bid = some 0 := by
    have h1 := hσ 77 hlen.2
    have h2 : exCrCheck (exCrE.take 77) (fun c => (c.sb 1).buf.length = 22 && (c.sb 1).got = [] && (c.rt.thr 1).bid = some 0)
        = true := by decide +kernel
    unfold exCrCheck at h2
    rw [h0] at h2
    simp only [h1, Bool.and_eq_true, decide_eq_true_eq] at h2
    exact ⟨_, h1, h2.1.1, h2.1.2, h2.2⟩
  obtain ⟨c, e1, e2, e3, e4⟩ := h77
  rw [hσ 77 hlen.2] at e1
  cases e1
  refine ⟨r, hF, hs, ?_, e2, e3, e4, ?_⟩
  · rw [hlab 77 hlen.2]; decide +kernel
  · exact C67_busy_partial exProgOK exLive (by decide) r hF hs (by decide) (fun j => Nat.le_trans (hn j) hlen.1) 77

end NanoLog
