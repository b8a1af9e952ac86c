import Verif.ComposedLasso
import Verif.Props.ComposedBusy

/-!
# C69: `sync` and `setLogFile` return, and everything reaches the file once logging stops, with the staging buffers byte by byte

`C52_sync_returns_later_partial`, `C52_setLogFile_returns_partial` and `C53_persisted_partial`, for the infinite
executions of `Composed.lean`.
-/

namespace NanoLog

variable {cfg : Config} {prog : List Site}

/-- From `K` on nothing is logged (no log call returns) and `sync` and `setLogFile` are not called; stores may still
be pending, and threads may be in the middle of a call. -/
def CrRun.QuietFrom (r : CrRun cfg prog) (K : Nat) : Prop :=
  ∀ j ≥ K, ∀ l, r.lbl j = some l → (∀ m, l = .rt m → m.quiet = true) ∧ ∀ t, l ≠ .finish t

section
variable {r : CrRun cfg prog} {als bls : Nat → List Lbl} {r' : RtRun cfg prog}

theorem CrRun.finished_const (r : CrRun cfg prog) {K : Nat} (hq : ∀ j ≥ K, ∀ t, r.lbl j ≠ some (.finish t)) (t : Nat) {j : Nat}
    (hj : K ≤ j) : finished t (r.labels j) = finished t (r.labels K) := by
  induction j, hj using Nat.le_induction with
  | base => rfl
  | succ j hj ih =>
    rw [r.labels_succ]
    cases hl : r.lbl j with
    | none => simpa using ih
    | some l =>
      rw [Option.toList_some, finished_snoc, ih]
      have := hq j hj t
      rw [hl] at this
      cases l <;> simp at this ⊢
      rename_i u
      exact this

theorem returned_pos {u : Nat} {l : List Lbl} (h : .commit u ∈ l) : 0 < returned u l :=
  List.length_pos_of_mem (a := .commit u) (List.mem_filter.2 ⟨h, by simp⟩)

/-- Nothing is published any more when no log call has returned for a while. -/
theorem RunOf.published (h : RunOf r als bls r') (hF : r.Fair) {K : Nat} (hq : ∀ j ≥ K, ∀ t, r.lbl j ≠ some (.finish t)) :
    ∃ J ≥ K, (∀ j ≥ J, ∀ t, returned t (als j) = finished t (r.labels j)) ∧
      ∀ n ≥ 8 * J, ∀ u, r'.lbl n ≠ some (.commit u) := by
  obtain ⟨J, hJ, hd⟩ := h.drained_all hF K
  have heq : ∀ j ≥ J, ∀ t, returned t (als j) = finished t (r.labels j) := by
    intro j hj t
    obtain ⟨G, kls, rr, τ, held, hR, -⟩ := h.rel j
    have h1 := hR.count t
    have h2 := hd t
    have h3 := h.flat.returned_le t hj
    have h4 := r.finished_const hq t (j := j) (by omega)
    omega
  refine ⟨J, hJ, heq, fun n hn u hl => ?_⟩
  obtain ⟨l, -, -, e3⟩ := h.block hl
  have h1 := heq (n / 8) (by omega) u
  have h2 := heq (n / 8 + 1) (by omega) u
  have h3 := r.finished_const hq u (j := n / 8) (by omega)
  have h4 := r.finished_const hq u (j := n / 8 + 1) (by omega)
  have h5 := returned_pos e3
  rw [h.flat.succ] at h2
  simp only [returned, List.filter_append, List.length_append] at h1 h2 h5
  omega

/-- A step there that is not calm is the same step here, or publishes a message. -/
theorem RunOf.loud (h : RunOf r als bls r') {n : Nat} {b : Lbl} (hb : r'.lbl n = some b) (hc : b.calm = false)
    (hx : ∀ u, b ≠ .commit u) : r.lbl (n / 8) = some (.rt b) := by
  obtain ⟨l, e1, e2, e3⟩ := h.block hb
  rcases e2.loud b e3 hc with ⟨u, e⟩ | e
  · exact absurd e (hx u)
  · rw [e1, e]

theorem Lbl.calm_quiet {b : Lbl} (h : b.quiet = false) : b.calm = false := by
  cases b <;> simp_all [Lbl.quiet, Lbl.calm]

theorem RunOf.quiet (h : RunOf r als bls r') (hF : r.Fair) {K : Nat} (hq : r.QuietFrom K) :
    ∃ J ≥ K, (∀ j ≥ J, ∀ t, returned t (als j) = finished t (r.labels j)) ∧ r'.QuietFrom (8 * J) := by
  obtain ⟨J, hJ, h1, h2⟩ := h.published hF (K := K) (fun j hj t hl => (hq j hj _ hl).2 t rfl)
  refine ⟨J, hJ, h1, fun n hn b hb => ?_⟩
  by_contra hc
  have hc : b.quiet = false := by simpa using hc
  have := h.loud hb (Lbl.calm_quiet hc) (fun u e => h2 n hn u (by rw [hb, e]))
  rw [(hq (n / 8) (by omega) _ this).1 b rfl] at hc
  cases hc

theorem RunOf.exit (h : RunOf r als bls r') (k : Nat) : (r'.σ (8 * k)).exit = (r.σ k).rt.exit := by
  obtain ⟨G, kls, rr, τ, held, hR, hs⟩ := h.rel k
  rw [hs]; rfl

/-- A thread that waits in `sync` waits there too. -/
theorem RunOf.waits (h : RunOf r als bls r') {k t : Nat} {sw : Bool} (ht : ((r.σ k).rt.thr t).pc = .sync sw) :
    ((r'.σ (8 * k)).thr t).pc = .sync sw := by
  obtain ⟨G, kls, rr, τ, held, hR, hs⟩ := h.rel k
  rw [hs]
  show (G.thr t).pc = _
  have hT := hR.thr t
  cases hk : kls t with
  | cons p rest =>
    have := (hT.lag p rest hk).2.1
    rw [ht] at this; cases this
  | nil =>
    rw [hT.sync hk, aim, if_neg (by rw [ht]; simp), ht]

theorem RunOf.files (h : RunOf r als bls r') (j : Nat) : (r'.σ (8 * j)).files = (r.σ j).rt.files := by
  obtain ⟨G, kls, rr, τ, held, hR, hσ⟩ := h.rel j
  rw [hσ]
  show G.closed.map _ ++ _ = _
  rw [hR.closed]
  rfl

theorem CrRun.exit_const (r : CrRun cfg prog) {K : Nat} (hq : r.QuietFrom K) (hP : ProgOK cfg prog) (h0 : 0 < cfg.staging)
    {j : Nat} (hj : K ≤ j) : (r.σ j).rt.exit = (r.σ K).rt.exit := by
  obtain ⟨als, bls, hf⟩ := r.flat hP h0
  obtain ⟨r', h⟩ := hf.run
  rw [← h.exit, ← h.exit]
  have key : ∀ d, (r'.σ (8 * K + d)).exit = (r'.σ (8 * K)).exit := by
    intro d
    induction d with
    | zero => rfl
    | succ d ih =>
      have hs := r'.step (8 * K + d)
      cases hl : r'.lbl (8 * K + d) with
      | none => rw [hl] at hs; simp only at hs; rw [← Nat.add_assoc, hs, ih]
      | some b =>
        rw [hl] at hs; simp only at hs
        rw [← Nat.add_assoc, ← ih]
        refine act_exit hs ?_ ?_
        · rintro u rfl
          have := (hq _ (by omega) _ (h.loud hl rfl (by simp))).1 _ rfl
          cases this
        · rintro u jk c rfl
          have := (hq _ (by omega) _ (h.loud hl rfl (by simp))).1 _ rfl
          cases this
  have := key (8 * j - 8 * K)
  rwa [show 8 * K + (8 * j - 8 * K) = 8 * j by omega] at this

end

/-- Full claim: every call of `sync` returns (false of the code, as for C52: `C52_starved_false`).  Proved here, with the
staging buffers byte by byte: if thread `t` waits in `sync` at `K0` (also as part of `setLogFile`), and from some time
`K` on no log call returns and neither `sync` nor `setLogFile` is called, the call returns, in every fair execution.
Other threads' messages may still be in their store buffers at `K`. -/
theorem C69_sync_returns_partial (hP : ProgOK cfg prog) (hL : LiveOK cfg prog) (h0 : 0 < cfg.staging) (r : CrRun cfg prog)
    (hF : r.Fair) {K0 K : Nat} (hK : K0 ≤ K) (hq : r.QuietFrom K) (he : (r.σ K).rt.exit = false) {t : Nat} {sw : Bool}
    (ht : ((r.σ K0).rt.thr t).pc = .sync sw) : ∃ j ≥ K0, r.lbl j = some (.rt (.ret t)) := by
  obtain ⟨als, bls, hf⟩ := r.flat hP h0
  obtain ⟨r', h⟩ := hf.run
  obtain ⟨J, hJ, -, hq'⟩ := h.quiet hF hq
  obtain ⟨n, hn, hl⟩ := C52_sync_returns_later_partial hP hL r' (h.fair hF) (K0 := 8 * K0) (K := 8 * J) (by omega) hq'
    (by rw [h.exit, r.exit_const hq hP h0 hJ, he]) (h.waits ht)
  exact ⟨n / 8, by omega, h.loud hl rfl (by simp)⟩

/-- Full claim: every call of `setLogFile` returns (false, as it calls `sync`).  Proved here, with the staging buffers
byte by byte: if thread `t` has called it (at `K0` it waits in `sync`), no other thread is in the second part of
`setLogFile` meanwhile, and from some time `K` on, apart from its steps, nothing is logged and neither `sync` nor
`setLogFile` is called, the call completes in every fair execution. -/
theorem C69_setLogFile_returns_partial (hP : ProgOK cfg prog) (hL : LiveOK cfg prog) (h0 : 0 < cfg.staging)
    (r : CrRun cfg prog) (hF : r.Fair) {K0 K t : Nat} (hK : K0 ≤ K)
    (hq0 : ∀ j ≥ K0, ∀ u, (r.lbl j = some (.rt (.stop u)) → u = t) ∧ ∀ jk c, r.lbl j = some (.rt (.join u jk c)) → u = t)
    (hq : ∀ j ≥ K, ∀ l, r.lbl j = some l →
      (∀ m, l = .rt m → m.quiet = true ∨ m = .stop t ∨ ∃ jk c, m = .join t jk c) ∧ ∀ u, l ≠ .finish u)
    (he : (r.σ K0).rt.exit = false) (ht : ((r.σ K0).rt.thr t).pc = .sync true) :
    ∃ j ≥ K0, ∃ jk c, r.lbl j = some (.rt (.join t jk c)) := by
  obtain ⟨als, bls, hf⟩ := r.flat hP h0
  obtain ⟨r', h⟩ := hf.run
  obtain ⟨J, hJ, -, hp⟩ := h.published hF (K := K) (fun j hj t hl => (hq j hj _ hl).2 t rfl)
  obtain ⟨n, hn, jk, c, hl⟩ := C52_setLogFile_returns_partial hP hL r' (h.fair hF) (K0 := 8 * K0) (K := 8 * J) (t := t)
    (by omega)
    (fun n hn u => ⟨fun hl => (hq0 (n / 8) (by omega) u).1 (h.loud hl rfl (by simp)),
      fun jk c hl => (hq0 (n / 8) (by omega) u).2 jk c (h.loud hl rfl (by simp))⟩)
    (fun n hn b hb => by
      by_cases hc : b.quiet = true
      · exact .inl hc
      · have := h.loud hb (Lbl.calm_quiet (by simpa using hc)) (fun u e => hp n hn u (by rw [hb, e]))
        exact (hq (n / 8) (by omega) _ this).1 b rfl)
    (by rw [h.exit, he]) (h.waits ht)
  exact ⟨n / 8, by omega, jk, c, h.loud hl rfl (by simp)⟩

/-- Full claim: every message reaches the file at some time, whatever else happens (false of the code, as for C53).
Proved here, with the staging buffers byte by byte, for executions in which logging stops: if from `K` on no log call
returns and neither `sync` nor `setLogFile` is called, then from some time `J` on everything the threads that are not in
a log call have logged is decoded from the files, in order, and nothing else; without any call of `sync`, and although
some of it may be in store buffers at `K`. -/
theorem C69_persisted_partial (hP : ProgOK cfg prog) (hL : LiveOK cfg prog) (h0 : 0 < cfg.staging) (r : CrRun cfg prog)
    (hF : r.Fair) {K : Nat} (hq : r.QuietFrom K) (he : (r.σ K).rt.exit = false)
    (hn : ∀ j, allocs (calls (r.labels j)) ≤ 2 ^ 32) :
    ∃ J ≥ K, ∀ j ≥ J, ∃ outs : List (List OutMsg),
      (r.σ j).rt.files.map (decodeFile (cfg.staging + 9)) = outs.map some ∧
      ∀ t b, ((r.σ j).rt.thr t).bid = some b →
        (((r.σ j).rt.thr t).pc = .idle ∨ ((r.σ j).rt.thr t).pc = .exited) →
        List.Forall₂ (MsgOf prog b) (mustRecord prog t (calls (r.labels j)))
          (outs.flatten.filter fun m => m.tid == b) := by
  obtain ⟨als, bls, hf⟩ := r.flat hP h0
  obtain ⟨r', h⟩ := hf.run
  obtain ⟨J, hJ, hret, hq'⟩ := h.quiet hF hq
  obtain ⟨J', hJ', hp⟩ := C53_persisted_partial hP hL r' (h.fair hF) hq'
    (by rw [h.exit, r.exit_const hq hP h0 hJ, he]) (h.allocs hn)
  refine ⟨max J J', by omega, fun j hj => ?_⟩
  obtain ⟨outs, f1, f2⟩ := hp (8 * j) (by omega)
  refine ⟨outs, by rw [← h.files]; exact f1, fun t b hb hpc => ?_⟩
  obtain ⟨G, kls, rr, τ, held, hR, hσ⟩ := h.rel j
  have hT := hR.thr t
  have hk : kls t = [] := by
    have h1 := (hR.obs t).ret
    have h2 := hret j (by omega) t
    exact List.length_eq_zero_iff.1 (by omega)
  have hpc' : ((r'.σ (8 * j)).thr t).pc = .idle ∨ ((r'.σ (8 * j)).thr t).pc = .exited := by
    rw [hσ]
    show (G.thr t).pc = _ ∨ (G.thr t).pc = _
    rw [hT.sync hk, aim]
    split
    · exact .inl rfl
    · exact hpc
  have := f2 t b (by rw [hσ]; exact hT.bid.trans hb) hpc'
  rw [h.labels, Flat.to_mul] at this
  rw [(hR.obs t).rcd, hk]
  simpa [lagR] using this

/-! ## Concrete executions -/

/-- Thread 2 calls `sync` while the message of thread 1 is in the store buffer; the call returns. -/
def exCrWait : List CLbl :=
  exCr1 ++ [.rt (.sync 2)] ++ exCrDrain 1 22 ++ exCrSynced 2 ++ exRt [.ret 2, .write]

/-- Thread 2 calls `setLogFile`; afterwards the new file gets its checkpoint and dictionary. -/
def exCrSwitch : List CLbl :=
  exCr1 ++ [.rt (.setFile 2 true)] ++ exCrDrain 1 22 ++ exCrSynced 2 ++
    exRt [.write, .ret 2, .stop 2, .top, .join 2 0 exCk, .top, .dict false] ++ exEmpty ++
    exRt [.scanned none, .aio, .write, .disk 68]

/-- What `CrRun.QuietFrom` allows. -/
def CLbl.still : CLbl → Bool
  | .rt m => m.quiet
  | .finish _ => false
  | _ => true

/-- Steps of the second part of `setLogFile` by thread 2. -/
def CLbl.ofTwo : CLbl → Bool
  | .rt (.stop t) | .rt (.join t _ _) => t == 2
  | _ => false

theorem still_bg {l : CLbl} (h : l.ofBg = true) : l.still = true := by
  cases l <;> simp [CLbl.still, CLbl.ofBg] at h ⊢
  rename_i m
  cases m <;> simp_all [Lbl.quiet, Lbl.ofBg]

theorem crFrom {r : CrRun cfg prog} {ls : List CLbl} {K : Nat} (h1 : ∀ k < ls.length, r.lbl k = ls[k]?)
    (h2 : ∀ k ≥ ls.length, ∀ l, r.lbl k = some l → l.ofBg = true ∧ ∀ t, l ≠ .rt (.push t)) (p : CLbl → Bool)
    (hp : ∀ l : CLbl, l.still = true → p l = true) (hq : ((ls.drop K).all p) = true) :
    ∀ j ≥ K, ∀ l, r.lbl j = some l → p l = true := by
  intro j hj l hl
  by_cases h : j < ls.length
  · rw [h1 j h] at hl
    refine List.all_eq_true.1 hq l (List.mem_of_getElem? (i := j - K) ?_)
    rw [List.getElem?_drop, Nat.add_sub_cancel' hj, hl]
  · exact hp _ (still_bg (h2 j (by omega) l hl).1)

theorem CrRun.quietFrom {r : CrRun cfg prog} {K : Nat} (h : ∀ j ≥ K, ∀ l, r.lbl j = some l → l.still = true) :
    r.QuietFrom K := by
  intro j hj l hl
  have := h j hj l hl
  cases l <;> simp_all [CLbl.still]

/-- Case for `C69_sync_returns_partial` and `C69_persisted_partial`: when thread 2 waits in `sync`, all stores of thread 1
are pending. -/
example : ∃ (r : CrRun exCfg exSites), r.Fair ∧ r.QuietFrom 30 ∧ (r.σ 30).rt.exit = false ∧
    ((r.σ 30).rt.thr 2).pc = .sync false ∧ ((r.σ 30).sb 1).buf.length = 22 ∧ finished 1 (r.labels 30) = 1 ∧
    (∀ j, allocs (calls (r.labels j)) ≤ 2 ^ 32) ∧ (∃ j ≥ 30, r.lbl j = some (.rt (.ret 2))) ∧
    ∃ J ≥ 30, ∀ j ≥ J, ∃ outs : List (List OutMsg),
      (r.σ j).rt.files.map (decodeFile 265) = outs.map some ∧
      ∀ t b, ((r.σ j).rt.thr t).bid = some b →
        (((r.σ j).rt.thr t).pc = .idle ∨ ((r.σ j).rt.thr t).pc = .exited) →
        List.Forall₂ (MsgOf exSites b) (mustRecord exSites t (calls (r.labels j)))
          (outs.flatten.filter fun m => m.tid == b) := by
  obtain ⟨r, c0, h0, hF, hl, hσ, hq, hn⟩ := exCrLasso (ls := exCrWait) (by decide +kernel) (by decide +kernel) (by decide +kernel)
    (by decide +kernel)
  have hlen : exCrWait.length = 97 := by decide +kernel
  have hc : exCrCheck (exCrWait.take 30) (fun c => !c.rt.exit && (c.rt.thr 2).pc == .sync false && (c.sb 1).buf.length == 22)
      = true := by decide +kernel
  unfold exCrCheck at hc
  rw [h0] at hc
  simp only [hσ 30 (by omega), Bool.and_eq_true, beq_iff_eq, Bool.not_eq_true'] at hc
  have hq' : r.QuietFrom 30 := CrRun.quietFrom (crFrom hl hq _ (fun _ h => h) (by decide +kernel))
  have hn' : ∀ j, allocs (calls (r.labels j)) ≤ 2 ^ 32 := fun j => Nat.le_trans (hn j) (by rw [hlen]; decide)
  have hlab : ∀ k ≤ exCrWait.length, r.labels k = exCrWait.take k := by
    intro k
    induction k with
    | zero => intro _; rfl
    | succ k ih =>
      intro hk
      rw [r.labels_succ, ih (by omega), hl k (by omega), List.take_add_one]
  refine ⟨r, hF, hq', hc.1.1, hc.1.2, hc.2, ?_, hn', ?_, ?_⟩
  · rw [hlab 30 (by omega)]; decide +kernel
  · exact C69_sync_returns_partial exProgOK exLive (by decide) r hF (Nat.le_refl _) hq' hc.1.1 hc.1.2
  · exact C69_persisted_partial exProgOK exLive (by decide) r hF hq' hc.1.1 hn'

/-- Case for `C69_setLogFile_returns_partial`. -/
example : ∃ (r : CrRun exCfg exSites), r.Fair ∧
    (∀ j ≥ 30, ∀ u, (r.lbl j = some (.rt (.stop u)) → u = 2) ∧ ∀ jk c, r.lbl j = some (.rt (.join u jk c)) → u = 2) ∧
    (∀ j ≥ 30, ∀ l, r.lbl j = some l →
      (∀ m, l = .rt m → m.quiet = true ∨ m = .stop 2 ∨ ∃ jk c, m = .join 2 jk c) ∧ ∀ u, l ≠ .finish u) ∧
    (r.σ 30).rt.exit = false ∧ ((r.σ 30).rt.thr 2).pc = .sync true ∧ ((r.σ 30).sb 1).buf.length = 22 ∧
    ∃ j ≥ 30, ∃ jk c, r.lbl j = some (.rt (.join 2 jk c)) := by
  obtain ⟨r, c0, h0, hF, hl, hσ, hq, -⟩ := exCrLasso (ls := exCrSwitch) (by decide +kernel) (by decide +kernel) (by decide +kernel)
    (by decide +kernel)
  have hc : exCrCheck (exCrSwitch.take 30) (fun c => !c.rt.exit && (c.rt.thr 2).pc == .sync true && (c.sb 1).buf.length == 22)
      = true := by decide +kernel
  unfold exCrCheck at hc
  rw [h0] at hc
  simp only [hσ 30 (by decide +kernel), Bool.and_eq_true, beq_iff_eq, Bool.not_eq_true'] at hc
  have hs : ∀ j ≥ 30, ∀ l, r.lbl j = some l → (l.still || l.ofTwo) = true :=
    crFrom hl hq _ (fun _ h => by simp [h]) (by decide +kernel)
  have hq0 : ∀ j ≥ 30, ∀ u, (r.lbl j = some (.rt (.stop u)) → u = 2) ∧
      ∀ jk c, r.lbl j = some (.rt (.join u jk c)) → u = 2 := by
    intro j hj u
    exact ⟨fun h => by simpa [CLbl.still, CLbl.ofTwo, Lbl.quiet] using hs j hj _ h,
      fun jk c h => by simpa [CLbl.still, CLbl.ofTwo, Lbl.quiet] using hs j hj _ h⟩
  have hq' : ∀ j ≥ 30, ∀ l, r.lbl j = some l →
      (∀ m, l = .rt m → m.quiet = true ∨ m = .stop 2 ∨ ∃ jk c, m = .join 2 jk c) ∧ ∀ u, l ≠ .finish u := by
    intro j hj l h
    have h2 := hs j hj l h
    refine ⟨fun m e => ?_, fun u e => ?_⟩
    · subst e
      cases m <;> simp [CLbl.still, CLbl.ofTwo, Lbl.quiet] at h2 ⊢
      all_goals exact h2
    · subst e; simp [CLbl.still, CLbl.ofTwo] at h2
  exact ⟨r, hF, hq0, hq', hc.1.1, hc.1.2, hc.2,
    C69_setLogFile_returns_partial exProgOK exLive (by decide) r hF (Nat.le_refl _) hq0 hq' hc.1.1 hc.1.2⟩

end NanoLog
