import Verif.ComposedBg
import Verif.RuntimeSwitch

/-!
# Infinite executions of the runtime with its staging buffers byte by byte

Executions of `Composed.lean` that go on for ever, what may be expected of the scheduler, the disk and the memory, and
the execution of `Runtime.lean` that each of them stands for.
-/

namespace NanoLog

/-- An infinite execution; `none`: nothing happens at that time. -/
structure CrRun (cfg : Config) (prog : List Site) where
  σ : Nat → Cr
  lbl : Nat → Option CLbl
  start : ∃ jk k, k.Plain ∧ jk < 2 ^ 62 ∧ Cr.init cfg jk k = some (σ 0)
  ok : ∀ k l, lbl k = some l → l.OK cfg prog
  step : ∀ k, match lbl k with
    | none => σ (k + 1) = σ k
    | some l => (σ k).act cfg prog l = .ok (σ (k + 1))

/-- Fairness, as `RtRun.Fair`.
* `bg`: the background thread comes to a step other than the load of a byte of a message, unless it has ended or waits for
  the disk (runtime/RuntimeLogger.cc:538-548);
* `store`: the oldest pending store of a thread reaches memory at some time (x86 does not delay a store for ever). -/
structure CrRun.Fair {cfg : Config} {prog : List Site} (r : CrRun cfg prog) : Prop where
  bg : ∀ k, ∃ j ≥ k, (∃ l, r.lbl j = some l ∧ l.ofBg = true) ∨ (r.σ j).rt.pc = .dead ∨
    ((r.σ j).rt.pc = .aio ∧ (r.σ j).rt.full = true ∧ ∃ a, (r.σ j).rt.aio = some a ∧ a.done ≠ a.len)
  disk : ∀ k, ∃ j ≥ k, ∀ a, (r.σ j).rt.aio = some a → a.done = a.len
  notify : ∀ k, r.lbl k = some (.rt (.scanned none)) → (r.σ k).rt.mem (r.σ k).rt.encPtr = [] →
    (r.σ k).rt.status ≠ .requested → (r.σ k).rt.idleStatus = .completed →
    ∀ u sw, ((r.σ k).rt.thr u).pc ≠ .sync sw
  ret : ∀ k t sw, ((r.σ k).rt.thr t).pc = .woken sw → ∃ j ≥ k, r.lbl j = some (.rt (.ret t))
  stop : ∀ k t, ((r.σ k).rt.thr t).pc = .stop → ∃ j ≥ k, r.lbl j = some (.rt (.stop t))
  join : ∀ k t, (∀ j ≥ k, ((r.σ j).rt.thr t).pc = .join ∧ (r.σ j).rt.pc = .dead) →
    ∃ j ≥ k, ∃ jk c, r.lbl j = some (.rt (.join t jk c))
  fresh : ∀ k, (∀ j ≥ k, (r.σ j).rt.sites = (r.σ k).rt.sites) →
    ∃ j ≥ k, ∀ i ≥ j, r.lbl i ≠ some (.rt (.dict true))
  store : ∀ k t, ((r.σ k).sb t).buf ≠ [] → ∃ j ≥ k, r.lbl j = some (.store t)

/-- From `K` on no thread starts using NanoLog. -/
def CrRun.NoStartFrom {cfg : Config} {prog : List Site} (r : CrRun cfg prog) (K : Nat) : Prop :=
  ∀ j ≥ K, ∀ t, r.lbl j ≠ some (.rt (.push t))

/-- The labels up to `k`. -/
def CrRun.labels {cfg : Config} {prog : List Site} (r : CrRun cfg prog) (k : Nat) : List CLbl :=
  (List.range k).filterMap r.lbl

section
variable {cfg : Config} {prog : List Site}

theorem CrRun.labels_succ (r : CrRun cfg prog) (k : Nat) :
    r.labels (k + 1) = r.labels k ++ (r.lbl k).toList := by
  rw [CrRun.labels, List.range_succ, List.filterMap_append]
  cases h : r.lbl k <;> simp [h, CrRun.labels]

theorem Cr.run_app {c c1 c2 : Cr} {a b : List CLbl} (h1 : c.run cfg prog a = .ok c1) (h2 : c1.run cfg prog b = .ok c2) :
    c.run cfg prog (a ++ b) = .ok c2 := by
  induction a generalizing c with
  | nil => cases h1; exact h2
  | cons l a ih =>
    simp only [Cr.run, List.cons_append] at h1 ⊢
    split at h1 <;> try cases h1
    exact ih h1

/-- Each state is reached by an execution in the sense of `CrExec`. -/
theorem CrRun.exec (r : CrRun cfg prog) (k : Nat) : CrExec cfg prog (r.labels k) (r.σ k) := by
  induction k with
  | zero =>
    obtain ⟨jk, c, h1, h2, h3⟩ := r.start
    exact ⟨jk, c, _, h1, h2, h3, by simp [CrRun.labels], rfl⟩
  | succ k ih =>
    obtain ⟨jk, c, c0, h1, h2, h3, h4, h5⟩ := ih
    have hs := r.step k
    refine ⟨jk, c, c0, h1, h2, h3, ?_, ?_⟩
    · intro l hl
      rw [r.labels_succ] at hl
      rcases List.mem_append.1 hl with hl | hl
      · exact h4 l hl
      · exact r.ok k l (by simpa using hl)
    · rw [r.labels_succ]
      cases hl : r.lbl k with
      | none => rw [hl] at hs; simp only at hs; rw [hs]; simpa using h5
      | some l =>
        rw [hl] at hs
        simp only at hs
        exact Cr.run_app h5 (by simp [Cr.run, hs])

/-- The steps of `Runtime.lean` an infinite execution stands for: `bls k` those of the step at time `k`. -/
structure Flat (r : CrRun cfg prog) (als bls : Nat → List Lbl) : Prop where
  zero : als 0 = []
  succ : ∀ k, als (k + 1) = als k ++ bls k
  sim : ∀ k, CSim (r.σ 0).rt cfg prog (r.labels k) (r.σ k) (als k)
  none : ∀ k, r.lbl k = none → bls k = []
  some : ∀ k l, r.lbl k = some l → Echo (r.σ k) (r.σ (k + 1)) l (bls k)

theorem CrRun.flat (hP : ProgOK cfg prog) (h0 : 0 < cfg.staging) (r : CrRun cfg prog) : ∃ als bls, Flat r als bls := by
  have hstep : ∀ k als, ∃ bls, CSim (r.σ 0).rt cfg prog (r.labels k) (r.σ k) als →
      CSim (r.σ 0).rt cfg prog (r.labels (k + 1)) (r.σ (k + 1)) (als ++ bls) ∧ (r.lbl k = Option.none → bls = []) ∧
      ∀ l, r.lbl k = Option.some l → Echo (r.σ k) (r.σ (k + 1)) l bls := by
    intro k als
    by_cases h : CSim (r.σ 0).rt cfg prog (r.labels k) (r.σ k) als
    · have hs := r.step k
      rw [r.labels_succ]
      cases hl : r.lbl k with
      | none =>
        rw [hl] at hs; simp only at hs
        exact ⟨[], fun _ => ⟨by rw [hs]; simpa using h, by simp, by simp⟩⟩
      | some l =>
        rw [hl] at hs; simp only at hs
        obtain ⟨G, kls, rr, τ, held, hR⟩ := h
        have hg := Good.act hP hR (r.ok k l hl)
        rw [hs] at hg
        obtain ⟨bls, h1, h2⟩ := hg
        exact ⟨bls, fun _ => ⟨h1, by simp, by rintro l ⟨⟩; exact h2⟩⟩
    · exact ⟨[], fun h' => absurd h' h⟩
  choose g hg using hstep
  let als : Nat → List Lbl := fun k => Nat.rec [] (fun k a => a ++ g k a) k
  have hsim : ∀ k, CSim (r.σ 0).rt cfg prog (r.labels k) (r.σ k) (als k) := by
    intro k
    induction k with
    | zero =>
      obtain ⟨jk, c, h1, h2, h3⟩ := r.start
      exact CSim.init hP h0 h1 h2 h3
    | succ k ih => exact (hg k (als k) ih).1
  exact ⟨als, fun k => g k (als k), rfl, fun _ => rfl, hsim, fun k hk => (hg k (als k) (hsim k)).2.1 hk,
    fun k l hk => (hg k (als k) (hsim k)).2.2 l hk⟩

/-- The steps up to `n`, each step of the run taking the time of eight. -/
def flatTo (als bls : Nat → List Lbl) (n : Nat) : List Lbl := als (n / 8) ++ (bls (n / 8)).take (n % 8)

variable {r : CrRun cfg prog} {als bls : Nat → List Lbl}

theorem Flat.len (h : Flat r als bls) (k : Nat) : (bls k).length ≤ 8 := by
  cases hl : r.lbl k with
  | none => rw [h.none k hl]; simp
  | some l => exact (h.some k l hl).len

theorem Flat.to_succ (h : Flat r als bls) (n : Nat) :
    flatTo als bls (n + 1) = flatTo als bls n ++ ((bls (n / 8))[n % 8]?).toList := by
  unfold flatTo
  by_cases hn : n % 8 = 7
  · have h1 : (n + 1) / 8 = n / 8 + 1 := by omega
    have h2 : (n + 1) % 8 = 0 := by omega
    rw [h1, h2, h.succ, hn, List.take_zero, List.append_nil, List.append_assoc, ← List.take_add_one,
      List.take_of_length_le (h.len _)]
  · have h1 : (n + 1) / 8 = n / 8 := by omega
    have h2 : (n + 1) % 8 = n % 8 + 1 := by omega
    rw [h1, h2, List.append_assoc, ← List.take_add_one]

theorem Flat.to_mul (k : Nat) : flatTo als bls (8 * k) = als k := by
  unfold flatTo
  rw [Nat.mul_div_cancel_left _ (by omega), Nat.mul_mod_right]
  simp

theorem Rt.run_prefix {s s' : Rt} {a b : List Lbl} (h : s.run cfg prog (a ++ b) = .ok s') :
    ∃ s1, s.run cfg prog a = .ok s1 ∧ s1.run cfg prog b = .ok s' := by
  rw [rtRun_append] at h
  cases ha : s.run cfg prog a with
  | ok s1 => rw [ha] at h; exact ⟨s1, rfl, h⟩
  | off => rw [ha] at h; cases h
  | ub => rw [ha] at h; cases h

/-- `r'` is the infinite execution of `Runtime.lean` that `r` stands for. -/
structure RunOf (r : CrRun cfg prog) (als bls : Nat → List Lbl) (r' : RtRun cfg prog) : Prop where
  flat : Flat r als bls
  lbl : ∀ n, r'.lbl n = (bls (n / 8))[n % 8]?
  labels : ∀ n, r'.labels n = flatTo als bls n
  rel : ∀ k, ∃ G kls rr τ held, CRel (r.σ 0).rt cfg prog (r.labels k) (r.σ k) (als k) G kls rr τ held ∧
    r'.σ (8 * k) = (r.σ k).rt.over G

theorem Flat.run (h : Flat r als bls) : ∃ r' : RtRun cfg prog, RunOf r als bls r' := by
  have hex : ∀ n, ∃ s, (r.σ 0).rt.run cfg prog (flatTo als bls n) = .ok s := by
    intro n
    obtain ⟨G, kls, rr, τ, held, hR⟩ := h.sim (n / 8 + 1)
    have := hR.exec.run
    rw [h.succ, ← List.take_append_drop (n % 8) (bls (n / 8)), ← List.append_assoc] at this
    obtain ⟨s, hs, -⟩ := Rt.run_prefix this
    exact ⟨s, hs⟩
  choose σ' hσ using hex
  have hz : σ' 0 = (r.σ 0).rt := by
    have := hσ 0
    rw [show flatTo als bls 0 = [] by simpa using (Flat.to_mul (als := als) (bls := bls) 0).trans h.zero] at this
    exact (Out.ok.inj this).symm
  let r' : RtRun cfg prog :=
    { σ := σ'
      lbl := fun n => (bls (n / 8))[n % 8]?
      start := by
        obtain ⟨jk, c, h1, h2, h3⟩ := r.start
        rw [hz]
        simp only [Cr.init, Option.map_eq_some_iff] at h3
        obtain ⟨s, hs, h3⟩ := h3
        refine ⟨jk, c, h1, h2, ?_⟩
        rw [← h3]
        exact hs
      ok := by
        intro k l hl
        obtain ⟨G, kls, rr, τ, held, hR⟩ := h.sim (k / 8 + 1)
        refine hR.exec.ok l ?_
        rw [h.succ]
        exact List.mem_append_right _ (List.mem_of_getElem? hl)
      step := by
        intro n
        have h1 := hσ (n + 1)
        rw [h.to_succ, rtRun_append, hσ n] at h1
        dsimp only at h1
        cases hl : (bls (n / 8))[n % 8]? with
        | none => rw [hl] at h1; exact (Out.ok.inj h1).symm
        | some l =>
          rw [hl] at h1
          simp only [Option.toList_some, Rt.run] at h1
          dsimp only
          split at h1 <;> try cases h1
          assumption }
  have hlab : ∀ n, r'.labels n = flatTo als bls n := by
    intro n
    induction n with
    | zero => rw [show flatTo als bls 0 = [] by simpa using (Flat.to_mul (als := als) (bls := bls) 0).trans h.zero]; rfl
    | succ n ih => rw [r'.labels_succ, ih, h.to_succ]
  refine ⟨r', h, fun n => rfl, hlab, fun k => ?_⟩
  obtain ⟨G, kls, rr, τ, held, hR⟩ := h.sim k
  refine ⟨G, kls, rr, τ, held, hR, ?_⟩
  have h1 := hσ (8 * k)
  rw [Flat.to_mul, hR.exec.run] at h1
  exact (Out.ok.inj h1).symm

end

end NanoLog
