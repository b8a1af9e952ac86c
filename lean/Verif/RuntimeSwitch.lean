import Verif.RuntimeBusy
import Verif.RuntimeLasso

/-!
# Messages reach the file although `setLogFile` is called again and again

Either the background thread is started again infinitely often; then it must have ended before, which it does
only after a pass that has found all staging buffers empty.  Or it goes on for ever from some time on
(`RuntimeBusy.lean`).
-/

namespace NanoLog

variable {cfg : Config} {prog : List Site}

/-- From `K` on no thread starts using NanoLog. -/
def RtRun.NoStartFrom (r : RtRun cfg prog) (K : Nat) : Prop := ∀ j ≥ K, ∀ t, r.lbl j ≠ some (.push t)

/-- No pass has found everything empty since the message in buffer `j`, which is that of thread `t`, was
logged: if nothing has been encoded in this pass, it has not come to that buffer yet. -/
def Unseen (j t : Nat) (s : Rt) : Prop :=
  match s.pc with
  | .top => s.mem s.encPtr = [] → s.aio ≠ none
  | .dict => s.i = s.last
  | .scan | .encode => s.mem s.encPtr = [] → cyc j s.bufs.length s.i ≤ cyc j s.bufs.length s.last
  | .check => s.mem s.encPtr = [] → cyc j s.bufs.length s.i ≤ cyc j s.bufs.length s.last ∧ s.cur ≠ t
  | .scanned | .aio | .aioDone | .write => s.mem s.encPtr ≠ []
  | .dead => False

theorem unseen_some {j t : Nat} {s : Rt} (hm : s.mem s.encPtr ≠ []) (hd : s.pc ≠ .dead) (hdi : s.pc ≠ .dict) :
    Unseen j t s := by
  unfold Unseen
  split <;> first | exact hm | exact fun h => absurd h hm | (rename_i h; exact absurd h hdi) | (rename_i h; exact absurd h hd)

theorem Aside.unseen {j t : Nat} {s s' : Rt} (h : Aside s s') (ha : s.aio ≠ none → s'.aio ≠ none) (hu : Unseen j t s) :
    Unseen j t s' := by
  unfold Unseen at hu ⊢
  rw [h.pc]
  split at hu <;> (try simp only [h.mem, h.encPtr, h.i, h.last, h.bufs, h.cur]) <;> first
    | exact hu
    | exact fun hm => ha (hu hm)

theorem busy_aio {s s' : Rt} {l : Lbl} (hl : l.ofBg = false) (ha : s.act cfg prog l = .ok s') (hn : s.aio ≠ none) :
    s'.aio ≠ none := by
  cases l <;> simp only [Lbl.ofBg, Bool.true_eq_false] at hl <;>
    simp only [Rt.act, Rt.actLog, Rt.actBuf, Rt.actCtl, Rt.actIo] at ha
  all_goals
    repeat' split at ha
    all_goals first
      | (cases ha; done)
      | (cases ha; exact hn)
      | (cases ha; simp)

/-- The end of an iteration of the scan loop. -/
theorem unseen_adv {j t : Nat} {s s' : Rt} (hj : s.bufs[j]? = some t) (hi : s.i < s.bufs.length)
    (hne : s.mem s.encPtr = [] → s.i ≠ j) (hle : s.mem s.encPtr = [] → cyc j s.bufs.length s.i ≤ cyc j s.bufs.length s.last)
    (h : s.advance (s.i + 1) = .ok s') : Unseen j t s' := by
  have hjl : j < s.bufs.length := by
    by_contra hn; rw [List.getElem?_eq_none (by omega)] at hj; cases hj
  have e := advance_eq h
  by_cases hm : s.mem s.encPtr = []
  · have h1 := cyc_next hjl hi (hne hm)
    have h2 := hle hm
    have h3 : (s.i + 1) % s.bufs.length ≠ s.last := by
      intro h; rw [h] at h1; omega
    rw [e]
    simp only [Unseen, if_neg h3]
    intro _; omega
  · refine unseen_some ?_ ?_ ?_ <;> rw [e]
    · exact hm
    · simp only; split <;> simp
    · simp only; split <;> simp

/-- As long as nothing is taken from the buffer, the background thread does not end. -/
theorem bg_unseen (hP : ProgOK cfg prog) {j t : Nat} {s s' : Rt} {l : Lbl} (hc : RtInv s)
    (hl : l.ofBg = true) (hb : s'.bufs.length = s.bufs.length) (hj : s.bufs[j]? = some t) (hq : ¬ Empty t s s')
    (ha : s.act cfg prog l = .ok s') (hu : Unseen j t s) : Unseen j t s' := by
  have hjl : j < s.bufs.length := by
    by_contra hn; rw [List.getElem?_eq_none (by omega)] at hj; cases hj
  have hbe : s.bufs ≠ [] := by intro h; rw [h] at hjl; simp at hjl
  have hil : ∀ {u}, s.bufs[s.i]? = some u → s.i < s.bufs.length := by
    intro u h; by_contra hn; rw [List.getElem?_eq_none (by omega)] at h; cases h
  have hroom := hP.room
  cases l <;> simp only [Lbl.ofBg, Bool.false_eq_true] at hl <;>
    simp only [Rt.act, Rt.actScan, Rt.actIo, ne_eq] at ha
  case top =>
    split at ha
    · cases ha
    rename_i hpc; simp only [not_not] at hpc
    rw [Unseen, hpc] at hu
    split at ha
    · rename_i hx; exact absurd hx.2.2 (hu hx.2.1)
    · cases ha; simp [Unseen]
  case dict skip =>
    split at ha
    · cases ha
    rename_i hpc; simp only [not_not] at hpc
    rw [Unseen, hpc] at hu
    split at ha
    · cases ha; simp [Unseen, show s.i = s.last from hu]
    · split at ha
      · cases ha
      · cases ha; simp [Unseen, Rt.setEnc, show s.i = s.last from hu]
  case peek n =>
    split at ha
    · cases ha
    rename_i hpc; simp only [not_not] at hpc
    rw [Unseen, hpc] at hu
    split at ha
    · rename_i hx
      cases ha
      rcases hx with hx | hx
      · exact hc.full hx
      · exact absurd hx hbe
    split at ha
    · cases ha
    rename_i u hu'
    split at ha
    · cases ha
    split at ha
    · split at ha
      · rename_i hqu
        cases ha
        refine fun hm => ⟨hu hm, ?_⟩
        rintro rfl
        exact hq ⟨hqu, hpc, rfl, rfl⟩
      · cases ha
    · split at ha
      · cases ha; exact hu
      · cases ha
  case check =>
    split at ha
    · cases ha
    rename_i hpc; simp only [not_not] at hpc
    rw [Unseen, hpc] at hu
    have hcur := hc.curI (.inl hpc)
    have hi := hil hcur
    split at ha
    · exfalso
      have hlen : (s.bufs.eraseIdx s.i).length < s.bufs.length := by
        rw [List.length_eraseIdx_of_lt hi]; omega
      split at ha
      · cases ha
        simp only at hb
        omega
      · have e := advance_eq ha
        rw [e] at hb
        simp only at hb
        omega
    · refine unseen_adv hj hi ?_ (fun hm => (hu hm).1) ha
      rintro hm rfl
      rw [hcur] at hj
      exact (hu hm).2 (Option.some.inj hj)
  case encode junk more =>
    split at ha
    · cases ha
    rename_i hpc; simp only [not_not] at hpc
    split at ha
    · cases ha
    split at ha
    · cases ha
    split at ha
    · rename_i e n he
      have hne := batch_nonempty hroom he
      split at ha
      · have ea := advance_eq ha
        rw [ea]
        refine unseen_some ?_ ?_ ?_
        · simp [Rt.setEnc, hne]
        · simp only; split <;> simp
        · simp only; split <;> simp
      · split at ha
        · cases ha
        · split at ha
          · have ea := advance_eq ha
            rw [ea]
            refine unseen_some ?_ ?_ ?_
            · simp [Rt.setEnc, Rt.setThr, hne]
            · simp only; split <;> simp
            · simp only; split <;> simp
          · cases ha
            refine unseen_some ?_ ?_ ?_
            · simp [Rt.setEnc, Rt.setThr, hne]
            · simp [Rt.setEnc, Rt.setThr, hpc]
            · simp [Rt.setEnc, Rt.setThr, hpc]
    · cases ha
  case scanned w =>
    split at ha
    · cases ha
    rename_i hpc; simp only [not_not] at hpc
    rw [Unseen, hpc] at hu
    rw [if_pos hu] at ha
    cases ha; exact hu
  case aio =>
    split at ha
    · cases ha
    rename_i hpc; simp only [not_not] at hpc
    rw [Unseen, hpc] at hu
    split at ha
    · cases ha; exact hu
    · rename_i a hn
      split at ha
      · cases ha; exact hu
      split at ha
      · cases ha
      · cases ha
        intro _
        show s.aio ≠ none
        rw [hn]; simp
  case aioDone w =>
    split at ha
    · cases ha
    rename_i hpc; simp only [not_not] at hpc
    rw [Unseen, hpc] at hu
    split at ha
    · unfold Rt.notify at ha
      split at ha
      · cases ha; exact hu
      · split at ha <;> cases ha
        exact hu
    · cases ha; exact hu
  case write =>
    split at ha
    · cases ha
    rename_i hpc; simp only [not_not] at hpc
    rw [Unseen, hpc] at hu
    rw [if_neg hu] at ha
    cases ha
    intro _
    simp

/-- A new background thread begins with the checkpoint of the new file. -/
theorem join_unseen {j t u jk : Nat} {c : Checkpoint} {s s' : Rt}
    (ha : s.act cfg prog (.join u jk c) = .ok s') : Unseen j t s' ∧ s.pc = .dead := by
  simp only [Rt.act, Rt.actCtl] at ha
  split at ha <;> try cases ha
  rename_i hpc hdead
  split at ha <;> cases ha
  rename_i e _ he
  have hbuf : e.buf ≠ [] := by
    rw [(start_step he).1]
    obtain ⟨b, bs, hb, -⟩ := checkpointBytes_head jk c
    simp [hb]
  refine ⟨unseen_some ?_ ?_ ?_, hdead⟩ <;> simp [hbuf]

/-- Staging buffers are only deleted if no thread starts. -/
theorem act_bufs {s s' : Rt} {l : Lbl} (hc : RtInv s) (hl : ∀ t, l ≠ .push t) (ha : s.act cfg prog l = .ok s') :
    s'.bufs = s.bufs ∨ s'.bufs.length < s.bufs.length := by
  by_cases hk : l = .check
  · subst hk
    simp only [Rt.act, Rt.actScan, ne_eq] at ha
    split at ha
    · cases ha
    rename_i hpc; simp only [not_not] at hpc
    have hi : s.i < s.bufs.length := by
      by_contra hn
      have := hc.curI (.inl hpc)
      rw [List.getElem?_eq_none (by omega)] at this; cases this
    have hlen : (s.bufs.eraseIdx s.i).length < s.bufs.length := by
      rw [List.length_eraseIdx_of_lt hi]; omega
    split at ha
    · right
      split at ha
      · cases ha; exact hlen
      · rw [advance_eq ha]; exact hlen
    · left; rw [advance_eq ha]
  · left
    cases l <;> simp only [Rt.act, Rt.actLog, Rt.actBuf, Rt.actCtl, Rt.actScan, Rt.actIo] at ha
    case check => exact absurd rfl hk
    case push t => exact absurd rfl (hl t)
    all_goals
      repeat' split at ha
      all_goals first
        | (cases ha; done)
        | (cases ha; rfl)
        | (rw [advance_eq ha]; rfl)
        | (unfold Rt.notify at ha
           repeat' split at ha
           all_goals first
             | (cases ha; done)
             | (cases ha; rfl))

theorem act_exit_eq {s s' : Rt} {l : Lbl} (h1 : ∀ t, l ≠ .stop t) (h2 : ∀ t jk c, l ≠ .join t jk c)
    (ha : s.act cfg prog l = .ok s') : s'.exit = s.exit := by
  cases l
  case top | dict | peek | check | encode => simp only [Rt.act] at ha; exact (actScan_bg ha).exit
  case scanned | aio | aioDone | write | disk => simp only [Rt.act] at ha; exact (actIo_bg ha).exit
  case stop t => exact absurd rfl (h1 t)
  case join t jk c => exact absurd rfl (h2 t jk c)
  all_goals
    simp only [Rt.act, Rt.actLog, Rt.actBuf, Rt.actCtl] at ha
    repeat' split at ha
    all_goals first
      | (cases ha; rfl)
      | cases ha

/-- If the background thread has been told to end, a thread waits for that. -/
theorem RtExec.waits {ls : List Lbl} {s : Rt} (h : RtExec cfg prog ls s) :
    s.exit = true → ∃ t, (s.thr t).pc = .join := by
  refine h.induct (P := fun _ s => s.exit = true → ∃ t, (s.thr t).pc = .join) ?_ ?_
  · intro jk c s h
    unfold Rt.init at h
    split at h <;> cases h
    simp
  · intro ls s l s' hx ih hl ha
    by_cases h1 : ∃ t, l = .stop t
    · obtain ⟨t, rfl⟩ := h1
      intro _
      simp only [Rt.act, Rt.actCtl] at ha
      split at ha <;> cases ha
      exact ⟨t, by simp [Rt.setThr, upd_same]⟩
    by_cases h2 : ∃ t jk c, l = .join t jk c
    · obtain ⟨t, jk, c, rfl⟩ := h2
      simp only [Rt.act, Rt.actCtl] at ha
      split at ha <;> try cases ha
      split at ha <;> cases ha
      simp
    have h2' : ∀ t jk c, l ≠ .join t jk c := fun t jk c h => h2 ⟨t, jk, c, h⟩
    rw [act_exit_eq (fun t h => h1 ⟨t, h⟩) h2' ha]
    intro he
    obtain ⟨t, ht⟩ := ih he
    exact ⟨t, by rw [act_stays ha (.inr (.inr ⟨ht, h2' t⟩)), ht]⟩

/-- A background thread that has ended stays so until it is started again. -/
theorem act_dead {s s' : Rt} {l : Lbl} (h1 : ∀ t, l ≠ .push t) (h2 : ∀ t jk c, l ≠ .join t jk c)
    (ha : s.act cfg prog l = .ok s') (hd : s.pc = .dead) : s'.pc = .dead := by
  cases hb : l.ofBg
  · rw [(busy_aside hb (by cases l <;> first | rfl | exact absurd rfl (h1 _) | exact absurd rfl (h2 _ _ _)) ha).pc, hd]
  · cases l <;> simp only [Lbl.ofBg, Bool.false_eq_true] at hb <;>
      simp [Rt.act, Rt.actScan, Rt.actIo, hd] at ha

section
variable {r : RtRun cfg prog}

theorem RtRun.log_grows (r : RtRun cfg prog) {i j : Nat} (hj : i ≤ j) (t : Nat) :
    ((r.σ i).thr t).log.length ≤ ((r.σ j).thr t).log.length := by
  induction j, hj using Nat.le_induction with
  | base => exact Nat.le_refl _
  | succ j hj ih =>
    refine Nat.le_trans ih ?_
    have hs := r.step j
    cases hl : r.lbl j with
    | none => rw [hl] at hs; simp only at hs; rw [hs]
    | some l => rw [hl] at hs; exact (act_log hs t).length_le

theorem RtRun.hist (hP : ProgOK cfg prog) (r : RtRun cfg prog) (k : Nat) :
    (r.σ k).persisted <+: (r.σ (k + 1)).persisted ∧
    (r.σ k).persisted ++ (r.σ k).gO <+: (r.σ (k + 1)).persisted ++ (r.σ (k + 1)).gO ∧
    (r.σ k).encoded <+: (r.σ (k + 1)).encoded := by
  cases hl : r.lbl k with
  | none =>
    have := r.step k
    rw [hl] at this
    rw [this]
    exact ⟨List.prefix_refl _, List.prefix_refl _, List.prefix_refl _⟩
  | some l => exact act_hist ((r.exec k).inv hP).1 (r.act_of hl)

theorem RtRun.enc_grows (hP : ProgOK cfg prog) (r : RtRun cfg prog) {i j : Nat} (hj : i ≤ j) (t : Nat) :
    (byThr t (r.σ i).encoded).length ≤ (byThr t (r.σ j).encoded).length :=
  byThr_prefix (grows (f := fun k => (r.σ k).encoded) (fun k => (r.hist hP k).2.2) hj) t

/-- The background thread does not end any more if it is not started again. -/
theorem RtRun.not_dead (hP : ProgOK cfg prog) (hF : r.Fair) {K : Nat} (hb : r.BusyFrom K) (k : Nat) (hk : K ≤ k) :
    (r.σ k).pc ≠ .dead := by
  intro hd
  have h1 : ∀ j ≥ K, ∀ l, r.lbl j = some l → (∀ t, l ≠ .push t) ∧ ∀ t jk c, l ≠ .join t jk c := by
    intro j hj l hl
    have := hb j hj l hl
    exact ⟨fun t h => (by rw [h] at this; cases this), fun t jk c h => (by rw [h] at this; cases this)⟩
  obtain ⟨t, ht⟩ := (r.exec k).waits (((r.exec k).ctl hP).dead hd)
  have h2 : ∀ j ≥ k, ((r.σ j).thr t).pc = .join ∧ (r.σ j).pc = .dead := by
    intro j hj
    induction j, hj using Nat.le_induction with
    | base => exact ⟨ht, hd⟩
    | succ j hj ih =>
      cases hl : r.lbl j with
      | none =>
        have := r.step j
        rw [hl] at this
        rw [this]; exact ih
      | some l =>
        obtain ⟨g1, g2⟩ := h1 j (by omega) l hl
        have ha := r.act_of hl
        exact ⟨by rw [act_stays ha (.inr (.inr ⟨ih.1, g2 t⟩)), ih.1], act_dead g1 g2 ha ih.2⟩
  obtain ⟨j, hj, jk, c, hl⟩ := hF.join k t h2
  exact (h1 j (by omega) _ hl).2 t jk c rfl

/-- The background thread is started again and again, no thread starts: it comes to every buffer. -/
theorem RtRun.visited_joins (hP : ProgOK cfg prog) {K : Nat} (hn : r.NoStartFrom K)
    (hj : ∀ k, ∃ j ≥ k, ∃ t jk c, r.lbl j = some (.join t jk c)) (t k : Nat)
    (hmem : ∀ j ≥ k, t ∈ (r.σ j).bufs) : ∃ j ≥ k, Empty t (r.σ j) (r.σ (j + 1)) := by
  have hinv : ∀ k, RtInv (r.σ k) := fun k => ((r.exec k).inv hP).1
  have hbs : ∀ k ≥ K, (r.σ (k + 1)).bufs = (r.σ k).bufs ∨ (r.σ (k + 1)).bufs.length < (r.σ k).bufs.length := by
    intro k hk
    cases hl : r.lbl k with
    | none =>
      have := r.step k
      rw [hl] at this
      rw [this]; exact .inl rfl
    | some l => exact act_bufs (hinv k) (fun t h => hn k hk t (by rw [hl, h])) (r.act_of hl)
  obtain ⟨K1, hK1, hlen⟩ := eventually_const (f := fun k => (r.σ k).bufs.length) (K := K) fun k hk => by
    rcases hbs k hk with h | h
    · rw [h]
    · omega
  by_contra hno
  have hq : ∀ j ≥ k, ¬ Empty t (r.σ j) (r.σ (j + 1)) := fun j hj h => hno ⟨j, hj, h⟩
  have hconst : ∀ j ≥ max k K1, (r.σ j).bufs = (r.σ (max k K1)).bufs := by
    intro j hj
    induction j, hj using Nat.le_induction with
    | base => rfl
    | succ j hj ih =>
      rw [← ih]
      rcases hbs j (by omega) with h | h
      · exact h
      · have := hlen j (by omega); omega
  obtain ⟨x, hx⟩ := List.getElem?_of_mem (hmem (max k K1) (by omega))
  obtain ⟨k1, hk1, u, jk, c, hl1⟩ := hj (max k K1)
  have hun : ∀ j ≥ k1 + 1, Unseen x t (r.σ j) := by
    intro j hj
    induction j, hj using Nat.le_induction with
    | base => exact (join_unseen (r.act_of hl1)).1
    | succ j hj ih =>
      cases hl : r.lbl j with
      | none =>
        have := r.step j
        rw [hl] at this
        rw [this]; exact ih
      | some l =>
        have ha := r.act_of hl
        by_cases h1 : ∃ u jk c, l = .join u jk c
        · obtain ⟨u, jk, c, rfl⟩ := h1
          exact (join_unseen ha).1
        cases hb : l.ofBg
        · refine (busy_aside hb ?_ ha).unseen (busy_aio hb ha) ih
          cases l <;> first
            | rfl
            | exact absurd hl (hn j (by omega) _)
            | exact absurd ⟨_, _, _, rfl⟩ h1
        · refine bg_unseen hP (hinv j) hb (by rw [hconst j (by omega), hconst (j + 1) (by omega)])
            (by rw [hconst j (by omega)]; exact hx) (hq j (by omega)) ha ih
  obtain ⟨k2, hk2, u2, jk2, c2, hl2⟩ := hj (k1 + 1)
  have h1 := hun k2 hk2
  rw [Unseen, (join_unseen (j := x) (t := t) (r.act_of hl2)).2] at h1
  exact h1

/-- The background thread is started again and again, no thread starts: every message is encoded. -/
theorem RtRun.encoded_joins (hP : ProgOK cfg prog) {K : Nat} (hn : r.NoStartFrom K)
    (hj : ∀ k, ∃ j ≥ k, ∃ t jk c, r.lbl j = some (.join t jk c)) (t k n : Nat)
    (hl : n ≤ ((r.σ k).thr t).log.length) : ∃ j ≥ k, n ≤ (byThr t (r.σ j).encoded).length := by
  have hinv : ∀ k, RtInv (r.σ k) := fun k => ((r.exec k).inv hP).1
  by_contra hno
  have hlt : ∀ j ≥ k, (byThr t (r.σ j).encoded).length < n := fun j hj => by
    by_contra h; exact hno ⟨j, hj, by omega⟩
  have hq : ∀ j ≥ k, ((r.σ j).thr t).q ≠ [] := by
    intro j hj h
    have h1 := congrArg List.length ((hinv j).thr t).log
    rw [h, List.append_nil] at h1
    have h2 := r.log_grows hj t
    have h3 := hlt j hj
    omega
  obtain ⟨j, hj, h⟩ := RtRun.visited_joins hP hn hj t k fun j hj => by
    by_contra h; exact hq j hj (((hinv j).thr t).out h)
  exact hq j hj h.1

/-- Whatever has been logged at `k` is in the files from some time on. -/
theorem RtRun.persisted_all (hP : ProgOK cfg prog) (hL : LiveOK cfg prog) (hF : r.Fair)
    {K : Nat} (hn : r.NoStartFrom K) (hroom : 3 * cfg.staging + 25 ≤ cfg.output)
    (hfit : ∀ j ≥ K, ∀ t, queueSize (r.σ j).sites ((r.σ j).thr t).q ≤ cfg.staging) (k : Nat) :
    ∃ J ≥ k, ∀ j ≥ J, OnDisk (fun u => ((r.σ k).thr u).log.length) (r.σ j) := by
  by_cases hj : ∀ k, ∃ j ≥ k, ∃ t jk c, r.lbl j = some (.join t jk c)
  · obtain ⟨B, hfin⟩ := (r.exec k).finite
    have h1 : ∀ B', ∃ j ≥ k, ∀ u < B', ((r.σ k).thr u).log.length ≤ (byThr u (r.σ j).encoded).length := by
      intro B'
      induction B' with
      | zero => exact ⟨k, Nat.le_refl _, fun u hu => by omega⟩
      | succ B' ih =>
        obtain ⟨j1, hj1, h1⟩ := ih
        obtain ⟨j2, hj2, h2⟩ := RtRun.encoded_joins hP hn hj B' k _ (Nat.le_refl _)
        refine ⟨max j1 j2, by omega, fun u hu => ?_⟩
        by_cases hu' : u = B'
        · subst hu'; exact Nat.le_trans h2 (r.enc_grows hP (by omega) _)
        · exact Nat.le_trans (h1 u (by omega)) (r.enc_grows hP (by omega) _)
    obtain ⟨j1, hj1, h1⟩ := h1 B
    obtain ⟨j2, hj2, u, jk, c, hl⟩ := hj j1
    have hc := ((r.exec j2).inv hP).1
    have hd := (join_unseen (j := 0) (t := 0) (r.act_of hl)).2
    have hg1 := hc.gB (hc.dead hd)
    have hg2 := hc.aioNone (hc.pcAio (.inr (.inr hd)))
    have henc : (r.σ j2).encoded = (r.σ j2).persisted := by
      simp only [Rt.encoded, Rt.persisted, hg1, hg2, List.append_nil]
    refine ⟨j2, by omega, fun j hj => .inl fun u => ?_⟩
    by_cases hu : u < B
    · refine Nat.le_trans (h1 u hu) (Nat.le_trans (r.enc_grows hP hj2 u) ?_)
      rw [henc]
      exact byThr_prefix (grows (f := fun k => (r.σ k).persisted) (fun k => (r.hist hP k).1) hj) u
    · simp only [hfin u (by omega)]; exact Nat.zero_le _
  · simp only [not_forall] at hj
    obtain ⟨K1, hK1⟩ := hj
    have hb : r.BusyFrom (max K K1) := by
      intro j hj l hl
      cases l <;> first
        | rfl
        | exact absurd hl (hn j (by omega) _)
        | exact absurd ⟨j, by omega, _, _, _, hl⟩ hK1
    obtain ⟨K', hK', hB⟩ := r.busy hP hL hF hb (RtRun.not_dead hP hF hb)
    obtain ⟨B, hfin⟩ := (r.exec (K' + k)).finite
    obtain ⟨J, hJ, hd⟩ := hB.persisted hroom (fun j t => hfit (K' + j) (by omega) t) (fun j t => r.log_grows (by omega) t) k
      (B := B) (fun u hu => by simp only [hfin u hu]; rfl)
    refine ⟨K' + J, by omega, fun j hj => ?_⟩
    have hdj := hd (j - K') (by omega)
    simp only [show K' + (j - K') = j by omega] at hdj
    have hle := fun u => r.log_grows (show k ≤ K' + k by omega) u
    rcases hdj with h | ⟨h1, h⟩
    · exact .inl fun u => Nat.le_trans (hle u) (h u)
    · exact .inr ⟨h1, fun u => Nat.le_trans (hle u) (h u)⟩

/-- The background thread comes to every buffer that is not deleted, again and again. -/
theorem RtRun.visited (hP : ProgOK cfg prog) (hL : LiveOK cfg prog) (hF : r.Fair)
    {K : Nat} (hn : r.NoStartFrom K) (hroom : 3 * cfg.staging + 25 ≤ cfg.output)
    (hfit : ∀ j ≥ K, ∀ t, queueSize (r.σ j).sites ((r.σ j).thr t).q ≤ cfg.staging) {t k : Nat}
    (hmem : ∀ j ≥ k, t ∈ (r.σ j).bufs) :
    ∃ j ≥ k, Took (r.σ j) (r.σ (j + 1)) ∧ (r.σ j).cur = t ∨ Empty t (r.σ j) (r.σ (j + 1)) := by
  by_cases hj : ∀ k, ∃ j ≥ k, ∃ t jk c, r.lbl j = some (.join t jk c)
  · obtain ⟨j, hj, h⟩ := RtRun.visited_joins hP hn hj t k hmem
    exact ⟨j, hj, .inr h⟩
  · simp only [not_forall] at hj
    obtain ⟨K1, hK1⟩ := hj
    have hb : r.BusyFrom (max K K1) := by
      intro j hj l hl
      cases l <;> first
        | rfl
        | exact absurd hl (hn j (by omega) _)
        | exact absurd ⟨j, by omega, _, _, _, hl⟩ hK1
    obtain ⟨K', hK', hB⟩ := r.busy hP hL hF hb (RtRun.not_dead hP hF hb)
    obtain ⟨j, hj, h⟩ := hB.visited hroom (fun j t => hfit (K' + j) (by omega) t) (k := k) (t := t) (hmem _ (by omega))
    exact ⟨K' + j, by omega, h⟩

end

end NanoLog
