import Verif.ComposedRun

/-! Fair infinite executions with byte-wise staging buffers stand for fair infinite executions with queues. -/

namespace NanoLog

section
variable {cfg : Config} {prog : List Site}

theorem TRel.back {ids : Nat → Option Nat} {sites : List Site} {s : SB} {ct ta : Thr} {hd : Nat}
    {k : List (Nat × LogCall)} {r : List (Nat × List Arg)} {τ : List Nat}
    (h : TRel cfg prog ids sites s ct ta hd k r τ) (hp : ta.pc.lags = false) : ct.pc = ta.pc := by
  cases hk : k with
  | cons p rest => rw [(h.lag p rest hk).1] at hp; cases hp
  | nil =>
    have := h.sync hk
    rw [aim] at this
    split at this
    · rw [this] at hp; cases hp
    · exact this.symm

/-- Steps of other threads do not move the background thread, except that a new one is started. -/
theorem act_bgpc {s s' : Rt} {l : Lbl} (ha : s.act cfg prog l = .ok s') (hl : l.ofBg = false) :
    (s'.pc = s.pc ∧ s'.cur = s.cur) ∨ (s.pc = .dead ∧ s'.pc = .top) := by
  cases l <;> simp only [Lbl.ofBg, Bool.true_eq_false] at hl
  all_goals
    simp only [Rt.act, Rt.actLog, Rt.actBuf, Rt.actCtl, Rt.actIo] at ha
    repeat' split at ha
    all_goals first
      | (cases ha; exact .inl ⟨rfl, rfl⟩)
      | (cases ha; rename_i hd; exact .inr ⟨by simp_all, rfl⟩)
      | cases ha

theorem sb_cc {N : Nat} {s s' : SB} {a : Act} (ha : s.act .tso N a = some s') (hp : ¬ a.byBg) : s'.cc = s.cc := by
  cases a <;> simp only [Act.byBg, not_true] at hp <;> simp only [SB.act] at ha
  case commit k =>
    (repeat' split at ha) <;> cases ha
    rename_i w _
    cases w <;> rfl
  all_goals (repeat' split at ha)
  all_goals (cases ha)
  all_goals rfl

theorem crRank_le {c c' : Cr} {l : CLbl} (ha : c.act cfg prog l = .ok c') (hl : l.ofBg = false) : c'.rank ≤ c.rank := by
  have key : ∀ c' : Cr, c'.tgt = c.tgt → c'.rt.pc = c.rt.pc ∧ c'.rt.cur = c.rt.cur ∨ c.rt.pc = .dead ∧ c'.rt.pc = .top →
      (∀ u, (c'.sb u).cc = (c.sb u).cc) → c'.rank ≤ c.rank := by
    intro c' h1 h2 h3
    unfold Cr.rank
    rw [h1]
    cases c.tgt with
    | some t => simp only; rw [h3]
    | none =>
      simp only
      rcases h2 with ⟨h2, h4⟩ | ⟨h2, h4⟩
      · rw [h2, h4, h3]
      · rw [h4]; simp
  have hset : ∀ {t : Nat} {s : SB} {a : Act}, (c.sb t).act .tso cfg.staging a = some s → ¬ a.byBg →
      ∀ u, (upd c.sb t s u).cc = (c.sb u).cc := by
    intro t s a ha hb u
    by_cases hu : u = t
    · subst hu; rw [upd_same]; exact sb_cc ha hb
    · rw [upd_other _ _ hu]
  cases l with
  | rt l =>
    simp only [Cr.act, Cr.actRt] at ha
    split at ha
    · cases ha
    have : ∃ s', c.rt.act cfg prog l = .ok s' ∧ c' = { c with rt := s' } := by
      cases hr : c.rt.act cfg prog l with
      | ok s' =>
        rw [hr] at ha
        refine ⟨s', rfl, ?_⟩
        (repeat' split at ha) <;> cases ha <;> rfl
      | off => rw [hr] at ha; (repeat' split at ha) <;> cases ha
      | ub => rw [hr] at ha; (repeat' split at ha) <;> cases ha
    obtain ⟨s', hs, rfl⟩ := this
    exact key _ rfl (act_bgpc hs hl) (fun _ => rfl)
  | write t a =>
    simp only [Cr.act, Cr.actThr] at ha
    (repeat' split at ha) <;> try cases ha
    rename_i hok _ s hs
    refine key _ rfl (.inl ⟨rfl, rfl⟩) (hset hs ?_)
    cases a <;> simp [okWrite, Act.byBg] at hok ⊢
  | finish t =>
    simp only [Cr.act, Cr.actThr] at ha
    (repeat' split at ha) <;> try cases ha
    rename_i s hs
    exact key _ rfl (.inl ⟨rfl, rfl⟩) (hset hs (by simp [Act.byBg]))
  | exit t =>
    simp only [Cr.act, Cr.actThr] at ha
    (repeat' split at ha) <;> try cases ha
    · exact key _ rfl (.inl ⟨rfl, rfl⟩) (fun _ => rfl)
    · rename_i s hs
      exact key _ rfl (.inl ⟨rfl, rfl⟩) (hset hs (by simp [Act.byBg]))
  | store t =>
    simp only [Cr.act, Cr.actThr] at ha
    (repeat' split at ha) <;> try cases ha
    rename_i s hs _
    exact key _ rfl (.inl ⟨rfl, rfl⟩) (hset hs (by simp [Act.byBg]))
  | storeC t =>
    simp only [Cr.act, Cr.actThr] at ha
    (repeat' split at ha) <;> try cases ha
    rename_i s hs
    exact key _ rfl (.inl ⟨rfl, rfl⟩) (hset hs (by simp [Act.byBg]))
  | look i =>
    simp only [Cr.act, Cr.actBg] at ha
    split at ha
    · cases ha
    rename_i hpc
    have hpc : c.rt.pc = .encode := by by_contra hc; exact hpc hc
    split at ha <;> cases ha
    rename_i s hs
    have hs' : (∃ av v, (c.sb c.rt.cur).cc = .holding av v) ∧ ∃ av v, s.cc = .holding av v := by
      simp only [SB.act] at hs
      (repeat' split at hs) <;> cases hs
      exact ⟨⟨_, _, by assumption⟩, _, _, rfl⟩
    unfold Cr.rank
    simp only [Cr.setSb, hpc]
    cases c.tgt with
    | none => simp
    | some t =>
      simp only
      by_cases hu : t = c.rt.cur
      · subst hu
        obtain ⟨⟨_, _, e1⟩, _, _, e2⟩ := hs'
        rw [upd_same, e1, e2]
      · rw [upd_other _ _ hu]
  | peek | follow | encode | check => simp [CLbl.ofBg] at hl

variable {r : CrRun cfg prog} {als bls : Nat → List Lbl} {r' : RtRun cfg prog}

theorem RunOf.block (h : RunOf r als bls r') {n : Nat} {b : Lbl} (hb : r'.lbl n = some b) :
    ∃ l, r.lbl (n / 8) = some l ∧ Echo (r.σ (n / 8)) (r.σ (n / 8 + 1)) l (bls (n / 8)) ∧ b ∈ bls (n / 8) := by
  rw [h.lbl] at hb
  cases hl : r.lbl (n / 8) with
  | none => rw [h.flat.none _ hl] at hb; simp at hb
  | some l => exact ⟨l, rfl, h.flat.some _ l hl, List.mem_of_getElem? hb⟩

theorem RunOf.at (h : RunOf r als bls r') {k : Nat} {b : Lbl} (hb : bls k = [b]) : r'.lbl (8 * k) = some b := by
  rw [h.lbl, Nat.mul_div_cancel_left _ (by omega), Nat.mul_mod_right, hb]
  rfl

theorem RunOf.only (h : RunOf r als bls r') {n : Nat} {b b' : Lbl} (hb : r'.lbl n = some b) (hs : bls (n / 8) = [b']) :
    n = 8 * (n / 8) ∧ b = b' := by
  rw [h.lbl, hs] at hb
  have h1 : n % 8 < 1 := by
    by_contra hc
    rw [List.getElem?_eq_none (by simp; omega)] at hb; cases hb
  have h2 : n % 8 = 0 := by omega
  rw [h2] at hb
  simp only [List.getElem?_cons_zero, Option.some.injEq] at hb
  exact ⟨by omega, hb.symm⟩

/-- Silent steps of the background thread do not go on for ever. -/
theorem RunOf.bgInf (h : RunOf r als bls r') (hF : r.Fair) (k : Nat) :
    ∃ j ≥ k, (∃ b, bls j = [b] ∧ b.ofBg = true) ∨ (r.σ j).rt.pc = .dead ∨
      ((r.σ j).rt.pc = .aio ∧ (r.σ j).rt.full = true ∧ ∃ a, (r.σ j).rt.aio = some a ∧ a.done ≠ a.len) := by
  generalize hn : (r.σ k).rank = n
  induction n using Nat.strongRecOn generalizing k with
  | _ n ih =>
  have run : ∀ d, (∃ j ≥ k, ∃ b, bls j = [b] ∧ b.ofBg = true) ∨ (r.σ (k + d)).rank ≤ n := by
    intro d
    induction d with
    | zero => exact .inr (by rw [Nat.add_zero, hn])
    | succ d ihd =>
      rcases ihd with ihd | ihd
      · exact .inl ihd
      · have hs := r.step (k + d)
        cases hl : r.lbl (k + d) with
        | none =>
          rw [hl] at hs; simp only at hs
          exact .inr (by rw [← Nat.add_assoc, hs]; exact ihd)
        | some l =>
          rw [hl] at hs; simp only at hs
          cases hb : l.ofBg with
          | false => exact .inr (Nat.le_trans (crRank_le hs hb) ihd)
          | true =>
            rcases (h.flat.some _ l hl).bg hb with ⟨b, h1, h2⟩ | ⟨h1, h2⟩
            · exact .inl ⟨k + d, by omega, b, h1, h2⟩
            · exact .inr (by rw [← Nat.add_assoc]; omega)
  obtain ⟨j, hj, hb⟩ := hF.bg k
  rcases hb with ⟨l, hl, hlb⟩ | hb
  · rcases (h.flat.some _ l hl).bg hlb with ⟨b, h1, h2⟩ | ⟨h1, h2⟩
    · exact ⟨j, hj, .inl ⟨b, h1, h2⟩⟩
    · rcases run (j - k) with ⟨i, hi, b, hb⟩ | hr
      · exact ⟨i, hi, .inl ⟨b, hb⟩⟩
      · rw [show k + (j - k) = j by omega] at hr
        obtain ⟨i, hi, hx⟩ := ih _ (Nat.lt_of_lt_of_le h2 hr) (j + 1) rfl
        exact ⟨i, by omega, hx⟩
  · exact ⟨j, hj, .inr hb⟩

theorem CRel.bgpc {s0 : Rt} {cls : List CLbl} {c : Cr} {als : List Lbl} {G : Ov}
    {kls : Nat → List (Nat × LogCall)} {r : Nat → List (Nat × List Arg)} {τ : Nat → List Nat} {held : Nat → Nat}
    (h : CRel s0 cfg prog cls c als G kls r τ held) :
    G.pc = c.rt.pc ∨ c.rt.pc = .scan ∧ (G.pc = .check ∨ G.pc = .scan) := by
  cases ht : c.tgt with
  | none => exact .inl (h.cc.none ht).1
  | some t =>
    obtain ⟨h1, -, -, p, v, -, h2, h3⟩ := h.cc.tgt t ht
    refine .inr ⟨h1, ?_⟩
    by_cases hv : v = (c.sb t).got.length
    · exact .inl (h2 hv).1
    · exact .inr (h3 hv)

theorem RtRun.stays (r' : RtRun cfg prog) (n t : Nat) (d : Nat) :
    (∀ sw, ((r'.σ n).thr t).pc = .woken sw → (∃ j ≥ n, r'.lbl j = some (.ret t)) ∨ ((r'.σ (n + d)).thr t).pc = .woken sw) ∧
    (((r'.σ n).thr t).pc = .stop → (∃ j ≥ n, r'.lbl j = some (.stop t)) ∨ ((r'.σ (n + d)).thr t).pc = .stop) := by
  induction d with
  | zero => exact ⟨fun _ h => .inr h, fun h => .inr h⟩
  | succ d ih =>
    have hs := r'.step (n + d)
    cases hl : r'.lbl (n + d) with
    | none =>
      rw [hl] at hs; simp only at hs
      rw [← Nat.add_assoc, hs]; exact ih
    | some l =>
      rw [hl] at hs; simp only at hs
      have hst := act_stays hs (u := t)
      refine ⟨fun sw hw => ?_, fun hw => ?_⟩
      · rcases ih.1 sw hw with hx | hx
        · exact .inl hx
        · by_cases hlr : l = .ret t
          · exact .inl ⟨n + d, by omega, by rw [hl, hlr]⟩
          · exact .inr ((hst (.inl ⟨⟨sw, hx⟩, hlr⟩)).trans hx)
      · rcases ih.2 hw with hx | hx
        · exact .inl hx
        · by_cases hlr : l = .stop t
          · exact .inl ⟨n + d, by omega, by rw [hl, hlr]⟩
          · exact .inr ((hst (.inr (.inl ⟨hx, hlr⟩))).trans hx)

/-- Fairness. -/
theorem RunOf.fair (h : RunOf r als bls r') (hF : r.Fair) : r'.Fair := by
  have thr : ∀ k t, ((r'.σ (8 * k)).thr t).pc.lags = false → ((r.σ k).rt.thr t).pc = ((r'.σ (8 * k)).thr t).pc := by
    intro k t hp
    obtain ⟨G, kls, rr, τ, held, hR, hs⟩ := h.rel k
    rw [hs] at hp ⊢
    exact (hR.thr t).back hp
  refine ⟨?_, ?_, ?_, ?_, ?_, ?_, ?_⟩
  · intro n
    obtain ⟨j, hj, hb⟩ := h.bgInf hF n
    refine ⟨8 * j, by omega, ?_⟩
    obtain ⟨G, kls, rr, τ, held, hR, hs⟩ := h.rel j
    rcases hb with ⟨b, h1, h2⟩ | hb | ⟨h1, h2, h3⟩
    · exact .inl ⟨b, h.at h1, h2⟩
    · refine .inr (.inl ?_)
      rw [hs]
      rcases hR.bgpc with e | ⟨e, -⟩
      · exact e.trans hb
      · rw [hb] at e; cases e
    · refine .inr (.inr ?_)
      rw [hs]
      rcases hR.bgpc with e | ⟨e, -⟩
      · exact ⟨e.trans h1, h2, h3⟩
      · rw [h1] at e; cases e
  · intro n
    obtain ⟨j, hj, hd⟩ := hF.disk n
    refine ⟨8 * j, by omega, ?_⟩
    obtain ⟨G, kls, rr, τ, held, hR, hs⟩ := h.rel j
    rw [hs]
    exact hd
  · intro n hl h1 h2 h3 u sw hu
    obtain ⟨l, e1, e2, e3⟩ := h.block hl
    rcases e2.mine _ e3 rfl with hb | rfl
    · rcases hb with ⟨_, hb⟩ | hb | ⟨_, _, hb⟩ <;> cases hb
    obtain ⟨e4, -⟩ := h.only hl (e2.ctl _ rfl (.inl rfl))
    rw [e4] at h1 h2 h3 hu
    have hu' := thr _ u (by rw [hu]; rfl)
    obtain ⟨G, kls, rr, τ, held, hR, hs⟩ := h.rel (n / 8)
    rw [hs] at h1 h2 h3
    exact hF.notify _ e1 h1 h2 h3 u sw (hu'.trans hu)
  · intro n t sw hw
    have hd : n + (8 * (n / 8 + 1) - n) = 8 * (n / 8 + 1) := by omega
    rcases (r'.stays n t (8 * (n / 8 + 1) - n)).1 sw hw with hx | hx
    · exact hx
    · rw [hd] at hx
      obtain ⟨j, hj, hl⟩ := hF.ret (n / 8 + 1) t sw ((thr _ t (by rw [hx]; rfl)).trans hx)
      exact ⟨8 * j, by omega, h.at ((h.flat.some j _ hl).ctl _ rfl (.inr (.inr ⟨t, rfl⟩)))⟩
  · intro n t hw
    have hd : n + (8 * (n / 8 + 1) - n) = 8 * (n / 8 + 1) := by omega
    rcases (r'.stays n t (8 * (n / 8 + 1) - n)).2 hw with hx | hx
    · exact hx
    · rw [hd] at hx
      obtain ⟨j, hj, hl⟩ := hF.stop (n / 8 + 1) t ((thr _ t (by rw [hx]; rfl)).trans hx)
      exact ⟨8 * j, by omega, h.at ((h.flat.some j _ hl).ctl _ rfl (.inr (.inl ⟨t, rfl⟩)))⟩
  · intro n t hw
    obtain ⟨j, hj, jk, c, hl⟩ := hF.join n t (by
      intro j hj
      obtain ⟨h1, h2⟩ := hw (8 * j) (by omega)
      refine ⟨(thr j t (by rw [h1]; rfl)).trans h1, ?_⟩
      obtain ⟨G, kls, rr, τ, held, hR, hs⟩ := h.rel j
      rw [hs] at h2
      rcases hR.bgpc with e | ⟨-, e | e⟩
      · exact e.symm.trans h2
      · have := e.symm.trans h2; cases this
      · have := e.symm.trans h2; cases this)
    exact ⟨8 * j, by omega, jk, c, h.at ((h.flat.some j _ hl).ctl _ rfl (.inl rfl))⟩
  · intro n hs
    have hsite : ∀ j, (r'.σ (8 * j)).sites = (r.σ j).rt.sites := by
      intro j
      obtain ⟨G, kls, rr, τ, held, hR, hs⟩ := h.rel j
      rw [hs]; rfl
    obtain ⟨j, hj, hx⟩ := hF.fresh n (fun j hj => by
      rw [← hsite, ← hsite, hs (8 * j) (by omega), hs (8 * n) (by omega)])
    refine ⟨8 * j, by omega, fun i hi hl => ?_⟩
    obtain ⟨l, e1, e2, e3⟩ := h.block hl
    rcases e2.mine _ e3 rfl with hb | rfl
    · rcases hb with ⟨_, hb⟩ | hb | ⟨_, _, hb⟩ <;> cases hb
    · exact hx (i / 8) (by omega) e1

theorem RunOf.noStart (h : RunOf r als bls r') {K : Nat} (hs : r.NoStartFrom K) : r'.NoStartFrom (8 * K) := by
  intro n hn t hl
  obtain ⟨l, e1, e2, e3⟩ := h.block hl
  exact hs (n / 8) (by omega) t (by rw [e1, e2.push t e3])

end

end NanoLog
