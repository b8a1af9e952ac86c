import Verif.ComposedFair
import Verif.StatsLemmas

/-! What is pending in the store buffers reaches memory, and what is visible in a staging buffer fits into it. -/

namespace NanoLog

section
variable {cfg : Config} {prog : List Site}

/-! ## What is in a buffer fits -/

theorem SInv.backlog {mm : MemModel} {N : Nat} {s : SB} {g : Ghost} (h : SInv mm N s g) :
    s.pub.length ≤ s.got.length + N := by
  have hc := h.core
  rw [hc.pub, hc.got]
  have h1 := hc.pp
  have h2 := hc.ppN
  have h3 := hc.oldN
  cases hct : g.c with
  | true => simp; omega
  | false =>
    have := hc.ahead hct
    simp
    omega

theorem CRel.fits {s0 : Rt} {cls : List CLbl} {c : Cr} {als : List Lbl} {G : Ov}
    {kls : Nat → List (Nat × LogCall)} {r : Nat → List (Nat × List Arg)} {τ : Nat → List Nat} {held : Nat → Nat}
    (hP : ProgOK cfg prog) (h : CRel s0 cfg prog cls c als G kls r τ held) (t : Nat) :
    queueSize (c.rt.over G).sites ((c.rt.over G).thr t).q ≤ cfg.staging := by
  obtain ⟨hRI, hF⟩ := h.exec.inv hP
  have ht := h.thr t
  have hcall : ∀ x ∈ (G.thr t).q, CallOK cfg c.rt.sites x := by
    intro x hx
    have := hF.log t x
    rw [show ((c.rt.over G).thr t).log = _ from (hRI.thr t).log] at this
    exact this (List.mem_append_right _ hx)
  show queueSize c.rt.sites (G.thr t).q ≤ _
  rw [queue_msgLen hcall]
  obtain ⟨g, done, hI, hQ⟩ := ht.buf
  have h1 := hQ.pubLen
  have h2 := hQ.vis
  have h3 := hI.backlog
  rw [msgLen_append] at h2
  have h4 : (c.sb t).got.length = msgLen done := congrArg List.length hQ.got
  simp only at h2
  omega

/-- Steps of logging threads put messages into the queues. -/
theorem act_queues {s s' : Rt} {l : Lbl} (ha : s.act cfg prog l = .ok s') (hl : l.ofBg = false) (hr : ∀ u, l ≠ .register u) :
    s'.sites = s.sites ∧ ∀ t, ∃ x, (s'.thr t).q = (s.thr t).q ++ x := by
  have hset : ∀ (u : Nat) (th : Thr), (∃ x, th.q = (s.thr u).q ++ x) →
      ∀ t, ∃ x, (upd s.thr u th t).q = (s.thr t).q ++ x := by
    intro u th h t
    by_cases ht : t = u
    · subst ht; rw [upd_same]; exact h
    · rw [upd_other _ _ ht]; exact ⟨[], by simp⟩
  cases l <;> simp only [Lbl.ofBg, Bool.true_eq_false] at hl
  case register u => exact absurd rfl (hr u)
  all_goals
    simp only [Rt.act, Rt.actLog, Rt.actBuf, Rt.actCtl, Rt.actIo] at ha
    repeat' split at ha
    all_goals first
      | (cases ha; exact ⟨rfl, fun t => ⟨[], (List.append_nil _).symm⟩⟩)
      | (cases ha; exact ⟨rfl, hset _ _ ⟨[], (List.append_nil _).symm⟩⟩)
      | (cases ha; exact ⟨rfl, hset _ _ ⟨_, rfl⟩⟩)
      | cases ha

variable {r : CrRun cfg prog} {als bls : Nat → List Lbl} {r' : RtRun cfg prog}

theorem RunOf.fits (h : RunOf r als bls r') (hP : ProgOK cfg prog) (n t : Nat) :
    queueSize (r'.σ n).sites ((r'.σ n).thr t).q ≤ cfg.staging := by
  have hmul : ∀ k, queueSize (r'.σ (8 * k)).sites ((r'.σ (8 * k)).thr t).q ≤ cfg.staging := by
    intro k
    obtain ⟨G, kls, rr, τ, held, hR, hs⟩ := h.rel k
    rw [hs]
    exact hR.fits hP t
  by_cases hn : n % 8 = 0
  · rw [show n = 8 * (n / 8) by omega]; exact hmul _
  have hstep : ∀ i, n ≤ i → i < 8 * (n / 8 + 1) → ∀ b, r'.lbl i = some b → b.ofBg = false ∧ ∀ u, b ≠ .register u := by
    intro i h1 h2 b hb
    obtain ⟨l, e1, e2, e3⟩ := h.block hb
    rcases e2.one with e | e
    · exfalso
      rw [h.lbl, List.getElem?_eq_none (by omega)] at hb
      cases hb
    · exact e b e3
  have run : ∀ d, n + d ≤ 8 * (n / 8 + 1) →
      queueSize (r'.σ n).sites ((r'.σ n).thr t).q ≤ queueSize (r'.σ (n + d)).sites ((r'.σ (n + d)).thr t).q := by
    intro d
    induction d with
    | zero => intro _; exact Nat.le_refl _
    | succ d ih =>
      intro hd
      refine Nat.le_trans (ih (by omega)) ?_
      have hs := r'.step (n + d)
      cases hl : r'.lbl (n + d) with
      | none => rw [hl] at hs; simp only at hs; rw [← Nat.add_assoc, hs]
      | some b =>
        rw [hl] at hs; simp only at hs
        obtain ⟨h1, h2⟩ := hstep (n + d) (by omega) (by omega) b hl
        obtain ⟨h3, h4⟩ := act_queues hs h1 h2
        obtain ⟨x, hx⟩ := h4 t
        rw [← Nat.add_assoc, h3, hx, queueSize_append]
        omega
  have := run (8 * (n / 8 + 1) - n) (by omega)
  rw [show n + (8 * (n / 8 + 1) - n) = 8 * (n / 8 + 1) by omega] at this
  exact Nat.le_trans this (hmul _)

/-! ## Pending stores reach memory -/

/-- The number of bytes published when the store has reached memory. -/
def nextVis (v : Nat) : Store → Nat
  | .setP _ len => len
  | _ => v

/-- How many messages the pending stores publish, `v` bytes being published. -/
def pendCount : Nat → List Store → Nat
  | _, [] => 0
  | v, w :: b => (if nextVis v w = v then 0 else 1) + pendCount (nextVis v w) b

theorem Pend.count {v : Nat} {later : List (List Byte)} {b : List Store} (h : Pend v later b) (hne : ∀ m ∈ later, m ≠ []) :
    later.length = pendCount v b := by
  induction b generalizing v later with
  | nil => rw [show later = [] from h]; rfl
  | cons w b ih =>
    cases w with
    | setP p len =>
      rcases h with ⟨h1, h2⟩ | ⟨m, l, h1, h2, h3⟩
      · subst h1; simp only [pendCount, nextVis, if_true, Nat.zero_add]; exact ih h2 hne
      · subst h1
        have := List.length_pos_iff.2 (hne m (by simp))
        have hx := ih h3 (fun x hx => hne x (by simp [hx]))
        have h4 : nextVis v (.setP p len) = len := rfl
        have h5 : nextVis v (.setP p len) ≠ v := by omega
        rw [pendCount, if_neg h5, List.length_cons, hx, h4]
        omega
    | _ => simp only [pendCount, nextVis, if_true, Nat.zero_add]; exact ih h hne

theorem CRel.count {s0 : Rt} {cls : List CLbl} {c : Cr} {als : List Lbl} {G : Ov}
    {kls : Nat → List (Nat × LogCall)} {r : Nat → List (Nat × List Arg)} {τ : Nat → List Nat} {held : Nat → Nat}
    (h : CRel s0 cfg prog cls c als G kls r τ held) (t : Nat) :
    finished t cls = returned t als + pendCount (c.sb t).vis (c.sb t).buf := by
  obtain ⟨g, done, hI, hQ⟩ := (h.thr t).buf
  have := hQ.pend.count (fun m hm => hQ.ne m (List.mem_append_right _ hm))
  rw [List.length_map] at this
  rw [(h.obs t).ret, this]

theorem sb_buf {N : Nat} {s s' : SB} {a : Act} (ha : s.act .tso N a = some s') (hc : ∀ k, a ≠ .commit k) :
    (∃ x, s'.buf = s.buf ++ x) ∧ s'.vis = s.vis := by
  cases a <;> simp only [SB.act] at ha
  case commit k => exact absurd rfl (hc k)
  all_goals (repeat' split at ha)
  all_goals (cases ha)
  all_goals first
    | exact ⟨⟨[], (List.append_nil _).symm⟩, rfl⟩
    | exact ⟨⟨_, rfl⟩, rfl⟩

theorem store_pending {c c' : Cr} {t : Nat} (ha : c.act cfg prog (.store t) = .ok c') :
    ∃ w, (c.sb t).buf = w :: (c'.sb t).buf ∧ (c'.sb t).vis = nextVis (c.sb t).vis w := by
  simp only [Cr.act, Cr.actThr] at ha
  (repeat' split at ha) <;> try cases ha
  rename_i s hs _
  simp only [Cr.setSb, upd_same]
  simp only [SB.act] at hs
  (repeat' split at hs) <;> cases hs
  rename_i w hw
  cases hb : (c.sb t).buf with
  | nil => rw [hb] at hw; cases hw
  | cons w' b =>
    rw [hb] at hw
    simp only [List.getElem?_cons_zero, Option.some.injEq] at hw
    subst hw
    refine ⟨w', by simp, ?_⟩
    cases w' <;> rfl

theorem act_pending {c c' : Cr} {l : CLbl} (ha : c.act cfg prog l = .ok c') {t : Nat} (hl : l ≠ .store t) :
    (∃ x, (c'.sb t).buf = (c.sb t).buf ++ x) ∧ (c'.sb t).vis = (c.sb t).vis := by
  have hrefl : (∃ x, (c.sb t).buf = (c.sb t).buf ++ x) ∧ (c.sb t).vis = (c.sb t).vis := ⟨⟨[], by simp⟩, rfl⟩
  have hset : ∀ {u : Nat} {s : SB} {a : Act}, (c.sb u).act .tso cfg.staging a = some s → (∀ k, a ≠ .commit k) →
      (∃ x, (upd c.sb u s t).buf = (c.sb t).buf ++ x) ∧ (upd c.sb u s t).vis = (c.sb t).vis := by
    intro u s a ha hb
    by_cases hu : t = u
    · subst hu; rw [upd_same]; exact sb_buf ha hb
    · rw [upd_other _ _ hu]; exact hrefl
  have hset2 : ∀ {u v : Nat} {s s2 : SB} {a a2 : Act}, (c.sb u).act .tso cfg.staging a = some s → (∀ k, a ≠ .commit k) →
      (upd c.sb u s v).act .tso cfg.staging a2 = some s2 → (∀ k, a2 ≠ .commit k) →
      (∃ x, (upd (upd c.sb u s) v s2 t).buf = (c.sb t).buf ++ x) ∧ (upd (upd c.sb u s) v s2 t).vis = (c.sb t).vis := by
    intro u v s s2 a a2 ha hb ha2 hb2
    obtain ⟨⟨x, h1⟩, h2⟩ := hset ha hb
    by_cases hu : t = v
    · subst hu
      rw [upd_same]
      obtain ⟨⟨y, h3⟩, h4⟩ := sb_buf ha2 hb2
      exact ⟨⟨x ++ y, by rw [h3, h1, List.append_assoc]⟩, h4.trans h2⟩
    · rw [upd_other _ _ hu]; exact ⟨⟨x, h1⟩, h2⟩
  have hlift : ∀ {c1 : Cr} {o : Out}, c1.lift o = .ok c' → c'.sb = c1.sb := by
    intro c1 o h
    cases o <;> simp only [Cr.lift] at h <;> cases h
    rfl
  cases l with
  | rt l =>
    simp only [Cr.act, Cr.actRt] at ha
    (repeat' split at ha) <;> first | cases ha | (rw [hlift ha]; exact hrefl)
  | write u a =>
    simp only [Cr.act, Cr.actThr] at ha
    (repeat' split at ha) <;> try cases ha
    rename_i hok _ s hs
    refine hset hs ?_
    cases a <;> simp [okWrite] at hok ⊢
  | finish u =>
    simp only [Cr.act, Cr.actThr] at ha
    (repeat' split at ha) <;> try cases ha
    rename_i s hs
    exact hset hs (by simp)
  | exit u =>
    simp only [Cr.act, Cr.actThr] at ha
    (repeat' split at ha) <;> try cases ha
    · exact hrefl
    · rename_i s hs
      exact hset hs (by simp)
  | storeC u =>
    simp only [Cr.act, Cr.actThr] at ha
    (repeat' split at ha) <;> try cases ha
    rename_i s hs
    exact hset hs (by simp)
  | store u =>
    simp only [Cr.act, Cr.actThr] at ha
    (repeat' split at ha) <;> try cases ha
    rename_i s hs _
    by_cases hu : t = u
    · subst hu; exact absurd rfl hl
    · show (∃ x, (upd c.sb u s t).buf = _ ++ x) ∧ (upd c.sb u s t).vis = _
      rw [upd_other _ _ hu]
      exact hrefl
  | peek =>
    simp only [Cr.act, Cr.actBg] at ha
    (repeat' split at ha) <;> try cases ha
    · exact hrefl
    · rename_i s hs
      exact hset hs (by simp)
  | follow =>
    simp only [Cr.act, Cr.actBg] at ha
    (repeat' split at ha) <;> try cases ha
    all_goals exact hset (by assumption) (by simp)
  | look i =>
    simp only [Cr.act, Cr.actBg] at ha
    (repeat' split at ha) <;> try cases ha
    exact hset (by assumption) (by simp)
  | check =>
    simp only [Cr.act, Cr.actBg, Cr.next] at ha
    (repeat' split at ha) <;> try cases ha
    · rw [hlift ha]; exact hset (by assumption) (by simp)
    · rw [hlift ha]; exact hset (by assumption) (by simp)
    · exact hset (by assumption) (by simp)
  | encode j m =>
    simp only [Cr.act, Cr.actBg, Cr.next] at ha
    (repeat' split at ha) <;> try cases ha
    · rw [hlift ha]; exact hset (by assumption) (by simp)
    · rename_i hs _ _ _ hs2
      rw [hlift ha]
      exact hset2 hs (by simp) hs2 (by simp)
    · exact hset (by assumption) (by simp)

theorem returned_mono (t : Nat) (a b : List Lbl) : returned t a ≤ returned t (a ++ b) := by
  simp [returned]

theorem Flat.returned_le (h : Flat r als bls) (t : Nat) {k j : Nat} (hj : k ≤ j) : returned t (als k) ≤ returned t (als j) := by
  induction hj with
  | refl => exact Nat.le_refl _
  | step _ ih => exact Nat.le_trans ih (by rw [h.succ]; exact returned_mono _ _ _)

theorem RunOf.storeStep (h : RunOf r als bls r') {t i F : Nat} {w : Store} {old new : List Store}
    (hl : r.lbl i = some (.store t)) (e1 : ((r.σ i).sb t).buf = w :: old ++ new)
    (e2 : F ≤ returned t (als i) + pendCount ((r.σ i).sb t).vis (w :: old)) :
    ((r.σ (i + 1)).sb t).buf = old ++ new ∧
      F ≤ returned t (als (i + 1)) + pendCount ((r.σ (i + 1)).sb t).vis old := by
  have hs := r.step i
  rw [hl] at hs; simp only at hs
  obtain ⟨w', f1, f2⟩ := store_pending hs
  obtain ⟨G, kls, rr, τ, held, hR, -⟩ := h.rel i
  obtain ⟨G2, kls2, rr2, τ2, held2, hR2, -⟩ := h.rel (i + 1)
  have c1 := hR.count t
  have c2 := hR2.count t
  rw [f1] at c1 e1
  simp only [List.cons_append, List.cons.injEq] at e1
  obtain ⟨rfl, e1⟩ := e1
  refine ⟨e1, ?_⟩
  rw [r.labels_succ, hl, Option.toList_some, finished_snoc, c1, f2] at c2
  rw [f2]
  simp only [pendCount, Nat.add_zero] at c2 e2
  omega

/-- What was pending at time `k` becomes visible. -/
theorem RunOf.drained (h : RunOf r als bls r') (hF : r.Fair) (t k : Nat) :
    ∃ j ≥ k, finished t (r.labels k) ≤ returned t (als j) := by
  have key : ∀ n F k, (∃ old new, ((r.σ k).sb t).buf = old ++ new ∧ old.length ≤ n ∧
      F ≤ returned t (als k) + pendCount ((r.σ k).sb t).vis old) → ∃ j ≥ k, F ≤ returned t (als j) := by
    intro n F
    induction n with
    | zero =>
      rintro k ⟨old, new, h1, h2, h3⟩
      have : old = [] := List.length_eq_zero_iff.1 (by omega)
      subst this
      exact ⟨k, Nat.le_refl _, h3⟩
    | succ n ih =>
      rintro k ⟨old, new, h1, h2, h3⟩
      cases old with
      | nil => exact ⟨k, Nat.le_refl _, h3⟩
      | cons w old =>
        obtain ⟨j, hj, hl⟩ := hF.store k t (by rw [h1]; simp)
        -- until the next store, stores are only added
        have run : ∀ d, k + d ≤ j → (∃ i ≥ k, ∃ new, ((r.σ i).sb t).buf = old ++ new ∧
              F ≤ returned t (als i) + pendCount ((r.σ i).sb t).vis old) ∨
            ∃ new, ((r.σ (k + d)).sb t).buf = w :: old ++ new ∧
              F ≤ returned t (als (k + d)) + pendCount ((r.σ (k + d)).sb t).vis (w :: old) := by
          intro d
          induction d with
          | zero => intro _; exact .inr ⟨new, h1, h3⟩
          | succ d ihd =>
            intro hd
            rcases ihd (by omega) with hx | ⟨new, e1, e2⟩
            · exact .inl hx
            have hmono := h.flat.returned_le t (Nat.le_succ (k + d))
            have hs := r.step (k + d)
            cases hl : r.lbl (k + d) with
            | none =>
              rw [hl] at hs; simp only at hs
              refine .inr ⟨new, ?_, ?_⟩
              · rw [← Nat.add_assoc, hs]; exact e1
              · rw [← Nat.add_assoc, hs]; exact Nat.le_trans e2 (Nat.add_le_add_right hmono _)
            | some l =>
              rw [hl] at hs; simp only at hs
              by_cases hls : l = .store t
              · subst hls
                exact .inl ⟨k + d + 1, by omega, new, h.storeStep hl e1 e2⟩
              · obtain ⟨⟨x, f1⟩, f2⟩ := act_pending hs hls
                refine .inr ⟨new ++ x, ?_, ?_⟩
                · rw [← Nat.add_assoc, f1, e1, List.append_assoc]
                · rw [← Nat.add_assoc, f2]; exact Nat.le_trans e2 (Nat.add_le_add_right hmono _)
        obtain ⟨i, hi, new', g1, g2⟩ : ∃ i ≥ k, ∃ new, ((r.σ i).sb t).buf = old ++ new ∧
              F ≤ returned t (als i) + pendCount ((r.σ i).sb t).vis old := by
          rcases run (j - k) (by omega) with hx | ⟨new, e1, e2⟩
          · exact hx
          · rw [show k + (j - k) = j by omega] at e1 e2
            exact ⟨j + 1, by omega, new, h.storeStep hl e1 e2⟩
        obtain ⟨j', hj', hfin⟩ := ih i ⟨old, new', g1, by simpa using h2, g2⟩
        exact ⟨j', by omega, hfin⟩
  obtain ⟨G, kls, rr, τ, held, hR, -⟩ := h.rel k
  exact key _ _ k ⟨((r.σ k).sb t).buf, [], by simp, Nat.le_refl _, by rw [hR.count t]⟩

/-- … for all threads. -/
theorem RunOf.drained_all (h : RunOf r als bls r') (hF : r.Fair) (k : Nat) :
    ∃ j ≥ k, ∀ t, finished t (r.labels k) ≤ returned t (als j) := by
  have key : ∀ ts : List Nat, ∃ j ≥ k, ∀ t ∈ ts, finished t (r.labels k) ≤ returned t (als j) := by
    intro ts
    induction ts with
    | nil => exact ⟨k, Nat.le_refl _, by simp⟩
    | cons t ts ih =>
      obtain ⟨j1, h1, h2⟩ := ih
      obtain ⟨j2, h3, h4⟩ := h.drained hF t k
      refine ⟨max j1 j2, by omega, fun u hu => ?_⟩
      rcases List.mem_cons.1 hu with rfl | hu
      · exact Nat.le_trans h4 (h.flat.returned_le _ (by omega))
      · exact Nat.le_trans (h2 u hu) (h.flat.returned_le _ (by omega))
  obtain ⟨j, h1, h2⟩ := key ((r.labels k).filterMap fun l => match l with | .finish u => some u | _ => none)
  refine ⟨j, h1, fun t => ?_⟩
  by_cases hf : finished t (r.labels k) = 0
  · omega
  · refine h2 t ?_
    unfold finished at hf
    obtain ⟨l, hl⟩ := List.exists_mem_of_length_pos (Nat.pos_of_ne_zero hf)
    rw [List.mem_filter] at hl
    rw [List.mem_filterMap]
    refine ⟨l, hl.1, ?_⟩
    cases l <;> simp_all

end

end NanoLog
