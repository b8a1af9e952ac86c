import Verif.ComposedDrain
import Verif.Props.Composed
import Verif.RuntimeLasso

/-!
# Infinite executions for examples, with the staging buffers byte by byte

As `RuntimeLasso.lean`, for `Composed.lean`.  (Nothing here models code.)
-/

namespace NanoLog

/-- The next step of the background thread when there is nothing to do. -/
def Cr.idleLbl (c : Cr) : CLbl :=
  match c.rt.pc, c.tgt with
  | .scan, none => .peek
  | .scan, some _ => .follow
  | .check, _ => .check
  | _, _ => .rt c.rt.idleLbl

/-- Nothing to do. -/
structure Cr.Idle (c : Cr) : Prop where
  rt : c.rt.Idle
  sb : ∀ t ∈ c.rt.bufs, (c.sb t).memP = (c.sb t).cp ∧ (c.sb t).memD = false
  free : ∀ t ∈ c.rt.bufs, c.tgt ≠ some t → (c.rt.pc = .check → c.rt.cur ≠ t) → (c.sb t).cc = .idle
  tgt : ∀ t, c.tgt = some t → c.rt.pc = .scan ∧ t ∈ c.rt.bufs ∧ c.rt.bufs[c.rt.i]? = some t ∧ ∃ v, (c.sb t).cc = .loaded (c.sb t).cp v
  chk : c.rt.pc = .check → ∃ view, (c.sb c.rt.cur).cc = .holding 0 view
  buf : ∀ t, (c.sb t).buf = []

theorem Cr.Idle.lbl {c : Cr} (h : c.Idle) : c.idleLbl.ofBg = true ∧ c.idleLbl ≠ .rt (.dict true) ∧
    (∀ cfg prog, c.idleLbl.OK cfg prog) ∧ (∀ t, c.idleLbl ≠ .rt (.takeId t)) ∧ (∀ t, c.idleLbl ≠ .rt (.push t)) := by
  have h1 := h.rt.lbl
  have h2 := h.rt.pc
  unfold Cr.idleLbl
  cases hp : c.rt.pc <;> cases ht : c.tgt <;> simp_all [CLbl.ofBg, CLbl.OK, Rt.idleLbl, Lbl.OK]

theorem Cr.Idle.step {c : Cr} (h : c.Idle) :
    ∃ c', c.act exCfg exSites c.idleLbl = .ok c' ∧ c'.Idle := by
  have hr := h.rt
  have hgen : c.rt.pc ≠ .scan → c.rt.pc ≠ .check → ∃ c', c.act exCfg exSites c.idleLbl = .ok c' ∧ c'.Idle := by
    intro n1 n2
    obtain ⟨s', h1, h2⟩ := hr.step (cfg := exCfg) (prog := exSites)
    have htn : c.tgt = none := by
      cases ht : c.tgt with
      | none => rfl
      | some t => exact absurd (h.tgt t ht).1 n1
    have hl : c.idleLbl = .rt c.rt.idleLbl := by
      unfold Cr.idleLbl
      cases hp : c.rt.pc <;> simp_all
    have hx : c.rt.idleLbl.replaced = false ∧ c.rt.idleLbl.locks = none := by
      unfold Rt.idleLbl
      cases hp : c.rt.pc <;> simp_all [Lbl.replaced, Lbl.locks]
    have hb : s'.bufs = c.rt.bufs := by
      have hp := hr.pc
      revert h1
      unfold Rt.idleLbl
      cases hp : c.rt.pc <;> simp only [Rt.act, Rt.actScan, Rt.actIo, Rt.notify, Rt.setEnc, hp]
      case scan => exact absurd hp n1
      case check => exact absurd hp n2
      case dead => exact absurd hp hr.pc.1
      case encode => exact absurd hp hr.pc.2
      all_goals
        intro h1
        repeat' split at h1
        all_goals first
          | (cases h1; rfl)
          | cases h1
          | simp_all
    have hpc : s'.pc ≠ .check := by
      revert h1
      unfold Rt.idleLbl
      cases hp : c.rt.pc <;> simp only [Rt.act, Rt.actScan, Rt.actIo, Rt.notify, Rt.setEnc, hp]
      case scan => exact absurd hp n1
      case check => exact absurd hp n2
      case dead => exact absurd hp hr.pc.1
      case encode => exact absurd hp hr.pc.2
      all_goals
        intro h1
        repeat' split at h1
        all_goals first
          | (cases h1; simp; done)
          | cases h1
          | simp_all
    refine ⟨{ c with rt := s' }, ?_, h2, ?_, ?_, ?_, ?_, h.buf⟩
    · rw [hl]
      simp only [Cr.act, Cr.actRt, hx.1, hx.2, h1, Cr.lift]
      rfl
    · show ∀ t ∈ s'.bufs, _; rw [hb]; exact h.sb
    · show ∀ t ∈ s'.bufs, _
      rw [hb]
      intro t ht h3 _
      exact h.free t ht h3 fun e => absurd e n2
    · intro t ht; rw [show ({ c with rt := s' } : Cr).tgt = c.tgt from rfl, htn] at ht; cases ht
    · intro e; exact absurd e hpc
  by_cases n1 : c.rt.pc = .scan
  · have hi := hr.i (.inr (.inl n1))
    have hb : c.rt.bufs[c.rt.i]? = some c.rt.bufs[c.rt.i] := List.getElem?_eq_getElem hi
    have hm : c.rt.bufs[c.rt.i] ∈ c.rt.bufs := List.getElem_mem hi
    generalize c.rt.bufs[c.rt.i] = t at hb hm
    obtain ⟨e1, e2⟩ := h.sb t hm
    cases ht : c.tgt with
    | none =>
      have hc := h.free t hm (by rw [ht]; simp) (by rw [n1]; simp)
      have hl : c.idleLbl = .peek := by unfold Cr.idleLbl; rw [n1, ht]
      rw [hl]
      simp only [Cr.act, Cr.actBg, n1, ht, hr.full, hr.bufs, hb, (hr.thr t hm).2.2, SB.act, hc]
      refine ⟨_, rfl, hr, ?_, ?_, ?_, ?_, ?_⟩
      · intro u hu
        show (upd c.sb t _ u).memP = (upd c.sb t _ u).cp ∧ (upd c.sb t _ u).memD = false
        by_cases hut : u = t
        · subst hut; simp only [upd_same]; exact ⟨e1, e2⟩
        · rw [upd_other _ _ hut]; exact h.sb u hu
      · intro u hu h3 h4
        show (upd c.sb t _ u).cc = .idle
        by_cases hut : u = t
        · subst hut; exact absurd rfl h3
        · rw [upd_other _ _ hut]
          exact h.free u hu (by rw [ht]; simp) h4
      · intro u hu
        simp only [Option.some.injEq] at hu
        subst hu
        refine ⟨n1, hm, hb, (c.sb t).vis, ?_⟩
        show (upd c.sb t _ t).cc = .loaded (upd c.sb t _ t).cp _
        simp only [upd_same, e1]
      · intro e
        have e' : c.rt.pc = .check := e
        rw [n1] at e'; cases e'
      · intro u
        show (upd c.sb t _ u).buf = []
        by_cases hut : u = t
        · subst hut; simp only [upd_same]; exact h.buf u
        · rw [upd_other _ _ hut]; exact h.buf u
    | some u =>
      obtain ⟨-, hm, hb, v, hc⟩ := h.tgt u ht
      obtain ⟨e1, e2⟩ := h.sb u hm
      have hl : c.idleLbl = .follow := by unfold Cr.idleLbl; rw [n1, ht]
      rw [hl]
      simp only [Cr.act, Cr.actBg, ht, SB.act, hc, Nat.lt_irrefl, if_false, show ∀ a, wsub a a = 0 by simp [wsub]]
      refine ⟨_, rfl, ?_, ?_, ?_, ?_, ?_, ?_⟩
      · obtain ⟨h1, h2, h3, h4, h5, h6, h7, h8, h9, h10, h11, h12, h13⟩ := hr
        exact ⟨h1, h2, h3, h4, h5, h6, h7, h8, fun _ => hi, fun _ => hm, h11, h12, by simp [Cr.peeked], by simp [Cr.peeked]⟩
      · intro w hw
        show (upd c.sb u _ w).memP = (upd c.sb u _ w).cp ∧ (upd c.sb u _ w).memD = false
        by_cases hwu : w = u
        · subst hwu; simp only [upd_same]; exact ⟨e1, e2⟩
        · rw [upd_other _ _ hwu]; exact h.sb w hw
      · intro w hw _ h4
        have hwu : w ≠ u := fun e => h4 rfl e.symm
        show (upd c.sb u _ w).cc = .idle
        rw [upd_other _ _ hwu]
        exact h.free w hw (by rw [ht]; simpa using fun e : u = w => hwu e.symm) (by rw [n1]; simp)
      · intro w hw; cases hw
      · intro _
        exact ⟨_, by show (upd c.sb u _ u).cc = _; rw [upd_same]⟩
      · intro w
        show (upd c.sb u _ w).buf = []
        by_cases hwu : w = u
        · subst hwu; simp only [upd_same]; exact h.buf w
        · rw [upd_other _ _ hwu]; exact h.buf w
  by_cases n2 : c.rt.pc = .check
  · obtain ⟨view, hc⟩ := h.chk n2
    have hm := hr.cur n2
    obtain ⟨e1, e2⟩ := h.sb _ hm
    have htn : c.tgt = none := by
      cases ht : c.tgt with
      | none => rfl
      | some t => exact absurd (h.tgt t ht).1 n1
    have hl : c.idleLbl = .check := by unfold Cr.idleLbl; rw [n2]
    have hl0 : c.rt.bufs.length ≠ 0 := by have := hr.last; omega
    have hmod : (c.rt.i + 1) % c.rt.bufs.length < c.rt.bufs.length := Nat.mod_lt _ (by omega)
    obtain ⟨s', h1, h2⟩ := hr.step (cfg := exCfg) (prog := exSites)
    rw [show c.rt.idleLbl = .check by unfold Rt.idleLbl; rw [n2]] at h1
    obtain ⟨t1, t2, t3⟩ := hr.thr c.rt.cur hm
    simp only [Rt.act, Rt.actScan, n2, t1, t2] at h1
    have h1 : c.rt.advance (c.rt.i + 1) = .ok s' := by simpa using h1
    have hs : s'.bufs = c.rt.bufs ∧ s'.pc ≠ .check := by
      simp only [Rt.advance, hl0, if_false] at h1
      cases h1
      refine ⟨rfl, ?_⟩
      simp only
      split <;> simp
    rw [hl]
    simp only [Cr.act, Cr.actBg, n2, SB.act, hc, e2, Cr.next, Cr.lift, h1]
    refine ⟨_, rfl, h2, ?_, ?_, ?_, ?_, ?_⟩
    · show ∀ w ∈ s'.bufs, _
      rw [hs.1]
      intro w hw
      show (upd c.sb c.rt.cur _ w).memP = (upd c.sb c.rt.cur _ w).cp ∧ (upd c.sb c.rt.cur _ w).memD = false
      by_cases hwu : w = c.rt.cur
      · subst hwu; simp only [upd_same]; exact ⟨e1, trivial⟩
      · rw [upd_other _ _ hwu]; exact h.sb w hw
    · show ∀ w ∈ s'.bufs, _
      rw [hs.1]
      intro w hw _ _
      show (upd c.sb c.rt.cur _ w).cc = .idle
      by_cases hwu : w = c.rt.cur
      · subst hwu; rw [upd_same]
      · rw [upd_other _ _ hwu]
        exact h.free w hw (by rw [htn]; simp) (fun _ e => hwu e.symm)
    · intro w hw
      exact absurd (show c.tgt = some w from hw) (by rw [htn]; simp)
    · intro e; exact absurd e hs.2
    · intro w
      show (upd c.sb c.rt.cur _ w).buf = []
      by_cases hwu : w = c.rt.cur
      · subst hwu; simp only [upd_same]; exact h.buf _
      · rw [upd_other _ _ hwu]; exact h.buf w
  exact hgen n1 n2

/-- The labels `ls`, then nothing to do. -/
def crLassoLbl (ls : List CLbl) (k : Nat) (c : Cr) : CLbl := ls[k]?.getD c.idleLbl

/-- The states of the execution. -/
def crLasso (ls : List CLbl) (c0 : Cr) : Nat → Cr
  | 0 => c0
  | k + 1 =>
    match (crLasso ls c0 k).act exCfg exSites (crLassoLbl ls k (crLasso ls c0 k)) with
    | .ok c => c
    | _ => crLasso ls c0 k

theorem crRun_take {cfg : Config} {prog : List Site} {ls : List CLbl} {c0 c : Cr}
    (h : c0.run cfg prog ls = .ok c) (k : Nat) (hk : k < ls.length) :
    ∃ c1 c2, c0.run cfg prog (ls.take k) = .ok c1 ∧ c1.act cfg prog ls[k] = .ok c2 ∧
      c0.run cfg prog (ls.take (k + 1)) = .ok c2 := by
  induction ls generalizing c0 k with
  | nil => simp at hk
  | cons l ls ih =>
    simp only [Cr.run] at h
    cases ha : c0.act cfg prog l with
    | off => rw [ha] at h; cases h
    | ub => rw [ha] at h; cases h
    | ok c1 =>
      rw [ha] at h
      cases k with
      | zero => exact ⟨c0, c1, rfl, ha, by simp [Cr.run, ha]⟩
      | succ k =>
        obtain ⟨a, b, h1, h2, h3⟩ := ih h k (by simpa using hk)
        exact ⟨a, b, by simp [Cr.run, ha, h1], h2, by simpa [Cr.run, ha] using h3⟩

theorem crLasso_prefix {ls : List CLbl} {c0 c : Cr} (h : c0.run exCfg exSites ls = .ok c) (k : Nat)
    (hk : k ≤ ls.length) : c0.run exCfg exSites (ls.take k) = .ok (crLasso ls c0 k) := by
  induction k with
  | zero => rfl
  | succ k ih =>
    obtain ⟨c1, c2, h1, h2, h3⟩ := crRun_take h k hk
    have h4 := ih (by omega)
    rw [h1] at h4
    rw [h3]
    simp only [crLasso, crLassoLbl, List.getElem?_eq_getElem (show k < ls.length by omega), Option.getD_some]
    rw [← COut.ok.inj h4, h2]

theorem crLasso_tail {ls : List CLbl} {c0 c : Cr} (h : c0.run exCfg exSites ls = .ok c) (hi : c.Idle) (k : Nat)
    (hk : ls.length ≤ k) : (crLasso ls c0 k).Idle := by
  induction k, hk using Nat.le_induction with
  | base =>
    have := crLasso_prefix h ls.length (Nat.le_refl _)
    rw [List.take_length, h] at this
    rw [← COut.ok.inj this]; exact hi
  | succ k hk ih =>
    obtain ⟨s', h1, h2⟩ := ih.step
    simp only [crLasso, crLassoLbl, List.getElem?_eq_none hk, Option.getD_none, h1]
    exact h2

theorem crLasso_step {ls : List CLbl} {c0 c : Cr} (h : c0.run exCfg exSites ls = .ok c) (hi : c.Idle) (k : Nat) :
    (crLasso ls c0 k).act exCfg exSites (crLassoLbl ls k (crLasso ls c0 k)) = .ok (crLasso ls c0 (k + 1)) := by
  by_cases hk : k < ls.length
  · obtain ⟨c1, c2, h1, h2, h3⟩ := crRun_take h k hk
    have h4 := crLasso_prefix h k (by omega)
    have h5 := crLasso_prefix h (k + 1) hk
    rw [h1] at h4
    rw [h3] at h5
    rw [← COut.ok.inj h4, ← COut.ok.inj h5, crLassoLbl, List.getElem?_eq_getElem hk]
    exact h2
  · obtain ⟨s', h1, h2⟩ := (crLasso_tail h hi k (by omega)).step
    have : crLassoLbl ls k (crLasso ls c0 k) = (crLasso ls c0 k).idleLbl := by
      simp [crLassoLbl, List.getElem?_eq_none (show ls.length ≤ k by omega)]
    simp only [crLasso]
    rw [this, h1]

/-- The infinite execution. -/
def crLassoRun (ls : List CLbl) (c0 c : Cr) (h0 : Cr.init exCfg 0 exCk = some c0)
    (hl : ls.all exCLbl = true) (h : c0.run exCfg exSites ls = .ok c) (hi : c.Idle) : CrRun exCfg exSites where
  σ := crLasso ls c0
  lbl k := some (crLassoLbl ls k (crLasso ls c0 k))
  start := ⟨0, exCk, exCk_plain, by decide, h0⟩
  ok k l hk := by
    cases hk
    by_cases hk : k < ls.length
    · rw [crLassoLbl, List.getElem?_eq_getElem hk, Option.getD_some]
      have := List.all_eq_true.1 hl _ (List.getElem_mem hk)
      generalize ls[k] = l at this
      cases l <;> first | exact exLbl_ok this | trivial
    · rw [crLassoLbl, List.getElem?_eq_none (by omega)]
      exact (crLasso_tail h hi k (by omega)).lbl.2.2.1 _ _
  step k := crLasso_step h hi k

/-- No `scanned none` among the labels is a notification. -/
def crNotifies : Cr → List CLbl → Bool
  | _, [] => true
  | c, l :: ls =>
    (match l with
     | .rt (.scanned none) => !(decide (c.rt.mem c.rt.encPtr = [] ∧ c.rt.status ≠ .requested ∧ c.rt.idleStatus = .completed))
     | _ => true) &&
    match c.act exCfg exSites l with
    | .ok c' => crNotifies c' ls
    | _ => false

theorem crNotifies_at {ls : List CLbl} {c0 c : Cr} (h : c0.run exCfg exSites ls = .ok c)
    (hn : crNotifies c0 ls = true) (k : Nat) (hk : k < ls.length) (hl : ls[k] = .rt (.scanned none)) :
    ∃ c1, c0.run exCfg exSites (ls.take k) = .ok c1 ∧
      ¬ (c1.rt.mem c1.rt.encPtr = [] ∧ c1.rt.status ≠ .requested ∧ c1.rt.idleStatus = .completed) := by
  induction ls generalizing c0 k with
  | nil => simp at hk
  | cons l ls ih =>
    simp only [Cr.run] at h
    simp only [crNotifies, Bool.and_eq_true] at hn
    cases ha : c0.act exCfg exSites l with
    | off => rw [ha] at h; cases h
    | ub => rw [ha] at h; cases h
    | ok c1 =>
      rw [ha] at h
      have hn2 := hn.2
      rw [ha] at hn2
      cases k with
      | zero =>
        simp only [List.getElem_cons_zero] at hl
        subst hl
        exact ⟨c0, rfl, by simpa only [Bool.not_eq_true', decide_eq_false_iff_not] using hn.1⟩
      | succ k =>
        obtain ⟨a, h1, h2⟩ := ih h hn2 k (by simpa using hk) (by simpa using hl)
        exact ⟨a, by simp [Cr.run, ha, h1], h2⟩

section
variable {cfg : Config} {prog : List Site}

theorem remove_pc {s s' : Rt} (h : s.remove = .ok s') (u : Nat) : (s'.thr u).pc = (s.thr u).pc := by
  have hup : (upd s.thr s.cur { s.thr s.cur with freed := true } u).pc = (s.thr u).pc := by
    by_cases hu : u = s.cur
    · subst hu; rw [upd_same]
    · rw [upd_other _ _ hu]
  unfold Rt.remove at h
  simp only at h
  split at h
  · cases h; exact hup
  · rw [(advance_thr h).1]; exact hup

/-- A step in the staging buffers changes what a thread does only if it is in the middle of a log statement or ends. -/
theorem cr_pc {c c' : Cr} {l : CLbl} (ha : c.act cfg prog l = .ok c') (hl : ∀ m, l ≠ .rt m) (u : Nat) :
    (c'.rt.thr u).pc = (c.rt.thr u).pc ∨ (l = .finish u ∧ ∃ m, (c.rt.thr u).pc = .write m) ∨
      l = .exit u ∧ (c.rt.thr u).pc = .idle := by
  have hlift : ∀ {c1 : Cr} {o : Out}, c1.lift o = .ok c' → o = .ok c'.rt := by
    intro c1 o h
    cases o <;> simp only [Cr.lift] at h <;> cases h
    rfl
  have hset : ∀ (t : Nat) (p : TPc), u ≠ t → ((c.rt.setThr t { c.rt.thr t with pc := p }).thr u).pc = (c.rt.thr u).pc := by
    intro t p hu
    simp only [Rt.setThr]
    rw [upd_other _ _ hu]
  cases l with
  | rt l => exact absurd rfl (hl l)
  | write | store | storeC =>
    simp only [Cr.act, Cr.actThr] at ha
    (repeat' split at ha) <;> cases ha
    exact .inl rfl
  | finish t =>
    simp only [Cr.act, Cr.actThr] at ha
    (repeat' split at ha) <;> cases ha
    rename_i m hm _ _ _ _
    by_cases hu : u = t
    · subst hu; exact .inr (.inl ⟨rfl, m, hm⟩)
    · exact .inl (hset t _ hu)
  | exit t =>
    simp only [Cr.act, Cr.actThr] at ha
    (repeat' split at ha) <;> cases ha
    all_goals
      by_cases hu : u = t
      · subst hu; exact .inr (.inr ⟨rfl, by assumption⟩)
      · exact .inl (hset t _ hu)
  | peek | follow | look =>
    simp only [Cr.act, Cr.actBg] at ha
    (repeat' split at ha) <;> cases ha
    all_goals exact .inl rfl
  | check =>
    left
    simp only [Cr.act, Cr.actBg, Cr.next] at ha
    (repeat' split at ha) <;> try cases ha
    · rw [(advance_thr (hlift ha)).1]
    · exact remove_pc (hlift ha) u
    · rfl
  | encode =>
    left
    simp only [Cr.act, Cr.actBg, Cr.next] at ha
    (repeat' split at ha) <;> try cases ha
    · rw [(advance_thr (hlift ha)).1]; rfl
    · rw [(advance_thr (hlift ha)).1]; rfl
    · rfl

theorem cr_rt {c c' : Cr} {l : Lbl} (ha : c.act cfg prog (.rt l) = .ok c') : c.rt.act cfg prog l = .ok c'.rt ∧ c'.sb = c.sb := by
  have hlift : ∀ {o : Out}, c.lift o = .ok c' → o = .ok c'.rt ∧ c'.sb = c.sb := by
    intro o h
    cases o <;> simp only [Cr.lift] at h <;> cases h
    exact ⟨rfl, rfl⟩
  simp only [Cr.act, Cr.actRt] at ha
  (repeat' split at ha) <;> first | cases ha | exact hlift ha

/-- Threads that have been woken, and threads in `setLogFile`, do nothing else. -/
theorem cr_stays {c c' : Cr} {l : CLbl} (ha : c.act cfg prog l = .ok c') {u : Nat}
    (h : (∃ sw, (c.rt.thr u).pc = .woken sw) ∧ l ≠ .rt (.ret u) ∨ (c.rt.thr u).pc = .stop ∧ l ≠ .rt (.stop u)) :
    (c'.rt.thr u).pc = (c.rt.thr u).pc := by
  by_cases hl : ∃ m, l = .rt m
  · obtain ⟨m, rfl⟩ := hl
    refine act_stays (cr_rt ha).1 ?_
    rcases h with ⟨h1, h2⟩ | ⟨h1, h2⟩
    · exact .inl ⟨h1, fun e => h2 (by rw [e])⟩
    · exact .inr (.inl ⟨h1, fun e => h2 (by rw [e])⟩)
  · rcases cr_pc ha (fun m e => hl ⟨m, e⟩) u with h1 | ⟨-, m, h1⟩ | ⟨-, h1⟩
    · exact h1
    all_goals rcases h with ⟨⟨sw, h⟩, -⟩ | ⟨h, -⟩ <;> rw [h1] at h <;> cases h

end

theorem crLassoRun_fair {ls : List CLbl} {c0 c : Cr} (h0 : Cr.init exCfg 0 exCk = some c0)
    (hl : ls.all exCLbl = true) (h : c0.run exCfg exSites ls = .ok c) (hi : c.Idle)
    (hn : crNotifies c0 ls = true) : (crLassoRun ls c0 c h0 hl h hi).Fair := by
  have ht : ∀ k, ls.length ≤ k → ((crLassoRun ls c0 c h0 hl h hi).σ k).Idle := crLasso_tail h hi
  have htl : ∀ k, ls.length ≤ k → (crLassoRun ls c0 c h0 hl h hi).lbl k =
      some ((crLassoRun ls c0 c h0 hl h hi).σ k).idleLbl := by
    intro k hk
    simp [crLassoRun, crLassoLbl, List.getElem?_eq_none hk]
  have hidle : ∀ k u, ls.length ≤ k → (((crLassoRun ls c0 c h0 hl h hi).σ k).rt.thr u).pc = .idle :=
    fun k u hk => (ht k hk).rt.pcs u
  have hk : ∀ k l, (crLassoRun ls c0 c h0 hl h hi).lbl k = some l → k < ls.length → ls[k]? = some l := by
    intro k l hk1 hk2
    have : crLassoLbl ls k (crLasso ls c0 k) = l := Option.some.inj hk1
    rw [crLassoLbl, List.getElem?_eq_getElem hk2, Option.getD_some] at this
    rw [List.getElem?_eq_getElem hk2, this]
  have hσ : ∀ k, k ≤ ls.length → c0.run exCfg exSites (ls.take k) = .ok ((crLassoRun ls c0 c h0 hl h hi).σ k) :=
    crLasso_prefix h
  generalize crLassoRun ls c0 c h0 hl h hi = r at *
  have hact : ∀ {k l}, r.lbl k = some l → (r.σ k).act exCfg exSites l = .ok (r.σ (k + 1)) := by
    intro k l h
    have := r.step k
    rw [h] at this
    exact this
  -- a thread that stays where it is contradicts the end
  have hstay : ∀ k u (p : TPc), p ≠ .idle → ((r.σ k).rt.thr u).pc = p →
      (∀ j ≥ k, ((r.σ j).rt.thr u).pc = p → ((r.σ (j + 1)).rt.thr u).pc = p) → False := by
    intro k u p hp h1 h2
    have h3 : ∀ j ≥ k, ((r.σ j).rt.thr u).pc = p := by
      intro j hj
      induction j, hj using Nat.le_induction with
      | base => exact h1
      | succ j hj ih => exact h2 j hj ih
    have h4 := h3 (max k ls.length) (by omega)
    rw [hidle _ u (by omega)] at h4
    exact hp h4.symm
  refine ⟨fun k => ?_, fun k => ?_, fun k hs hm hst hid u sw hu => ?_, fun k t sw hw => ?_,
    fun k t hw => ?_, fun k t hw => ?_, fun k _ => ?_, fun k t hb => ?_⟩
  · exact ⟨max k ls.length, by omega, .inl ⟨_, htl _ (by omega), (ht _ (by omega)).lbl.1⟩⟩
  · exact ⟨max k ls.length, by omega, (ht _ (by omega)).rt.aio⟩
  · by_cases hlt : k < ls.length
    · have h1 := hk k _ hs hlt
      rw [List.getElem?_eq_getElem hlt] at h1
      obtain ⟨s1, h2, h3⟩ := crNotifies_at h hn k hlt (Option.some.inj h1)
      rw [hσ k (by omega)] at h2
      rw [← COut.ok.inj h2] at h3
      exact h3 ⟨hm, hst, hid⟩
    · rw [hidle k u (by omega)] at hu; cases hu
  · by_contra hno
    refine hstay k t (.woken sw) (by simp) hw fun j hj hp => ?_
    have hs := r.step j
    cases hl : r.lbl j with
    | none => rw [hl] at hs; simp only at hs; rw [hs, hp]
    | some l =>
      rw [cr_stays (hact hl) (.inl ⟨⟨_, hp⟩, fun hx => hno ⟨j, hj, by rw [hl, hx]⟩⟩), hp]
  · by_contra hno
    refine hstay k t .stop (by simp) hw fun j hj hp => ?_
    have hs := r.step j
    cases hl : r.lbl j with
    | none => rw [hl] at hs; simp only at hs; rw [hs, hp]
    | some l =>
      rw [cr_stays (hact hl) (.inr ⟨hp, fun hx => hno ⟨j, hj, by rw [hl, hx]⟩⟩), hp]
  · have h1 := (hw (max k ls.length) (by omega)).1
    rw [hidle _ t (by omega)] at h1
    cases h1
  · refine ⟨max k ls.length, by omega, fun i hi => ?_⟩
    rw [htl i (by omega)]
    intro hx
    exact (ht i (by omega)).lbl.2.1 (Option.some.inj hx)
  · by_contra hno
    have h3 : ∀ j ≥ k, ((r.σ j).sb t).buf ≠ [] := by
      intro j hj
      induction j, hj using Nat.le_induction with
      | base => exact hb
      | succ j hj ih =>
        have hs := r.step j
        cases hl : r.lbl j with
        | none => rw [hl] at hs; simp only at hs; rw [hs]; exact ih
        | some l =>
          obtain ⟨⟨x, h1⟩, -⟩ := act_pending (hact hl) (t := t) (fun hx => hno ⟨j, hj, by rw [hl, hx]⟩)
          rw [h1]
          intro e
          exact ih (List.append_eq_nil_iff.1 e).1
    exact h3 (max k ls.length) (by omega) ((ht _ (by omega)).buf t)

/-- The thread that a label of an application thread belongs to. -/
def CLbl.who : CLbl → Option Nat
  | .rt l => l.who
  | .write t _ | .finish t | .exit t | .store t => some t
  | _ => none

section
variable {cfg : Config} {prog : List Site}

/-- A thread that does nothing. -/
def Cr.Unused (c : Cr) (u : Nat) : Prop := (c.rt.thr u).pc = .idle ∧ (c.sb u).buf = []

theorem sb_pending {N : Nat} {s s' : SB} {a : Act} (ha : s.act .tso N a = some s') (hc : a.byBg ∨ a = .commitC) :
    s'.buf = s.buf := by
  rcases hc with hc | rfl
  · cases a <;> simp only [Act.byBg] at hc <;> simp only [SB.act] at ha
    all_goals (repeat' split at ha)
    all_goals (cases ha)
    all_goals rfl
  · simp only [SB.act] at ha
    repeat' split at ha
    all_goals (cases ha)
    rfl

theorem cr_unused {c c' : Cr} {l : CLbl} {u : Nat} (ha : c.act cfg prog l = .ok c') (hw : l.who ≠ some u)
    (h : c.Unused u) : c'.Unused u := by
  have hlift : ∀ {c1 : Cr} {o : Out}, c1.lift o = .ok c' → c'.sb = c1.sb := by
    intro c1 o h
    cases o <;> simp only [Cr.lift] at h <;> cases h
    rfl
  have hset : ∀ {t : Nat} {s : SB} {a : Act}, (c.sb t).act .tso cfg.staging a = some s → (a.byBg ∨ a = .commitC) →
      (upd c.sb t s u).buf = [] := by
    intro t s a ha hb
    by_cases hu : u = t
    · subst hu; rw [upd_same, sb_pending ha hb]; exact h.2
    · rw [upd_other _ _ hu]; exact h.2
  have hset2 : ∀ {t v : Nat} {s s2 : SB} {a a2 : Act}, (c.sb t).act .tso cfg.staging a = some s → (a.byBg ∨ a = .commitC) →
      (upd c.sb t s v).act .tso cfg.staging a2 = some s2 → (a2.byBg ∨ a2 = .commitC) →
      (upd (upd c.sb t s) v s2 u).buf = [] := by
    intro t v s s2 a a2 ha hb ha2 hb2
    have h1 := hset ha hb
    by_cases hu : u = v
    · subst hu; rw [upd_same, sb_pending ha2 hb2]; exact h1
    · rw [upd_other _ _ hu]; exact h1
  cases l with
  | rt l =>
    obtain ⟨h1, h2⟩ := cr_rt ha
    exact ⟨act_other h1 hw h.1, by rw [h2]; exact h.2⟩
  | write t a =>
    refine ⟨?_, ?_⟩
    · rcases cr_pc ha (by simp) u with h1 | ⟨h1, -⟩ | ⟨h1, -⟩
      · rw [h1]; exact h.1
      · cases h1
      · cases h1
    · have hu : u ≠ t := fun e => hw (by rw [e]; rfl)
      simp only [Cr.act, Cr.actThr] at ha
      (repeat' split at ha) <;> cases ha
      simp only [Cr.setSb]
      rw [upd_other _ _ hu]; exact h.2
  | finish t =>
    have hu : u ≠ t := fun e => hw (by rw [e]; rfl)
    refine ⟨?_, ?_⟩
    · rcases cr_pc ha (by simp) u with h1 | ⟨h1, -⟩ | ⟨h1, -⟩
      · rw [h1]; exact h.1
      · cases h1; exact absurd rfl hu
      · cases h1
    · simp only [Cr.act, Cr.actThr] at ha
      (repeat' split at ha) <;> cases ha
      simp only [Cr.setSb]
      rw [upd_other _ _ hu]; exact h.2
  | exit t =>
    have hu : u ≠ t := fun e => hw (by rw [e]; rfl)
    refine ⟨?_, ?_⟩
    · rcases cr_pc ha (by simp) u with h1 | ⟨h1, -⟩ | ⟨h1, -⟩
      · rw [h1]; exact h.1
      · cases h1
      · cases h1; exact absurd rfl hu
    · simp only [Cr.act, Cr.actThr] at ha
      (repeat' split at ha) <;> cases ha
      · exact h.2
      · simp only [Cr.setSb]
        rw [upd_other _ _ hu]; exact h.2
  | store t =>
    have hu : u ≠ t := fun e => hw (by rw [e]; rfl)
    simp only [Cr.act, Cr.actThr] at ha
    (repeat' split at ha) <;> cases ha
    refine ⟨h.1, ?_⟩
    simp only [Cr.setSb]
    rw [upd_other _ _ hu]; exact h.2
  | storeC t =>
    simp only [Cr.act, Cr.actThr] at ha
    (repeat' split at ha) <;> cases ha
    exact ⟨h.1, hset (by assumption) (.inr rfl)⟩
  | peek =>
    refine ⟨?_, ?_⟩
    · rcases cr_pc ha (by simp) u with h1 | ⟨h1, -⟩ | ⟨h1, -⟩
      · rw [h1]; exact h.1
      · cases h1
      · cases h1
    · simp only [Cr.act, Cr.actBg] at ha
      (repeat' split at ha) <;> try cases ha
      · exact h.2
      · exact hset (by assumption) (.inl (by trivial))
  | follow =>
    refine ⟨?_, ?_⟩
    · rcases cr_pc ha (by simp) u with h1 | ⟨h1, -⟩ | ⟨h1, -⟩
      · rw [h1]; exact h.1
      · cases h1
      · cases h1
    · simp only [Cr.act, Cr.actBg] at ha
      (repeat' split at ha) <;> try cases ha
      all_goals exact hset (by assumption) (.inl (by trivial))
  | look i =>
    refine ⟨?_, ?_⟩
    · rcases cr_pc ha (by simp) u with h1 | ⟨h1, -⟩ | ⟨h1, -⟩
      · rw [h1]; exact h.1
      · cases h1
      · cases h1
    · simp only [Cr.act, Cr.actBg] at ha
      (repeat' split at ha) <;> try cases ha
      exact hset (by assumption) (.inl (by trivial))
  | check =>
    refine ⟨?_, ?_⟩
    · rcases cr_pc ha (by simp) u with h1 | ⟨h1, -⟩ | ⟨h1, -⟩
      · rw [h1]; exact h.1
      · cases h1
      · cases h1
    · simp only [Cr.act, Cr.actBg, Cr.next] at ha
      (repeat' split at ha) <;> try cases ha
      · rw [hlift ha]; exact hset (by assumption) (.inl (by trivial))
      · rw [hlift ha]; exact hset (by assumption) (.inl (by trivial))
      · exact hset (by assumption) (.inl (by trivial))
  | encode j m =>
    refine ⟨?_, ?_⟩
    · rcases cr_pc ha (by simp) u with h1 | ⟨h1, -⟩ | ⟨h1, -⟩
      · rw [h1]; exact h.1
      · cases h1
      · cases h1
    · simp only [Cr.act, Cr.actBg, Cr.next] at ha
      (repeat' split at ha) <;> try cases ha
      · rw [hlift ha]; exact hset (by assumption) (.inl (by trivial))
      · rename_i hs _ _ _ hs2
        rw [hlift ha]
        exact hset2 hs (.inl (by trivial)) hs2 (.inl (by trivial))
      · exact hset (by assumption) (.inl (by trivial))

theorem crRun_unused {ls : List CLbl} {c c' : Cr} {u : Nat}
    (h : c.run cfg prog ls = .ok c') (hw : ∀ l ∈ ls, l.who ≠ some u) (hs : c.Unused u) : c'.Unused u := by
  induction ls generalizing c with
  | nil => cases h; exact hs
  | cons l ls ih =>
    simp only [Cr.run] at h
    cases ha : c.act cfg prog l with
    | off => rw [ha] at h; cases h
    | ub => rw [ha] at h; cases h
    | ok s1 =>
      rw [ha] at h
      exact ih h (fun l hl => hw l (by simp [hl])) (cr_unused ha (hw l (by simp)) hs)

end

/-- `Cr.Idle` for threads 1 and 2. -/
def crIdleB (c : Cr) : Bool :=
  idleB c.rt && c.tgt == none && (c.sb 1).buf.isEmpty && (c.sb 2).buf.isEmpty &&
  c.rt.bufs.all fun t => (c.sb t).memP == (c.sb t).cp && !(c.sb t).memD && match (c.sb t).cc with | .idle => true | _ => false

theorem crIdleB_idle {ls : List CLbl} {c0 c : Cr} (h0 : Cr.init exCfg 0 exCk = some c0)
    (h : c0.run exCfg exSites ls = .ok c)
    (hw : (ls.all fun l => l.who == none || l.who == some 1 || l.who == some 2) = true)
    (hb : crIdleB c = true) : c.Idle := by
  simp only [crIdleB, Bool.and_eq_true, beq_iff_eq, Bool.not_eq_true', List.all_eq_true, List.isEmpty_iff] at hb
  obtain ⟨⟨⟨⟨hb, b1⟩, b2⟩, b3⟩, b4⟩ := hb
  have hun : ∀ u, u ≠ 1 → u ≠ 2 → c.Unused u := by
    intro u hu1 hu2
    refine crRun_unused h (fun l hl hx => ?_) ?_
    · have := List.all_eq_true.1 hw l hl
      rw [hx] at this
      simp [hu1, hu2] at this
    · simp only [Cr.init, Option.map_eq_some_iff] at h0
      obtain ⟨r, h1, rfl⟩ := h0
      refine ⟨?_, rfl⟩
      unfold Rt.init at h1
      split at h1 <;> cases h1
      rfl
  simp only [idleB, Bool.and_eq_true, beq_iff_eq, bne_iff_ne, ne_eq, decide_eq_true_eq, Bool.not_eq_true',
    List.all_eq_true] at hb
  obtain ⟨⟨⟨⟨⟨⟨⟨⟨⟨⟨⟨h1, h2⟩, h3⟩, h4⟩, h5⟩, h6⟩, h7⟩, h8⟩, h9⟩, h10⟩, h11⟩, h12⟩ := hb
  refine ⟨⟨h1, h2, ?_, h4, h5, h6, h7, h8, fun hx => by simp [h9] at hx, fun hx => by simp [h9] at hx, ?_, ?_,
    by simp [h9]⟩, fun t ht => (b4 t ht).1, fun t ht _ _ => ?_, fun t ht => ?_, fun e => ?_, fun u => ?_⟩
  · intro a ha; rw [ha] at h3; simpa using h3
  · intro t ht
    have := h10 t ht
    exact ⟨this.1.1, this.1.2, this.2⟩
  · intro u
    by_cases hu1 : u = 1
    · rw [hu1, h11]
    by_cases hu2 : u = 2
    · rw [hu2, h12]
    exact (hun u hu1 hu2).1
  · have := (b4 t ht).2
    split at this
    · assumption
    · cases this
  · rw [b1] at ht; cases ht
  · rw [h9] at e; cases e
  · by_cases hu1 : u = 1
    · rw [hu1, b2]
    by_cases hu2 : u = 2
    · rw [hu2, b3]
    exact (hun u hu1 hu2).2

theorem crLassoRun_allocs {ls : List CLbl} {c0 c : Cr} (h0 : Cr.init exCfg 0 exCk = some c0)
    (hl : ls.all exCLbl = true) (h : c0.run exCfg exSites ls = .ok c) (hi : c.Idle) (j : Nat) :
    allocs (calls ((crLassoRun ls c0 c h0 hl h hi).labels j)) ≤ ls.length := by
  suffices hm : allocs (calls ((crLassoRun ls c0 c h0 hl h hi).labels j)) ≤ min j ls.length by omega
  have e : ∀ a b, allocs (calls (a ++ b)) = allocs (calls a) + allocs (calls b) := by
    intro a b; simp [allocs, calls]
  induction j with
  | zero => simp [CrRun.labels, allocs, calls]
  | succ j ih =>
    rw [CrRun.labels_succ, e]
    by_cases hj : j < ls.length
    · have : allocs (calls ((crLassoRun ls c0 c h0 hl h hi).lbl j).toList) ≤ 1 :=
        Nat.le_trans (List.length_filter_le _ _) (Nat.le_trans (List.length_filterMap_le _ _) (by simp [crLassoRun]))
      omega
    · have : allocs (calls ((crLassoRun ls c0 c h0 hl h hi).lbl j).toList) = 0 := by
        have h1 := (crLasso_tail h hi j (by omega)).lbl.2.2.2.1
        have h2 : (crLassoRun ls c0 c h0 hl h hi).lbl j = some (crLasso ls c0 j).idleLbl := by
          simp [crLassoRun, crLassoLbl, List.getElem?_eq_none (show ls.length ≤ j by omega)]
        rw [h2]
        revert h1
        generalize (crLasso ls c0 j).idleLbl = l
        intro h1
        cases l with
        | rt l => cases l <;> simp_all [allocs, calls]
        | _ => rfl
      omega

/-- A finite execution with the computed properties is continued to a fair infinite one. -/
theorem exCrLasso {ls : List CLbl} (hl : ls.all exCLbl = true)
    (hw : (ls.all fun l => l.who == none || l.who == some 1 || l.who == some 2) = true)
    (hc : exCrCheck ls crIdleB = true)
    (hn : (match Cr.init exCfg 0 exCk with | some c0 => crNotifies c0 ls | none => false) = true) :
    ∃ (r : CrRun exCfg exSites) (c0 : Cr), Cr.init exCfg 0 exCk = some c0 ∧ r.Fair ∧
      (∀ k < ls.length, r.lbl k = ls[k]?) ∧
      (∀ k ≤ ls.length, c0.run exCfg exSites (ls.take k) = .ok (r.σ k)) ∧
      (∀ k ≥ ls.length, ∀ l, r.lbl k = some l → l.ofBg = true ∧ ∀ t, l ≠ .rt (.push t)) ∧
      ∀ j, allocs (calls (r.labels j)) ≤ ls.length := by
  unfold exCrCheck at hc
  cases h0 : Cr.init exCfg 0 exCk with
  | none => rw [h0] at hc; cases hc
  | some c0 =>
    rw [h0] at hc hn
    simp only at hc hn
    cases hr : c0.run exCfg exSites ls with
    | off => rw [hr] at hc; cases hc
    | ub => rw [hr] at hc; cases hc
    | ok c =>
      rw [hr] at hc
      have hi := crIdleB_idle h0 hr hw hc
      refine ⟨crLassoRun ls c0 c h0 hl hr hi, c0, rfl, crLassoRun_fair h0 hl hr hi hn, ?_, ?_, ?_,
        crLassoRun_allocs h0 hl hr hi⟩
      · intro k hk
        simp [crLassoRun, crLassoLbl, List.getElem?_eq_getElem hk]
      · exact crLasso_prefix hr
      · intro k hk l hl'
        have h2 : (crLassoRun ls c0 c h0 hl hr hi).lbl k = some (crLasso ls c0 k).idleLbl := by
          simp [crLassoRun, crLassoLbl, List.getElem?_eq_none hk]
        rw [h2] at hl'
        rw [← Option.some.inj hl']
        have := (crLasso_tail hr hi k hk).lbl
        exact ⟨this.1, this.2.2.2.2⟩

end NanoLog
