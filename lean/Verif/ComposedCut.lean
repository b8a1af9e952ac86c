import Verif.Props.Composed

/-!
# Passes that are cut short, over byte-wise staging buffers

`C31_sync_partial` needs that no second pass deletes the buffer it began with while there are others.  Here the same
condition for `Cr`, and that it implies the other one along the simulation.
-/

namespace NanoLog

/-- The states before the steps of a run, with the steps (as `Rt.trace`). -/
def Cr.trace (cfg : Config) (prog : List Site) (c : Cr) : List CLbl → List (Cr × CLbl)
  | [] => []
  | l :: ls =>
    (c, l) :: match c.act cfg prog l with
      | .ok c' => Cr.trace cfg prog c' ls
      | _ => []

/-- The step deletes a staging buffer, the one with which the pass began, while there are others, in a pass that can
complete a `sync`: the status is `PERFORMING_SECOND_PASS` and nothing is encoded (runtime/RuntimeLogger.cc:473-491,
511-529). -/
def CutsPass (cfg : Config) (prog : List Site) (p : Cr × CLbl) : Prop :=
  (∃ c', p.1.act cfg prog p.2 = .ok c' ∧ c'.rt.bufs.length < p.1.rt.bufs.length) ∧ p.1.rt.i = p.1.rt.last ∧
    1 < p.1.rt.bufs.length ∧ p.1.rt.status = .second ∧ p.1.rt.mem p.1.rt.encPtr = []

section
variable {s0 : Rt} {cfg : Config} {prog : List Site} {cls : List CLbl} {c c0 : Cr} {als : List Lbl} {G : Ov}
  {kls : Nat → List (Nat × LogCall)} {r : Nat → List (Nat × List Arg)} {τ : Nat → List Nat} {held : Nat → Nat}

theorem trace_cat {s s' : Rt} {a b : List Lbl} (h : s.run cfg prog a = .ok s') :
    s.trace cfg prog (a ++ b) = s.trace cfg prog a ++ s'.trace cfg prog b := by
  induction a generalizing s with
  | nil => cases h; rfl
  | cons l a ih =>
    simp only [Rt.run] at h
    split at h <;> try cases h
    rename_i s1 ha
    simp only [List.cons_append, Rt.trace, ha, ih h]

theorem trace_label {s : Rt} {a : List Lbl} {p : Rt × Lbl} (h : p ∈ s.trace cfg prog a) : p.2 ∈ a := by
  induction a generalizing s with
  | nil => cases h
  | cons l a ih =>
    simp only [Rt.trace, List.mem_cons] at h ⊢
    rcases h with rfl | h
    · exact .inl rfl
    · split at h
      · exact .inr (ih h)
      · cases h

theorem advance_bufs {s s' : Rt} {j : Nat} (h : s.advance j = .ok s') : s'.bufs = s.bufs := by
  unfold Rt.advance at h
  repeat' split at h
  all_goals cases h
  all_goals rfl

/-- A step that deletes a buffer leaves fewer. -/
theorem check_fewer {s s' : Rt} (hI : RtInv s) (h : s.act cfg prog .check = .ok s') (hd : (s.thr s.cur).dealloc = true)
    (hq : (s.thr s.cur).q = []) : s'.bufs.length < s.bufs.length := by
  simp only [Rt.act, Rt.actScan] at h
  split at h
  · cases h
  rename_i hpc
  have hpc : s.pc = .check := by by_contra e; exact hpc e
  have hi : s.i < s.bufs.length := (List.getElem?_eq_some_iff.1 (hI.curI (.inl hpc))).1
  have he : (s.bufs.eraseIdx s.i).length < s.bufs.length := by rw [List.length_eraseIdx_of_lt hi]; omega
  rw [if_pos ⟨hd, hq⟩] at h
  split at h
  · cases h; exact he
  · rw [advance_bufs h]; exact he

theorem only_check {bls : List Lbl} (hm : .check ∈ bls)
    (h : bls.length ≤ 1 ∨ ∀ b ∈ bls, b.ofBg = false ∧ ∀ u, b ≠ .register u) : bls = [.check] := by
  rcases h with h | h
  · cases bls with
    | nil => cases hm
    | cons b bls =>
      have : bls = [] := List.length_eq_zero_iff.1 (by rw [List.length_cons] at h; omega)
      subst this
      rw [List.mem_singleton] at hm
      rw [hm]
  · have := (h _ hm).1
    cases this

theorem trace_one {s s' : Rt} {l : Lbl} {bls : List Lbl} {p : Rt × Lbl} (hb : bls = [l])
    (hr : s.run cfg prog bls = .ok s') (hp : p ∈ s.trace cfg prog bls) : s.act cfg prog l = .ok s' ∧ p = (s, l) := by
  subst hb
  cases ha : s.act cfg prog l with
  | off => simp only [Rt.run, ha] at hr; cases hr
  | ub => simp only [Rt.run, ha] at hr; cases hr
  | ok s1 =>
    simp only [Rt.run, ha] at hr
    cases hr
    simp only [Rt.trace, ha, List.mem_cons, List.not_mem_nil, or_false] at hp
    exact ⟨rfl, hp⟩

/-- The steps of the other model that stand for a run: none of them cuts a pass short unless one of the run does. -/
theorem CRel.run_cut (hP : ProgOK cfg prog) {ls : List CLbl} (ho : ∀ l ∈ ls, l.OK cfg prog)
    (h : CRel s0 cfg prog cls c0 als G kls r τ held) (hr : c0.run cfg prog ls = .ok c) :
    ∃ bls, CSim s0 cfg prog (cls ++ ls) c (als ++ bls) ∧ (∀ u, .spurious u ∈ bls → .rt (.spurious u) ∈ ls) ∧
      ((∀ p ∈ c0.trace cfg prog ls, ¬ CutsPass cfg prog p) →
        ∀ p ∈ (c0.rt.over G).trace cfg prog bls, ¬ CutsSync p) := by
  induction ls generalizing cls c0 als G kls r τ held with
  | nil => cases hr; exact ⟨[], by simpa using ⟨G, kls, r, τ, held, h⟩, by simp, by simp [Rt.trace]⟩
  | cons l ls ih =>
    have hg := Good.act hP h (ho l (by simp))
    simp only [Cr.run] at hr
    cases ha : c0.act cfg prog l with
    | off => rw [ha] at hr; cases hr
    | ub => rw [ha] at hr; cases hr
    | ok c1 =>
      rw [ha] at hg hr
      dsimp only at hr
      obtain ⟨b1, ⟨G1, kls1, r1, τ1, held1, h1⟩, h2⟩ := hg
      obtain ⟨b2, h3, h4, h5⟩ := ih (fun x hx => ho x (by simp [hx])) h1 hr
      refine ⟨b1 ++ b2, by simpa [List.append_assoc] using h3, fun u hu => ?_, fun hn p hp => ?_⟩
      · rcases List.mem_append.1 hu with hu | hu
        · rw [← h2.spurious u hu]; simp
        · exact List.mem_cons_of_mem _ (h4 u hu)
      · simp only [Cr.trace, ha, List.mem_cons] at hn
        have hrun : (c0.rt.over G).run cfg prog b1 = .ok (c1.rt.over G1) := by
          obtain ⟨s, i1, i2⟩ := Rt.run_split h1.exec.run
          rw [h.exec.run] at i1
          cases i1
          exact i2
        rw [trace_cat hrun] at hp
        rcases List.mem_append.1 hp with hp | hp
        · rintro ⟨⟨e1, e2, e3, e4, e5⟩, e6, e7⟩
          have hm := trace_label hp
          rw [e1] at hm
          obtain ⟨hact, rfl⟩ := trace_one (only_check hm h2.one) hrun hp
          have hlt := check_fewer (h.exec.inv hP).1 hact e4 e5
          exact hn (c0, l) (.inl rfl) ⟨⟨c1, ha, hlt⟩, e2, e3, e6, e7⟩
        · exact h5 (fun q hq => hn q (.inr hq)) p hp

/-! ### Without threads that have ended, no buffer is deleted -/

theorem act_exited {s s' : Rt} {l : Lbl} {t : Nat} (hl : l ≠ .exitThread t) (ha : s.act cfg prog l = .ok s')
    (hx : (s'.thr t).pc = .exited) : (s.thr t).pc = .exited := by
  have hbg : BgStep s s' → (s.thr t).pc = .exited := by
    intro h
    rcases h.pc t with h1 | ⟨sw', h1, h2⟩
    · rw [h1] at hx; exact hx
    · rw [h2] at hx; cases hx
  have hset : ∀ (s1 : Rt) (u : Nat) (th : Thr), s1.thr = upd s.thr u th →
      (th.pc ≠ .exited ∨ u ≠ t) → (s1.thr t).pc = .exited → (s.thr t).pc = .exited := by
    intro s1 u th he h1 h2
    rw [he] at h2
    by_cases hu : t = u
    · subst hu
      rw [upd_same] at h2
      rcases h1 with h1 | h1
      · exact absurd h2 h1
      · exact absurd rfl h1
    · rw [upd_other _ _ hu] at h2; exact h2
  have haf : ∀ c, afterAlloc c ≠ .exited := fun c => by cases c <;> simp [afterAlloc]
  cases l <;> simp only [Rt.act] at ha
  case exitThread u =>
    simp only [Rt.actBuf] at ha
    (repeat' split at ha) <;> cases ha <;>
      exact hset _ u _ rfl (.inr fun hu => hl (by rw [hu])) hx
  case ret u =>
    simp only [Rt.actCtl] at ha
    split at ha <;> cases ha
    refine hset _ u _ rfl (.inl ?_) hx
    dsimp only; split <;> simp
  case reserve u =>
    simp only [Rt.actLog] at ha
    split at ha <;> cases ha
    refine hset _ u _ rfl (.inl ?_) hx
    dsimp only; split <;> simp
  all_goals first
    | exact hbg (actScan_bg ha)
    | exact hbg (actIo_bg ha)
    | (simp only [Rt.actLog, Rt.actBuf, Rt.actCtl] at ha
       (repeat' split at ha)
       all_goals first
         | (cases ha; done)
         | (cases ha; exact hx)
         | (cases ha; exact hset _ _ _ rfl (.inl (by simp [haf])) hx))

theorem notify_bufs {s s' : Rt} {w : Option Nat} (h : s.notify w = .ok s') : s'.bufs = s.bufs := by
  unfold Rt.notify at h
  repeat' split at h
  all_goals cases h
  all_goals rfl

/-- Only `push` changes the list of buffers, of the steps that both models share. -/
theorem act_bufs_push {s s' : Rt} {l : Lbl} (hl : l.replaced = false) (ha : s.act cfg prog l = .ok s') :
    s'.bufs = s.bufs ∨ ∃ t, l = .push t ∧ s'.bufs = s.bufs ++ [t] ∧ (s'.thr t).pc ≠ .exited := by
  have haf : ∀ c, afterAlloc c ≠ .exited := fun c => by cases c <;> simp [afterAlloc]
  cases l <;> simp only [Lbl.replaced] at hl <;> try cases hl
  all_goals simp only [Rt.act, Rt.actLog, Rt.actBuf, Rt.actCtl, Rt.actScan, Rt.actIo] at ha
  all_goals (repeat' split at ha)
  all_goals first
    | (cases ha; done)
    | (have hb := notify_bufs ha; exact .inl hb)
    | (cases ha; exact .inl rfl)
    | (cases ha; exact .inr ⟨_, rfl, rfl, by simp [Rt.setThr, haf]⟩)

/-- No thread whose staging buffer is in the list has ended (runtime/RuntimeLogger.h:173-186, 511-516). -/
def Cr.noneEnded (c : Cr) : Prop := ∀ u ∈ c.rt.bufs, (c.rt.thr u).pc ≠ .exited

theorem lift_ok {c1 : Cr} {o : Out} (h : c.lift o = .ok c1) : ∃ s', o = .ok s' ∧ c1 = { c with rt := s' } := by
  cases o with
  | off => cases h
  | ub => cases h
  | ok s' => exact ⟨s', rfl, (COut.ok.inj h).symm⟩

/-- While no such thread ends, no buffer is deleted. -/
theorem CRel.noneEnded (hP : ProgOK cfg prog) (h : CRel s0 cfg prog cls c als G kls r τ held) {l : CLbl} {c1 : Cr}
    (hl : ∀ u, l ≠ .exit u) (hn : c.noneEnded) (ha : c.act cfg prog l = .ok c1) :
    c1.noneEnded ∧ c.rt.bufs.length ≤ c1.rt.bufs.length := by
  have hsame : c1.rt.bufs = c.rt.bufs → (∀ u, (c1.rt.thr u).pc = .exited → (c.rt.thr u).pc = .exited) →
      c1.noneEnded ∧ c.rt.bufs.length ≤ c1.rt.bufs.length := by
    intro e1 e2
    exact ⟨fun u hu hx => hn u (by rw [← e1]; exact hu) (e2 u hx), by rw [e1]⟩
  have hadv : ∀ {s s' : Rt} {j : Nat}, s.advance j = .ok s' → s'.bufs = s.bufs ∧ s'.thr = s.thr := by
    intro s s' j hs
    unfold Rt.advance at hs
    repeat' split at hs
    all_goals cases hs
    all_goals exact ⟨rfl, rfl⟩
  have hnext : ∀ {c2 : Cr} {s : Rt} {j : Nat}, s.bufs = c.rt.bufs → s.thr = c.rt.thr → c2.next cfg s j = .ok c1 →
      c1.noneEnded ∧ c.rt.bufs.length ≤ c1.rt.bufs.length := by
    intro c2 s j e1 e2 hs
    unfold Cr.next at hs
    split at hs
    · cases hs
    · obtain ⟨s', f1, rfl⟩ := lift_ok hs
      obtain ⟨g1, g2⟩ := hadv f1
      exact hsame (g1.trans e1) fun u => by
        show (s'.thr u).pc = _ → _
        rw [g2, e2]; exact id
  cases l with
  | exit u => exact absurd rfl (hl u)
  | rt l =>
    simp only [Cr.act, Cr.actRt] at ha
    cases hrp : l.replaced with
    | true => rw [hrp] at ha; cases ha
    | false =>
      rw [hrp] at ha
      simp only [Bool.false_eq_true, if_false] at ha
      obtain ⟨s', f1, rfl⟩ : ∃ s', c.rt.act cfg prog l = .ok s' ∧ c1 = { c with rt := s' } := by
        split at ha
        · exact lift_ok ha
        · split at ha
          · exact lift_ok ha
          · cases ha
      have hx : ∀ u, (s'.thr u).pc = .exited → (c.rt.thr u).pc = .exited :=
        fun u => act_exited (by rintro rfl; cases hrp) f1
      rcases act_bufs_push hrp f1 with e | ⟨t, rfl, e1, e2⟩
      · exact hsame e hx
      · refine ⟨fun u hu hxu => ?_, by show _ ≤ s'.bufs.length; rw [e1, List.length_append]; omega⟩
        change u ∈ s'.bufs at hu
        rw [e1, List.mem_append, List.mem_singleton] at hu
        rcases hu with hu | rfl
        · exact hn u hu (hx u hxu)
        · exact e2 hxu
  | check =>
    simp only [Cr.act, Cr.actBg] at ha
    split at ha
    · cases ha
    rename_i hpc
    have hpc : c.rt.pc = .check := by by_contra e; exact hpc e
    split at ha
    · exact hnext rfl rfl ha
    · rename_i s hs
      split at ha
      · exfalso
        rename_i hcc
        obtain ⟨htg, hgp, hgc⟩ := h.atBuf (.inr hpc)
        have ht := h.thr c.rt.cur
        have hcur := (h.exec.inv hP).1.curI (.inl (show (c.rt.over G).pc = .check from hgp.trans hpc))
        have hmem : c.rt.cur ∈ c.rt.bufs := by
          have := List.mem_of_getElem? hcur
          rwa [show (c.rt.over G).cur = c.rt.cur from hgc] at this
        obtain ⟨g, done, hI, hQ⟩ := ht.buf
        have hcc0 : (c.sb c.rt.cur).cc = .dead := by
          rcases h.cc.check hpc with ⟨view, hv⟩ | hv
          · simp only [SB.act, hv] at hs
            split at hs <;> cases hs
            cases hcc
          · exact hv
        have hD : (c.sb c.rt.cur).memD = true := by have := hI.c; simpa only [CInv, hcc0] using this
        have hex : (G.thr c.rt.cur).pc = .exited := ((h.exec.inv hP).1.thr c.rt.cur).dealloc (ht.dealloc.trans hD)
        refine hn _ hmem ?_
        cases hk : kls c.rt.cur with
        | cons p rest => rw [(ht.lag p rest hk).1] at hex; cases hex
        | nil =>
          rw [ht.sync hk, aim] at hex
          split at hex
          · cases hex
          · exact hex
      · cases ha; exact hsame rfl fun _ => id
  | encode j m =>
    simp only [Cr.act, Cr.actBg] at ha
    repeat' split at ha
    all_goals first
      | (cases ha; done)
      | (refine hnext ?_ ?_ ha <;> rfl)
      | (cases ha; exact hsame rfl fun _ => id)
  | finish t =>
    simp only [Cr.act, Cr.actThr] at ha
    repeat' split at ha
    all_goals first
      | (cases ha; done)
      | (cases ha
         refine hsame rfl fun u => ?_
         simp only [Rt.setThr]
         by_cases hu : u = t
         · subst hu; rw [upd_same]; intro e; cases e
         · rw [upd_other _ _ hu]; exact id)
  | write t a | store t | storeC t =>
    simp only [Cr.act, Cr.actThr] at ha
    repeat' split at ha
    all_goals first
      | (cases ha; done)
      | (cases ha; exact hsame rfl fun _ => id)
  | peek | follow | look i =>
    simp only [Cr.act, Cr.actBg] at ha
    repeat' split at ha
    all_goals first
      | (cases ha; done)
      | (cases ha; exact hsame rfl fun _ => id)

/-- Nor along a run: no pass is cut short. -/
theorem CRel.noneEnded_run (hP : ProgOK cfg prog) {ls : List CLbl} (ho : ∀ l ∈ ls, l.OK cfg prog)
    (h : CRel s0 cfg prog cls c0 als G kls r τ held) (hn : c0.noneEnded) (hx : ∀ u, .exit u ∉ ls) :
    ∀ p ∈ c0.trace cfg prog ls, ¬ CutsPass cfg prog p := by
  induction ls generalizing cls c0 als G kls r τ held with
  | nil => intro p hp; cases hp
  | cons l ls ih =>
    have hg := Good.act hP h (ho l (by simp))
    intro p hp
    simp only [Cr.trace, List.mem_cons] at hp
    rcases hp with rfl | hp
    · rintro ⟨⟨c', h1, h2⟩, -⟩
      have := (h.noneEnded hP (fun u e => hx u (List.mem_cons.2 (.inl e.symm))) hn h1).2
      simp only at h2
      omega
    · cases ha : c0.act cfg prog l with
      | off => rw [ha] at hp; cases hp
      | ub => rw [ha] at hp; cases hp
      | ok c1 =>
        rw [ha] at hg hp
        obtain ⟨b1, ⟨G1, kls1, r1, τ1, held1, h1⟩, -⟩ := hg
        exact ih (fun x hx => ho x (by simp [hx])) h1 (h.noneEnded hP (fun u e => hx u (List.mem_cons.2 (.inl e.symm))) hn ha).1
          (fun u hu => hx u (by simp [hu])) p hp

/-- Only new buffers make the list of buffers longer. -/
theorem act_few {l : CLbl} {c1 : Cr} (hl : ∀ u, l ≠ .rt (.push u)) (ha : c.act cfg prog l = .ok c1) :
    c1.rt.bufs.length ≤ c.rt.bufs.length := by
  have hnext : ∀ {c2 : Cr} {s : Rt} {j : Nat}, s.bufs = c.rt.bufs → c2.next cfg s j = .ok c1 →
      c1.rt.bufs.length ≤ c.rt.bufs.length := by
    intro c2 s j e1 hs
    unfold Cr.next at hs
    split at hs
    · cases hs
    · obtain ⟨s', f1, rfl⟩ := lift_ok hs
      show s'.bufs.length ≤ _
      rw [advance_bufs f1, e1]
  cases l with
  | rt l =>
    simp only [Cr.act, Cr.actRt] at ha
    cases hrp : l.replaced with
    | true => rw [hrp] at ha; cases ha
    | false =>
      rw [hrp] at ha
      simp only [Bool.false_eq_true, if_false] at ha
      obtain ⟨s', f1, rfl⟩ : ∃ s', c.rt.act cfg prog l = .ok s' ∧ c1 = { c with rt := s' } := by
        split at ha
        · exact lift_ok ha
        · split at ha
          · exact lift_ok ha
          · cases ha
      rcases act_bufs_push hrp f1 with e | ⟨t, rfl, -, -⟩
      · show s'.bufs.length ≤ _
        rw [e]
      · exact absurd rfl (hl t)
  | check =>
    simp only [Cr.act, Cr.actBg] at ha
    split at ha
    · cases ha
    split at ha
    · exact hnext rfl ha
    · split at ha
      · obtain ⟨s', f1, rfl⟩ := lift_ok ha
        show s'.bufs.length ≤ _
        have he : (c.rt.bufs.eraseIdx c.rt.i).length ≤ c.rt.bufs.length := by rw [List.length_eraseIdx]; split <;> omega
        simp only [Rt.remove] at f1
        split at f1
        · cases f1; exact he
        · rw [advance_bufs f1]; exact he
      · cases ha; exact Nat.le_refl _
  | encode j m =>
    simp only [Cr.act, Cr.actBg] at ha
    repeat' split at ha
    all_goals first
      | (cases ha; done)
      | (refine hnext ?_ ha; rfl)
      | (cases ha; exact Nat.le_refl _)
  | exit t | finish t | write t a | store t | storeC t =>
    simp only [Cr.act, Cr.actThr] at ha
    repeat' split at ha
    all_goals first
      | (cases ha; done)
      | (cases ha; exact Nat.le_refl _)
  | peek | follow | look i =>
    simp only [Cr.act, Cr.actBg] at ha
    repeat' split at ha
    all_goals first
      | (cases ha; done)
      | (cases ha; exact Nat.le_refl _)

/-- With at most one buffer no pass is cut short. -/
theorem few_run {ls : List CLbl} (hn : c.rt.bufs.length ≤ 1) (hx : ∀ u, .rt (.push u) ∉ ls) :
    ∀ p ∈ c.trace cfg prog ls, ¬ CutsPass cfg prog p := by
  induction ls generalizing c with
  | nil => intro p hp; cases hp
  | cons l ls ih =>
    intro p hp
    simp only [Cr.trace, List.mem_cons] at hp
    rcases hp with rfl | hp
    · rintro ⟨-, -, h, -⟩
      simp only at h
      omega
    · cases ha : c.act cfg prog l with
      | off => rw [ha] at hp; cases hp
      | ub => rw [ha] at hp; cases hp
      | ok c1 =>
        rw [ha] at hp
        exact ih (Nat.le_trans (act_few (fun u e => hx u (List.mem_cons.2 (.inl e.symm))) ha) hn)
          (fun u hu => hx u (by simp [hu])) p hp

end

end NanoLog
