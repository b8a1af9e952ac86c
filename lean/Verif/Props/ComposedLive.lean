import Verif.Props.Composed

/-! No step is missing in the model with byte-wise staging buffers: the background thread is between two buffers or in
exactly one of them, and every thread that is inside of a staging buffer can go on. -/

namespace NanoLog

variable {cfg : Config} {prog : List Site} {ls : List CLbl} {c c' : Cr}

theorem notify_frame {s s' : Rt} {w : Option Nat} (h : s.notify w = .ok s') :
    (∀ u, (s'.thr u).freed = (s.thr u).freed) ∧ s'.pc = s.pc ∧ s'.cur = s.cur := by
  unfold Rt.notify at h
  split at h
  · cases h; exact ⟨fun _ => rfl, rfl, rfl⟩
  · split at h <;> cases h
    refine ⟨fun u => ?_, rfl, rfl⟩
    simp only [Rt.setThr, upd]
    split
    · rename_i e; subst e; rfl
    · rfl

theorem setThr_freed {s : Rt} {t : Nat} {x : Thr} (hx : x.freed = (s.thr t).freed) (u : Nat) :
    ((s.setThr t x).thr u).freed = (s.thr u).freed := by
  simp only [Rt.setThr, upd]
  split
  · rename_i e; subst e; exact hx
  · rfl

/-- Other steps do not move the background thread out of a buffer. -/
theorem rt_frame {s s' : Rt} {l : Lbl} (hr : l.replaced = false) (ha : s.act cfg prog l = .ok s') :
    (∀ u, (s'.thr u).freed = (s.thr u).freed) ∧
      (s.pc = .encode ∨ s.pc = .check → s'.pc = s.pc ∧ s'.cur = s.cur) := by
  cases l <;> simp only [Lbl.replaced] at hr <;> try cases hr
  case scanned w =>
    simp only [Rt.act, Rt.actIo] at ha
    split at ha
    · cases ha
    rename_i hpc
    have hpc : s.pc = .scanned := by by_contra h; exact hpc h
    have hx : ¬ (s.pc = .encode ∨ s.pc = .check) := by rw [hpc]; simp
    repeat' split at ha
    all_goals first
      | (cases ha; exact ⟨fun _ => rfl, fun h => absurd h hx⟩)
      | exact ⟨(notify_frame ha).1, fun h => absurd h hx⟩
  case aioDone w =>
    simp only [Rt.act, Rt.actIo] at ha
    split at ha
    · cases ha
    rename_i hpc
    have hpc : s.pc = .aioDone := by by_contra h; exact hpc h
    have hx : ¬ (s.pc = .encode ∨ s.pc = .check) := by rw [hpc]; simp
    repeat' split at ha
    all_goals first
      | (cases ha; exact ⟨fun _ => rfl, fun h => absurd h hx⟩)
      | exact ⟨(notify_frame ha).1, fun h => absurd h hx⟩
  all_goals simp only [Rt.act, Rt.actLog, Rt.actBuf, Rt.actCtl, Rt.actScan, Rt.actIo] at ha
  all_goals repeat' (first | (cases ha; done) | split at ha)
  all_goals try cases ha
  all_goals refine ⟨fun u => ?_, fun h => ?_⟩
  all_goals first
    | rfl
    | exact ⟨rfl, rfl⟩
    | (simp only [Rt.setThr, upd]; split <;> simp_all; done)
    | (simp_all; done)

/-- The background thread is in no staging buffer except the one it works on, and the deleted ones. -/
def OneBuf (c : Cr) : Prop :=
  ∀ t, (c.sb t).cc = .idle ∨ ((c.sb t).cc = .freed ∧ (c.rt.thr t).freed = true) ∨ c.tgt = some t ∨
    ((c.rt.pc = .encode ∨ c.rt.pc = .check) ∧ c.rt.cur = t)

/-- Steps within one buffer. -/
theorem OneBuf.within (h : OneBuf c) (t : Nat) (hsb : ∀ u, u ≠ t → c'.sb u = c.sb u)
    (hf : ∀ u, (c.rt.thr u).freed = true → (c'.rt.thr u).freed = true)
    (hw : ∀ u, u ≠ t → c.tgt ≠ some u ∧ ¬ ((c.rt.pc = .encode ∨ c.rt.pc = .check) ∧ c.rt.cur = u))
    (ht : (c'.sb t).cc = .idle ∨ ((c'.sb t).cc = .freed ∧ (c'.rt.thr t).freed = true) ∨ c'.tgt = some t ∨
      ((c'.rt.pc = .encode ∨ c'.rt.pc = .check) ∧ c'.rt.cur = t)) : OneBuf c' := by
  intro u
  by_cases hu : u = t
  · subst hu; exact ht
  · rw [hsb u hu]
    rcases h u with h1 | ⟨h1, h2⟩ | h1 | h1
    · exact .inl h1
    · exact .inr (.inl ⟨h1, hf u h2⟩)
    · exact absurd h1 (hw u hu).1
    · exact absurd h1 (hw u hu).2

/-- Steps that leave the background thread where it is. -/
theorem OneBuf.same (h : OneBuf c) (hsb : ∀ u, (c'.sb u).cc = (c.sb u).cc) (htg : c'.tgt = c.tgt)
    (hf : ∀ u, (c'.rt.thr u).freed = (c.rt.thr u).freed)
    (hp : c.rt.pc = .encode ∨ c.rt.pc = .check → c'.rt.pc = c.rt.pc ∧ c'.rt.cur = c.rt.cur) : OneBuf c' := by
  intro u
  rw [hsb, htg, hf]
  rcases h u with h1 | h1 | h1 | ⟨h1, h2⟩
  · exact .inl h1
  · exact .inr (.inl h1)
  · exact .inr (.inr (.inl h1))
  · obtain ⟨e1, e2⟩ := hp h1
    exact .inr (.inr (.inr ⟨by rw [e1]; exact h1, e2.trans h2⟩))

theorem advance_frame {s s' : Rt} {j : Nat} (h : s.advance j = .ok s') : s'.thr = s.thr := by
  unfold Rt.advance at h
  split at h
  · cases h
  · cases h; rfl

theorem next_frame {rt : Rt} {j : Nat} (h : c.next cfg rt j = .ok c') :
    (∀ u, u ≠ c.rt.cur → c'.sb u = c.sb u) ∧ (c'.sb c.rt.cur).cc = .idle ∧ c'.tgt = c.tgt ∧ c'.rt.thr = rt.thr := by
  unfold Cr.next at h
  split at h
  · cases h
  rename_i s hs
  have hcc : s.cc = .idle := by
    simp only [SB.act] at hs
    split at hs <;> cases hs <;> rfl
  cases ha : rt.advance j with
  | off => rw [ha] at h; cases h
  | ub => rw [ha] at h; cases h
  | ok s' =>
    rw [ha] at h
    cases h
    refine ⟨fun u hu => upd_other _ _ hu, ?_, rfl, advance_frame ha⟩
    show (NanoLog.upd c.sb c.rt.cur s c.rt.cur).cc = _
    rw [upd_same]; exact hcc

theorem remove_frame {s s' : Rt} (h : s.remove = .ok s') (u : Nat) :
    (s'.thr u).freed = ((s.thr u).freed || decide (u = s.cur)) := by
  have key : s'.thr = upd s.thr s.cur { s.thr s.cur with freed := true } := by
    simp only [Rt.remove] at h
    split at h
    · cases h; rfl
    · exact advance_frame h
  rw [key]
  by_cases hu : u = s.cur
  · subst hu; rw [upd_same]; simp
  · rw [upd_other _ _ hu]; simp [hu]

/-- Steps of the thread itself, and of its store buffer, do not concern the background thread. -/
theorem producer_cc' {mm : MemModel} {N : Nat} {s s' : SB} {a : Act} (h : s.act mm N a = some s')
    (ha : (∃ k, a = .reserve k) ∨ a = .pstep ∨ (∃ i b, a = .put i b) ∨ (∃ m, a = .finish m) ∨ a = .exit ∨ a = .commit 0 ∨
      a = .commitC) : s'.cc = s.cc := by
  rcases ha with ⟨k, rfl⟩ | rfl | ⟨i, b, rfl⟩ | ⟨m, rfl⟩ | rfl | rfl | rfl
  all_goals simp only [SB.act] at h
  all_goals repeat' split at h
  all_goals try cases h
  all_goals try rfl
  rename_i w hw
  cases w <;> rfl

theorem OneBuf.setSb (h : OneBuf c) {t : Nat} {s : SB} (hs : s.cc = (c.sb t).cc) {rt : Rt} (hrt : ∃ x : Thr, rt = c.rt.setThr t x ∧ x.freed = (c.rt.thr t).freed) :
    OneBuf { c.setSb t s with rt := rt } := by
  obtain ⟨x, rfl, hx⟩ := hrt
  refine h.same (fun u => ?_) rfl (fun u => setThr_freed hx u) (fun _ => ⟨rfl, rfl⟩)
  show (NanoLog.upd c.sb t s u).cc = _
  by_cases hu : u = t
  · subst hu; rw [upd_same]; exact hs
  · rw [upd_other _ _ hu]

theorem setThr_same (s : Rt) (t : Nat) : s.setThr t (s.thr t) = s := by
  unfold Rt.setThr
  rw [upd_self]

theorem OneBuf.act {als : List Lbl} {G : Ov} {kls : Nat → List (Nat × LogCall)} {r : Nat → List (Nat × List Arg)}
    {τ : Nat → List Nat} {held : Nat → Nat} (hR : CRel s0 cfg prog ls c als G kls r τ held) (h : OneBuf c) {l : CLbl}
    (ha : c.act cfg prog l = .ok c') : OneBuf c' := by
  have hin : c.rt.pc = .encode ∨ c.rt.pc = .check → c.tgt = none := fun e => (hR.atBuf e).1
  have hcur : c.rt.pc = .encode ∨ c.rt.pc = .check → ∀ u, u ≠ c.rt.cur →
      c.tgt ≠ some u ∧ ¬ ((c.rt.pc = .encode ∨ c.rt.pc = .check) ∧ c.rt.cur = u) := by
    intro e u hu
    refine ⟨by rw [hin e]; simp, fun e2 => hu e2.2.symm⟩
  cases l with
  | rt l =>
    simp only [Cr.act, Cr.actRt] at ha
    split at ha
    · cases ha
    rename_i hr
    have key : c.lift (c.rt.act cfg prog l) = .ok c' → OneBuf c' := by
      intro ha
      cases hx : c.rt.act cfg prog l with
      | off => rw [hx] at ha; cases ha
      | ub => rw [hx] at ha; cases ha
      | ok s' =>
        rw [hx] at ha
        cases ha
        obtain ⟨h1, h2⟩ := rt_frame (by simpa using hr) hx
        exact h.same (fun _ => rfl) rfl h1 h2
    split at ha
    · exact key ha
    · split at ha
      · exact key ha
      · cases ha
  | write t a =>
    simp only [Cr.act, Cr.actThr] at ha
    split at ha
    · split at ha
      · cases ha
      split at ha
      · rename_i hok
        split at ha
        · cases ha
        · rename_i s hs
          cases ha
          refine h.setSb (rt := c.rt) (producer_cc' hs ?_) ⟨_, (setThr_same _ t).symm, rfl⟩
          cases a <;> simp only [okWrite, Bool.false_eq_true] at hok <;> simp
      · cases ha
    · cases ha
  | finish t =>
    simp only [Cr.act, Cr.actThr] at ha
    split at ha
    · split at ha
      · cases ha
      split at ha
      · cases ha
      · rename_i s hs
        cases ha
        exact h.setSb (producer_cc' hs (by simp)) ⟨_, rfl, rfl⟩
    · cases ha
  | exit t =>
    simp only [Cr.act, Cr.actThr] at ha
    split at ha
    · split at ha
      · cases ha
        exact h.same (fun _ => rfl) rfl (fun u => setThr_freed (s := c.rt) (t := t) (x := { c.rt.thr t with pc := .exited }) rfl u)
          (fun _ => ⟨rfl, rfl⟩)
      split at ha
      · cases ha
      split at ha
      · cases ha
      · rename_i s hs
        cases ha
        exact h.setSb (producer_cc' hs (by simp)) ⟨_, rfl, rfl⟩
    · cases ha
  | store t =>
    simp only [Cr.act, Cr.actThr] at ha
    split at ha
    · cases ha
    · rename_i s hs
      split at ha
      · cases ha
      · cases ha
        exact h.setSb (rt := c.rt) (producer_cc' hs (by simp)) ⟨_, (setThr_same _ t).symm, rfl⟩
  | storeC t =>
    simp only [Cr.act, Cr.actThr] at ha
    split at ha
    · cases ha
    · rename_i s hs
      cases ha
      exact h.setSb (rt := c.rt) (producer_cc' hs (by simp)) ⟨_, (setThr_same _ t).symm, rfl⟩
  | peek =>
    simp only [Cr.act, Cr.actBg] at ha
    split at ha
    · cases ha
    rename_i hpc
    have hpc : c.rt.pc = .scan ∧ c.tgt = none := by
      constructor
      · by_contra e; exact hpc (.inl e)
      · by_contra e; exact hpc (.inr e)
    have hno : ∀ u, c.tgt ≠ some u ∧ ¬ ((c.rt.pc = .encode ∨ c.rt.pc = .check) ∧ c.rt.cur = u) := by
      intro u
      rw [hpc.1, hpc.2]; simp
    split at ha
    · cases ha
      intro u
      rcases h u with h1 | h1 | h1 | h1
      · exact .inl h1
      · exact .inr (.inl h1)
      · exact absurd h1 (hno u).1
      · exact absurd h1 (hno u).2
    split at ha
    · cases ha
    · split at ha
      · cases ha
      split at ha
      · cases ha
      · rename_i t _ _ _ s hs
        cases ha
        exact h.within t (fun u hu => upd_other _ _ hu) (fun _ h => h) (fun u _ => hno u) (.inr (.inr (.inl rfl)))
  | follow =>
    simp only [Cr.act, Cr.actBg] at ha
    split at ha
    · cases ha
    rename_i t htg
    have hpc := (hR.cc.tgt t htg).1
    have hno : ∀ u, u ≠ t → c.tgt ≠ some u ∧ ¬ ((c.rt.pc = .encode ∨ c.rt.pc = .check) ∧ c.rt.cur = u) := by
      intro u hu
      rw [hpc, htg]
      refine ⟨fun e => hu (Option.some.inj e).symm, by simp⟩
    split at ha
    · cases ha
    rename_i s hs
    split at ha
    · cases ha
      refine h.within t (fun u hu => upd_other _ _ hu) (fun _ h => h) hno (.inr (.inr (.inr ⟨?_, rfl⟩)))
      show (if _ = 0 then BPc.check else BPc.encode) = _ ∨ (if _ = 0 then BPc.check else BPc.encode) = _
      split <;> simp
    · cases ha
      exact h.within t (fun u hu => upd_other _ _ hu) (fun _ h => h) hno (.inr (.inr (.inl htg)))
  | look i =>
    simp only [Cr.act, Cr.actBg] at ha
    split at ha
    · cases ha
    rename_i hpc
    have hpc : c.rt.pc = .encode := by by_contra e; exact hpc e
    split at ha
    · cases ha
    cases ha
    exact h.within c.rt.cur (fun u hu => upd_other _ _ hu) (fun _ h => h) (hcur (.inl hpc)) (.inr (.inr (.inr ⟨.inl hpc, rfl⟩)))
  | encode junk more =>
    simp only [Cr.act, Cr.actBg] at ha
    split at ha
    · cases ha
    rename_i hpc
    have hpc : c.rt.pc = .encode := by by_contra e; exact hpc e
    split at ha
    · cases ha
    split at ha
    · cases ha
    · split at ha
      · cases ha
      split at ha
      · rename_i e n he
        split at ha
        · obtain ⟨h1, h2, h3, h4⟩ := next_frame ha
          exact h.within c.rt.cur h1 (fun u hu => by rw [h4]; exact hu) (hcur (.inl hpc)) (.inl h2)
        · split at ha
          · cases ha
          · rename_i s hs
            split at ha
            · obtain ⟨h1, h2, h3, h4⟩ := next_frame ha
              refine h.within c.rt.cur (fun u hu => (h1 u hu).trans (upd_other _ _ hu)) (fun u hu => by rw [h4]; exact hu)
                (hcur (.inl hpc)) (.inl h2)
            · cases ha
              exact h.within c.rt.cur (fun u hu => upd_other _ _ hu) (fun _ h => h) (hcur (.inl hpc))
                (.inr (.inr (.inr ⟨.inl hpc, rfl⟩)))
      · cases ha
    · cases ha
  | check =>
    simp only [Cr.act, Cr.actBg] at ha
    split at ha
    · cases ha
    rename_i hpc
    have hpc : c.rt.pc = .check := by by_contra e; exact hpc e
    split at ha
    · obtain ⟨h1, h2, h3, h4⟩ := next_frame ha
      exact h.within c.rt.cur h1 (fun u hu => by rw [h4]; exact hu) (hcur (.inr hpc)) (.inl h2)
    · rename_i s hs
      split at ha
      · rename_i hcc
        cases hx : c.rt.remove with
        | off => rw [hx] at ha; cases ha
        | ub => rw [hx] at ha; cases ha
        | ok s' =>
          rw [hx] at ha
          cases ha
          have hf := remove_frame hx
          refine h.within c.rt.cur (fun u hu => upd_other _ _ hu) (fun u hu => ?_) (hcur (.inr hpc)) (.inr (.inl ⟨?_, ?_⟩))
          · show (s'.thr u).freed = true
            rw [hf, hu]; rfl
          · show (NanoLog.upd c.sb c.rt.cur s c.rt.cur).cc = _
            rw [upd_same]; exact hcc
          · show (s'.thr c.rt.cur).freed = true
            rw [hf]; simp
      · cases ha
        exact h.within c.rt.cur (fun u hu => upd_other _ _ hu) (fun _ h => h) (hcur (.inr hpc))
          (.inr (.inr (.inr ⟨.inr hpc, rfl⟩)))

theorem OneBuf.run (hP : ProgOK cfg prog) {als : List Lbl} {cls : List CLbl} (ho : ∀ l ∈ ls, l.OK cfg prog)
    (hR : CSim s0 cfg prog cls c als) (h : OneBuf c) (hr : c.run cfg prog ls = .ok c') : OneBuf c' := by
  induction ls generalizing cls als c with
  | nil => cases hr; exact h
  | cons l ls ih =>
    obtain ⟨G, kls, r, τ, held, hR⟩ := hR
    have hg := Good.act hP hR (ho l (by simp))
    simp only [Cr.run] at hr
    cases ha : c.act cfg prog l with
    | off => rw [ha] at hr; cases hr
    | ub => rw [ha] at hr; cases hr
    | ok c1 =>
      rw [ha] at hr hg
      obtain ⟨b1, h1, -⟩ := hg
      exact ih (fun x hx => ho x (by simp [hx])) h1 (h.act hR ha) hr

theorem CrExec.oneBuf (hP : ProgOK cfg prog) (h0 : 0 < cfg.staging) (h : CrExec cfg prog ls c) : OneBuf c := by
  obtain ⟨jk, k, c0, h1, h2, h3, h4, h5⟩ := h
  refine OneBuf.run hP h4 (CSim.init hP h0 h1 h2 h3) (fun t => .inl ?_) h5
  simp only [Cr.init, Option.map_eq_some_iff] at h3
  obtain ⟨s, hs, rfl⟩ := h3
  rfl

/-- Bytes that have not been loaded yet. -/
theorem imageBytes_none {f : Nat → Option Byte} {n : Nat} (h : imageBytes f n = none) : ∃ i < n, f i = none := by
  induction n with
  | zero => cases h
  | succ n ih =>
    unfold imageBytes at h ih
    rw [List.range_succ, List.mapM_append] at h
    cases h1 : (List.range n).mapM f with
    | none => obtain ⟨i, hi, e⟩ := ih h1; exact ⟨i, by omega, e⟩
    | some b1 =>
      rw [h1] at h
      cases h2 : f n with
      | none => exact ⟨n, by omega, h2⟩
      | some b => simp [h2] at h

/-- The steps of the background thread in staging buffers. -/
def CLbl.inBuf : CLbl → Bool
  | .peek | .follow | .look _ | .encode .. | .check => true
  | _ => false

/-- Nothing blocks in a staging buffer (the store buffers can always be emptied, so neither do mutexes):
* while the background thread scans the buffers it can always do a step;
* a thread that writes its message can always do a step (possibly another turn of the loop that waits for space);
* a pending store can reach memory;
* a thread outside of log calls can end. -/
theorem C66_never_stuck (hP : ProgOK cfg prog) (h0 : 0 < cfg.staging) (h : CrExec cfg prog ls c) :
    (c.rt.pc = .scan ∨ c.rt.pc = .encode ∨ c.rt.pc = .check → ∃ l c', l.inBuf = true ∧ c.act cfg prog l = .ok c') ∧
    ∀ t, (∀ m, (c.rt.thr t).pc = .write m → (∃ c', c.act cfg prog (.finish t) = .ok c') ∨
        ∃ a c', c.act cfg prog (.write t a) = .ok c') ∧
      ((c.sb t).buf ≠ [] → ∃ c', c.act cfg prog (.store t) = .ok c') ∧
      ((c.sb t).cbuf ≠ [] → ∃ c', c.act cfg prog (.storeC t) = .ok c') ∧
      ((c.rt.thr t).pc = .idle → ∃ c', c.act cfg prog (.exit t) = .ok c') := by
  have hO := h.oneBuf hP h0
  obtain ⟨s0, als, ⟨G, kls, r, τ, held, hR⟩, -⟩ := h.sim hP h0
  obtain ⟨hRI, hF⟩ := hR.exec.inv hP
  -- a step that is not undefined and not impossible
  have key : ∀ l : CLbl, l.OK cfg prog → c.act cfg prog l ≠ .off → ∃ c', c.act cfg prog l = .ok c' := by
    intro l hl hne
    have := Good.act hP hR hl
    cases ha : c.act cfg prog l with
    | ok c' => exact ⟨c', rfl⟩
    | off => exact absurd ha hne
    | ub => rw [ha] at this; exact this.elim
  refine ⟨fun hpc => ?_, fun t => ⟨fun m hm => ?_, fun hb => ?_, fun hb => ?_, fun hi => ?_⟩⟩
  · rcases hpc with hpc | hpc | hpc
    · cases htg : c.tgt with
      | none =>
        obtain ⟨c', hc'⟩ := key .peek trivial (by
          simp only [Cr.act, Cr.actBg]
          rw [if_neg (by rw [hpc, htg]; simp)]
          split
          · simp
          split
          · simp
          rename_i t ht
          split
          · simp
          rename_i hfr
          split
          · rename_i hs
            rcases hO t with h1 | ⟨h1, h2⟩ | h1 | ⟨h1, -⟩
            · simp [SB.act, h1] at hs
            · exact absurd h2 hfr
            · rw [htg] at h1; cases h1
            · rw [hpc] at h1; simp at h1
          · simp)
        exact ⟨_, c', rfl, hc'⟩
      | some t =>
        obtain ⟨-, -, -, p, v, hcc, -⟩ := hR.cc.tgt t htg
        obtain ⟨c', hc'⟩ := key .follow trivial (by
          simp only [Cr.act, Cr.actBg, htg]
          split
          · rename_i hs
            simp only [SB.act] at hs
            rcases hcc with hcc | hcc <;> rw [hcc] at hs <;> dsimp only at hs
            · (repeat' split at hs) <;> cases hs
            · cases hs
          · split <;> simp)
        exact ⟨_, c', rfl, hc'⟩
    · obtain ⟨⟨av, view, hcc⟩, -⟩ := hR.cc.enc hpc
      cases hb : imageBytes view av with
      | none =>
        obtain ⟨i, hi, -⟩ := imageBytes_none hb
        obtain ⟨c', hc'⟩ := key (.look i) trivial (by
          simp only [Cr.act, Cr.actBg]
          rw [if_neg (by rw [hpc]; simp)]
          simp [SB.act, hcc, hi])
        exact ⟨_, c', rfl, hc'⟩
      | some bs =>
        obtain ⟨c', hc'⟩ := key (.encode (fun _ => 0) []) trivial (by
          have hadv : ∀ (s : Rt) (j : Nat), s.advance j ≠ .off := by
            intro s j; unfold Rt.advance; split <;> simp
          have hnext : ∀ (c : Cr) (rt : Rt) (j av : Nat) (view : Nat → Option Byte),
              (c.sb c.rt.cur).cc = .holding av view → c.next cfg rt j ≠ .off := by
            intro c rt j av view hcc
            unfold Cr.next
            simp only [SB.act, hcc]
            have := hadv rt j
            cases hx : rt.advance j with
            | ok s => simp [Cr.lift]
            | off => exact absurd hx this
            | ub => simp [Cr.lift]
          simp only [Cr.act, Cr.actBg]
          rw [if_neg (by rw [hpc]; simp)]
          split
          · simp
          split
          · simp
          · rename_i b avail view' _ hcc'
            rw [hcc] at hcc'
            cases hcc'
            rw [hb]
            dsimp only
            split
            · rename_i e n hen
              split
              · exact hnext _ _ _ _ _ hcc
              · split
                · simp
                · rename_i s hs
                  split
                  · refine hnext _ _ _ (av - n.toNat) (fun j => view (j + n.toNat)) ?_
                    show (NanoLog.upd c.sb c.rt.cur s c.rt.cur).cc = _
                    rw [upd_same]
                    simp only [SB.act, hcc] at hs
                    split at hs
                    · split at hs
                      · cases hs
                      · cases hs; rfl
                    · cases hs
                  · simp
            · simp
          · rename_i hn hx
            cases hb2 : (c.rt.thr c.rt.cur).bid with
            | none => exact (hn hb2).elim
            | some b => exact (hx _ _ _ hb2 hcc).elim)
        exact ⟨_, c', rfl, hc'⟩
    · obtain ⟨c', hc'⟩ := key .check trivial (by
        have hadv : ∀ (s : Rt) (j : Nat), s.advance j ≠ .off := by
          intro s j; unfold Rt.advance; split <;> simp
        have hlift : ∀ (c : Cr) (o : Out), o ≠ .off → c.lift o ≠ .off := by
          intro c o ho; cases o <;> simp_all [Cr.lift]
        have hrem : c.rt.remove ≠ .off := by
          simp only [Rt.remove]
          split
          · simp
          · exact hadv _ _
        simp only [Cr.act, Cr.actBg]
        rw [if_neg (by rw [hpc]; simp)]
        split
        · unfold Cr.next
          rcases hR.cc.check hpc with ⟨view, hcc⟩ | hcc
          · simp only [SB.act, hcc]
            exact hlift _ _ (hadv _ _)
          · simp only [SB.act, hcc]
            exact hlift _ _ (hadv _ _)
        · split
          · exact hlift _ _ hrem
          · simp)
      exact ⟨_, c', rfl, hc'⟩
  · have ht := hR.thr t
    have hfr := hR.alive hP (t := t) (.inl (by rw [hm]; simp))
    have hpr := ht.prel
    unfold PRel at hpr
    rw [hm] at hpr
    simp only at hpr
    have hpcr := ht.pcr
    simp only [PcRec, hm] at hpcr
    obtain ⟨k, -, -, hk⟩ := hpcr
    have hcall : CallOK cfg c.rt.sites m :=
      hk.callOK hP (show c.rt.sites.length < _ from Nat.lt_of_le_of_lt hF.ids.count.1 hP.count)
    obtain ⟨hsz, -, -⟩ := img_size hcall
    have e1 : c.rt.msgSize m = (img c.rt.sites m).length := by rw [Rt.msgSize_eq, hsz]
    have e2 : c.rt.msgBytes [m] = img c.rt.sites m := by rw [Rt.msgBytes_eq]; rfl
    have hwr : ∀ a, okWrite (img c.rt.sites m).length (img c.rt.sites m) a = true →
        (c.sb t).act .tso cfg.staging a ≠ none → ∃ a c', c.act cfg prog (.write t a) = .ok c' := by
      intro a hok ha
      obtain ⟨c', hc'⟩ := key (.write t a) trivial (by
        simp only [Cr.act, Cr.actThr, hm, hfr, e1, e2]
        rw [if_neg (by simp), if_pos hok]
        split
        · rename_i e; exact absurd e ha
        · simp)
      exact ⟨a, c', hc'⟩
    cases hp : (c.sb t).pc with
    | idle =>
      refine .inr (hwr (.reserve (img c.rt.sites m).length) (by simp [okWrite]) ?_)
      simp only [SB.act, hp]
      split <;> simp
    | loop n =>
      refine .inr (hwr .pstep rfl ?_)
      simp only [SB.act, hp]
      split <;> simp
    | loaded n x =>
      refine .inr (hwr .pstep rfl ?_)
      simp only [SB.act, hp]
      (repeat' split) <;> simp
    | wrapping n x =>
      refine .inr (hwr .pstep rfl ?_)
      simp only [SB.act, hp]
      (repeat' split) <;> simp
    | exited => rw [hp] at hpr; exact hpr.elim
    | reserved n f =>
      rw [hp] at hpr
      obtain ⟨hn, -⟩ := hpr
      cases hb : imageBytes f n with
      | none =>
        obtain ⟨i, hi, -⟩ := imageBytes_none hb
        refine .inr (hwr (.put i ((img c.rt.sites m)[i]'(by omega))) ?_ ?_)
        · simp only [okWrite]
          simp
        · simp [SB.act, hp, hi]
      | some bs =>
        left
        refine key (.finish t) trivial ?_
        simp only [Cr.act, Cr.actThr, hm, hfr, e1]
        rw [if_neg (by simp)]
        rw [← hn]
        simp [SB.act, hp, hb]
  · obtain ⟨c', hc'⟩ := key (.store t) trivial (by
      simp only [Cr.act, Cr.actThr]
      cases hbuf : (c.sb t).buf with
      | nil => exact absurd hbuf hb
      | cons w ws =>
        simp only [SB.act, canCommit, hbuf, List.getElem?_cons_zero]
        simp
        split <;> simp)
    exact ⟨c', hc'⟩
  · obtain ⟨c', hc'⟩ := key (.storeC t) trivial (by
      simp only [Cr.act, Cr.actThr]
      cases hbuf : (c.sb t).cbuf with
      | nil => exact absurd hbuf hb
      | cons w ws => simp [SB.act, hbuf])
    exact ⟨c', hc'⟩
  · obtain ⟨c', hc'⟩ := key (.exit t) trivial (by
      have hpr := (hR.thr t).prel
      unfold PRel at hpr
      rw [hi] at hpr
      simp only at hpr
      simp only [Cr.act, Cr.actThr, hi]
      split
      · simp
      split
      · simp
      simp [SB.act, hpr])
    exact ⟨c', hc'⟩

/-- The first message is visible and about to be encoded; thread 1 writes the second. -/
def exCrM : List CLbl :=
  exCr1 ++ exCrDrain 1 22 ++ exCr2.take 8 ++ exRt [.top, .dict false] ++ [.peek, .follow]

/-- Case for `C66_never_stuck`: the second message is written while the background thread encodes the first. -/
example : ∃ c, CrExec exCfg exSites exCrM c ∧ (∃ m, (c.rt.thr 1).pc = .write m) ∧ c.rt.pc = .encode ∧ (c.sb 1).buf ≠ [] := by
  obtain ⟨c, h, hp⟩ := exCrExec (ls := exCrM)
    (p := fun c => (match (c.rt.thr 1).pc with | .write _ => true | _ => false) && c.rt.pc = .encode && (c.sb 1).buf ≠ [])
    (by decide +kernel) (by decide +kernel)
  simp only [Bool.and_eq_true, decide_eq_true_eq] at hp
  refine ⟨c, h, ?_, hp.1.2, hp.2⟩
  have := hp.1.1
  split at this
  · rename_i m hm; exact ⟨m, hm⟩
  · cases this

end NanoLog
