import Verif.Props.EndToEnd

/-! Helper lemmas: the log files only grow, and with them what is found in them. -/

namespace NanoLog

/-! ## The files of the runtime -/

/-- Invariant: a thread that is about to get a buffer has none. -/
def Rt.Fresh (s : Rt) : Prop := ∀ t x, (s.thr t).pc = .take x → (s.thr t).bid = none

/-- From `s` to `s'`: buffers keep their ids, files keep their contents, and only the last one gets more. -/
structure Accrues (s s' : Rt) : Prop where
  fresh : s.Fresh → s'.Fresh
  bid : s.Fresh → ∀ t b, (s.thr t).bid = some b → (s'.thr t).bid = some b
  files : ∃ f fs, s'.files = s.closed.map (·.1) ++ f :: fs ∧ s.disk <+: f

theorem Accrues.refl (s : Rt) : Accrues s s :=
  ⟨id, fun _ _ _ h => h, s.disk, [], rfl, List.prefix_refl _⟩

theorem Accrues.trans {a b c : Rt} (h1 : Accrues a b) (h2 : Accrues b c) : Accrues a c := by
  refine ⟨fun h => h2.fresh (h1.fresh h), fun h t x hx => h2.bid (h1.fresh h) t x (h1.bid h t x hx), ?_⟩
  obtain ⟨f, fs, e1, e2⟩ := h1.files
  obtain ⟨g, gs, e3, e4⟩ := h2.files
  rcases List.eq_nil_or_concat fs with rfl | ⟨fs', z, rfl⟩
  · have : b.closed.map (·.1) = a.closed.map (·.1) ∧ b.disk = f := by
      rw [Rt.files] at e1
      have := List.append_inj' e1 rfl
      simpa using this
    rw [this.1] at e3
    rw [this.2] at e4
    exact ⟨g, gs, e3, e2.trans e4⟩
  · have : b.closed.map (·.1) = a.closed.map (·.1) ++ f :: fs' ∧ b.disk = z := by
      rw [Rt.files, List.concat_eq_append, show a.closed.map (·.1) ++ f :: (fs' ++ [z]) = (a.closed.map (·.1) ++ f :: fs') ++ [z] by simp] at e1
      have := List.append_inj' e1 rfl
      simpa using this
    rw [this.1] at e3
    exact ⟨f, fs' ++ g :: gs, by rw [e3]; simp, e2⟩

/-- Steps that leave the files alone. -/
theorem Accrues.same {s s' : Rt} (hc : s'.closed = s.closed) (hd : s'.disk = s.disk)
    (ht : ∀ t, (s'.thr t).bid = (s.thr t).bid ∧ ((s'.thr t).pc = (s.thr t).pc ∨ ∀ x, (s'.thr t).pc = .take x → (s.thr t).bid = none)) :
    Accrues s s' := by
  refine ⟨fun h t x hx => ?_, fun _ t b hb => by rw [(ht t).1]; exact hb,
    s.disk, [], by rw [Rt.files, hc, hd], List.prefix_refl _⟩
  rw [(ht t).1]
  rcases (ht t).2 with e | e
  · exact h t x (by rw [← e]; exact hx)
  · exact e x hx

/-- The step of one thread. -/
theorem Accrues.one {s s' : Rt} {t : Nat} {x : Thr} (ht : s'.thr = upd s.thr t x) (hc : s'.closed = s.closed) (hd : s'.disk = s.disk)
    (hb : x.bid = (s.thr t).bid) (hp : x.pc = (s.thr t).pc ∨ ∀ c, x.pc = .take c → (s.thr t).bid = none) : Accrues s s' := by
  refine .same hc hd fun u => ?_
  rw [ht]
  by_cases hu : u = t
  · subst hu; rw [upd_same]; exact ⟨hb, hp⟩
  · rw [upd_other _ _ hu]; exact ⟨rfl, .inl rfl⟩

theorem Accrues.bg {s s' : Rt} (h : BgStep s s') (hd : s'.disk = s.disk) : Accrues s s' := by
  refine .same h.closed hd fun u => ⟨h.bid u, ?_⟩
  rcases h.pc u with e | ⟨sw, -, e⟩
  · exact .inl e
  · exact .inr fun x hx => by rw [e] at hx; cases hx

theorem act_accrues {cfg : Config} {prog : List Site} {s s' : Rt} {l : Lbl} (ha : s.act cfg prog l = .ok s') : Accrues s s' := by
  cases l <;> simp only [Rt.act] at ha
  case takeId t =>
    simp only [Rt.actBuf] at ha
    split at ha <;> try cases ha
    rename_i c hpc
    split at ha <;> cases ha
    refine ⟨fun h u x hu => ?_, fun h u b hb => ?_, s.disk, [], rfl, List.prefix_refl _⟩
    · simp only [Rt.setThr] at hu ⊢
      by_cases he : u = t
      · subst he; rw [upd_same] at hu; cases hu
      · rw [upd_other _ _ he] at hu ⊢; exact h u x hu
    · simp only [Rt.setThr]
      by_cases he : u = t
      · subst he; rw [h u c hpc] at hb; cases hb
      · rw [upd_other _ _ he]; exact hb
  case join t jk c =>
    simp only [Rt.actCtl] at ha
    repeat' split at ha
    all_goals cases ha
    refine ⟨fun h u x hu => ?_, fun h u b hb => ?_, s.disk, [[]], by simp [Rt.files], List.prefix_refl _⟩
    · simp only [Rt.setThr] at hu ⊢
      by_cases he : u = t
      · subst he; rw [upd_same] at hu; cases hu
      · rw [upd_other _ _ he] at hu ⊢; exact h u x hu
    · simp only [Rt.setThr]
      by_cases he : u = t
      · subst he; rw [upd_same]; exact hb
      · rw [upd_other _ _ he]; exact hb
  case disk n =>
    simp only [Rt.actIo] at ha
    repeat' split at ha
    all_goals cases ha
    exact ⟨id, fun _ _ _ h => h, _, [], rfl, List.prefix_append _ _⟩
  case scanned w =>
    refine .bg (actIo_bg ha) ?_
    simp only [Rt.actIo] at ha
    repeat' split at ha
    all_goals first
      | (cases ha; done)
      | (cases ha; rfl)
      | exact (notify_fields ha).1
  case aioDone w =>
    refine .bg (actIo_bg ha) ?_
    simp only [Rt.actIo] at ha
    repeat' split at ha
    all_goals first
      | (cases ha; done)
      | (cases ha; rfl)
      | exact (notify_fields ha).1
  case aio =>
    refine .bg (actIo_bg ha) ?_
    simp only [Rt.actIo] at ha
    repeat' split at ha
    all_goals first
      | (cases ha; done)
      | (cases ha; rfl)
  case write =>
    refine .bg (actIo_bg ha) ?_
    simp only [Rt.actIo] at ha
    repeat' split at ha
    all_goals first
      | (cases ha; done)
      | (cases ha; rfl)
  case reserve t =>
    simp only [Rt.actLog] at ha
    split at ha <;> cases ha
    refine .one rfl rfl rfl rfl (.inr fun c hc => ?_)
    simp only at hc
    split at hc
    · assumption
    · cases hc
  case preallocate t =>
    simp only [Rt.actBuf] at ha
    repeat' split at ha
    all_goals cases ha
    · rename_i h; exact .one rfl rfl rfl rfl (.inr fun _ _ => h)
    · exact .refl s
  case push t =>
    simp only [Rt.actBuf] at ha
    repeat' split at ha
    all_goals cases ha
    rename_i c _ _
    refine .one (t := t) rfl rfl rfl rfl (.inr fun x hx => ?_)
    cases c <;> cases hx
  all_goals first
    | (refine .bg (actScan_bg ha) ?_
       simp only [Rt.actScan] at ha
       repeat' split at ha
       all_goals first
        | (cases ha; done)
        | (cases ha; rfl)
        | exact (advance_fields ha).1)
    | (simp only [Rt.actLog, Rt.actBuf, Rt.actCtl] at ha
       repeat' split at ha
       all_goals first
        | (cases ha; done)
        | (cases ha; exact .refl _)
        | (cases ha; exact .same rfl rfl fun _ => ⟨rfl, .inl rfl⟩)
        | (cases ha; exact .one rfl rfl rfl rfl (.inr fun _ h => by cases h)))

theorem lift_accrues {c c' : Cr} {o : Out} {s : Rt} (h : c.lift o = .ok c') (hg : ∀ r, o = .ok r → Accrues s r) : Accrues s c'.rt := by
  cases o with
  | ok r => cases h; exact hg r rfl
  | off => cases h
  | ub => cases h

theorem Accrues.advance {s r r' : Rt} {j : Nat} (h : Accrues s r) (ha : r.advance j = .ok r') : Accrues s r' := by
  obtain ⟨h1, -, -, -, -, -, -, -, h2, -, -, -, -, -, h3⟩ := advance_thr ha
  exact h.trans (.same h3 h2 fun t => by rw [h1]; exact ⟨rfl, .inl rfl⟩)

theorem next_accrues {cfg : Config} {c c' : Cr} {s r : Rt} {j : Nat} (hg : Accrues s r) (h : c.next cfg r j = .ok c') : Accrues s c'.rt := by
  simp only [Cr.next] at h
  split at h
  · cases h
  · exact lift_accrues h fun r' hr => hg.advance hr

theorem cr_accrues {cfg : Config} {prog : List Site} {c c' : Cr} {l : CLbl} (ha : c.act cfg prog l = .ok c') :
    Accrues c.rt c'.rt := by
  have hsame : ∀ {r : Rt}, r.closed = c.rt.closed → r.disk = c.rt.disk → r.thr = c.rt.thr → Accrues c.rt r :=
    fun h1 h2 h3 => .same h1 h2 fun t => by rw [h3]; exact ⟨rfl, .inl rfl⟩
  cases l with
  | rt l =>
    simp only [Cr.act, Cr.actRt] at ha
    repeat' split at ha
    all_goals first
      | (cases ha; done)
      | exact lift_accrues ha fun r hr => act_accrues hr
  | write t a =>
    simp only [Cr.act, Cr.actThr] at ha
    repeat' split at ha
    all_goals cases ha
    exact .refl _
  | finish t =>
    simp only [Cr.act, Cr.actThr] at ha
    repeat' split at ha
    all_goals cases ha
    exact .one rfl rfl rfl rfl (.inr fun _ h => by cases h)
  | exit t =>
    simp only [Cr.act, Cr.actThr] at ha
    repeat' split at ha
    all_goals cases ha
    all_goals exact .one rfl rfl rfl rfl (.inr fun _ h => by cases h)
  | store t =>
    simp only [Cr.act, Cr.actThr] at ha
    repeat' split at ha
    all_goals cases ha
    exact .refl _
  | storeC t =>
    simp only [Cr.act, Cr.actThr] at ha
    repeat' split at ha
    all_goals cases ha
    exact .refl _
  | peek =>
    simp only [Cr.act, Cr.actBg] at ha
    repeat' split at ha
    all_goals cases ha
    · exact hsame rfl rfl rfl
    · exact .refl _
  | follow =>
    simp only [Cr.act, Cr.actBg] at ha
    repeat' split at ha
    all_goals cases ha
    · exact hsame rfl rfl rfl
    · exact .refl _
  | look i =>
    simp only [Cr.act, Cr.actBg] at ha
    repeat' split at ha
    all_goals cases ha
    exact .refl _
  | encode junk more =>
    simp only [Cr.act, Cr.actBg] at ha
    repeat' split at ha
    all_goals first
      | (cases ha; done)
      | (cases ha; exact hsame rfl rfl rfl)
      | (refine next_accrues ?_ ha; exact hsame rfl rfl rfl)
  | check =>
    simp only [Cr.act, Cr.actBg] at ha
    repeat' split at ha
    all_goals first
      | (cases ha; done)
      | (cases ha; exact .refl _)
      | exact next_accrues (.refl _) ha
      | skip
    refine lift_accrues ha fun r hr => ?_
    simp only [Rt.remove] at hr
    have h1 : Accrues c.rt (c.rt.setThr c.rt.cur { c.rt.thr c.rt.cur with freed := true }) :=
      .one rfl rfl rfl rfl (.inl rfl)
    split at hr
    · cases hr
      exact h1.trans (.same rfl rfl fun _ => ⟨rfl, .inl rfl⟩)
    · refine Accrues.advance (h1.trans ?_) hr
      exact .same rfl rfl fun _ => ⟨rfl, .inl rfl⟩

theorem run_accrues {cfg : Config} {prog : List Site} {c c' : Cr} {ls : List CLbl} (hr : c.run cfg prog ls = .ok c') :
    Accrues c.rt c'.rt := by
  induction ls generalizing c with
  | nil => cases hr; exact .refl _
  | cons l ls ih =>
    simp only [Cr.run] at hr
    split at hr <;> try cases hr
    rename_i c1 ha
    exact (cr_accrues ha).trans (ih hr)

theorem CrExec.fresh {cfg : Config} {prog : List Site} {ls : List CLbl} {c : Cr} (h : CrExec cfg prog ls c) : c.rt.Fresh := by
  obtain ⟨jk, k, c0, -, -, h3, -, h5⟩ := h
  refine (run_accrues h5).fresh fun t x hx => ?_
  simp only [Cr.init, Option.map_eq_some_iff] at h3
  obtain ⟨r, hr, rfl⟩ := h3
  unfold Rt.init at hr
  split at hr <;> cases hr
  cases hx

/-! ## What is found in a file that grows -/

/-- What is found in a file cut anywhere are the messages of records in front of the cut. -/
theorem decodeFile_cut {cap : Nat} {c : Checkpoint} {jk : Nat} {rs : List Rec} {ms : List OutMsg}
    (h : Holds cap c [] (.ckpt jk c :: rs) ms) (n : Nat) (hn : n ≤ (recBytes (.ckpt jk c :: rs)).length) :
    ∃ a b m1, Rec.ckpt jk c :: rs = a ++ b ∧ (recBytes a).length ≤ n ∧ Holds cap c [] a m1 ∧
      decodeFile cap ((recBytes (.ckpt jk c :: rs)).take n) = some m1 := by
  have hplain : c.Plain := by cases h with | ckpt hc hj h => exact hc
  have h40 : (checkpointBytes jk c).length = 40 := checkpointBytes_length hplain.1
  by_cases hlt : n < 40
  · refine ⟨[], _, [], rfl, by simp [recBytes], .nil, ?_⟩
    rw [decodeFile, Dec.openFile, readDictionary_cut _ _ (by rw [List.length_take]; omega)]
  · rw [recBytes_ckpt, List.length_append] at hn
    have htake : (recBytes (.ckpt jk c :: rs)).take n =
        checkpointBytes jk c ++ (recBytes rs).take (n - 40) := by
      rw [recBytes_ckpt, List.take_append, List.take_of_length_le (by omega), h40]
    obtain ⟨ho, hh⟩ := open_ok h (Dec.new cap) ((recBytes rs).take (n - 40))
    have hck : ∀ {a m}, Holds cap c [] a m → Holds cap c [] (.ckpt jk c :: a) m := by
      intro a m ha
      cases h with | ckpt hc hj h => exact .ckpt hc hj ha
    suffices hs : ∃ a b m1, rs = a ++ b ∧ (recBytes a).length ≤ n - 40 ∧ Holds cap c [] a m1 ∧
        ∃ s', URuns { Dec.new cap with
          file := ⟨(recBytes rs).take (n - 40), false⟩
          good := true, ck := c, dict := Dict.empty, out := [], bf := BufFrag.init cap } s' ∧ s'.out = m1 by
      obtain ⟨a, b, m1, e1, e2, e3, s', u1, u2⟩ := hs
      refine ⟨.ckpt jk c :: a, b, m1, by rw [e1]; rfl, by rw [recBytes_ckpt, List.length_append]; omega, hck e3, ?_⟩
      have hul := u1.loop
      simp only at hul
      rw [decodeFile, htake, ho]
      simp only [Dec.unordered]
      rw [hul]
      simpa using u2
    rcases cut_records rs (n - 40) (by omega) with h1 | ⟨a, r, b, p, q, h1, h2, h3, h4, h5⟩
    · refine ⟨rs, [], ms, by simp, by rw [← h1, List.length_take]; omega, hh, ?_⟩
      obtain ⟨s', u1, u2, -⟩ := unordered_holds hh { Dec.new cap with
          file := ⟨(recBytes rs).take (n - 40), false⟩
          good := true, ck := c, dict := Dict.empty, out := [], bf := BufFrag.init cap }
        (by rw [h1]) rfl rfl describes_empty (by simp [BufFrag.init])
      exact ⟨s', u1, by simpa using u2⟩
    · have hh' := hh
      rw [h1] at hh'
      obtain ⟨m1, m2, g1, g2, g3⟩ := hh'.split
      refine ⟨a, r :: b, m1, h1, by omega, g2, ?_⟩
      obtain ⟨s1, u1, u2, u3, u4, -, -, u5⟩ := unordered_leads g2 p { Dec.new cap with
          file := ⟨(recBytes rs).take (n - 40), false⟩
          good := true, ck := c, dict := Dict.empty, out := [], bf := BufFrag.init cap }
        (by rw [h2]) rfl rfl describes_empty (by simp [BufFrag.init])
      obtain ⟨s', v1, v2⟩ := unordered_cut g3 h3 h4 s1 u4 u3 u5
      exact ⟨s', u1 _ v1, by rw [v2, u2]; simp⟩

/-- More of a file holds more messages. -/
theorem decodeFile_grow {cap : Nat} {c : Checkpoint} {jk : Nat} {rs : List Rec} {ms : List OutMsg}
    (h : Holds cap c [] (.ckpt jk c :: rs) ms) (n n' : Nat) (hnn : n ≤ n')
    (hn : n' ≤ (recBytes (.ckpt jk c :: rs)).length) :
    ∃ m1 m2, decodeFile cap ((recBytes (.ckpt jk c :: rs)).take n) = some m1 ∧
      decodeFile cap ((recBytes (.ckpt jk c :: rs)).take n') = some (m1 ++ m2) := by
  obtain ⟨a, b, m1, e1, e2, e3, e4⟩ := decodeFile_cut h n (by omega)
  obtain ⟨m', f1, -, f3⟩ := decodeFile_take h n' hn
  obtain ⟨m2, rfl⟩ := f3 a b m1 e1 (by omega) e3
  exact ⟨m1, m2, e4, f1⟩

/-- Every file of the runtime consists of well-formed records, the last of them possibly cut. -/
theorem files_cut {cfg : Config} {prog : List Site} {s : Rt} (h : FInv cfg prog s) : ∀ f ∈ s.files,
    f = [] ∨ ∃ c jk rs ms n, Holds (cfg.staging + 9) c [] (.ckpt jk c :: rs) ms ∧
      n ≤ (recBytes (.ckpt jk c :: rs)).length ∧ f = (recBytes (.ckpt jk c :: rs)).take n := by
  intro f hf
  simp only [Rt.files, List.mem_append, List.mem_map, List.mem_singleton] at hf
  rcases hf with ⟨p, hp, rfl⟩ | rfl
  · obtain ⟨c, jk, rs, k, ⟨ms, h1, h2, h3⟩, -, hno, he⟩ := h.closed p hp
    exact .inr ⟨c, jk, rs, ms, _, h1, Nat.le_refl _, by rw [List.take_length, he]⟩
  · obtain ⟨c, jk, rsD, rsO, rsB, rs', k1, k2, e1, e2, -, ⟨e4, hno⟩, -, e6⟩ := h.cur
    obtain ⟨msD, d1, d2, d3⟩ := e1
    obtain ⟨msO, o1, o2, o3⟩ := e2
    have hh : Holds (cfg.staging + 9) c [] (rsD ++ rsO) (msD ++ msO) :=
      d1.append (by rw [d2]; exact o1)
    have hdisk : ∃ n, n ≤ (recBytes (rsD ++ rsO)).length ∧ s.disk = (recBytes (rsD ++ rsO)).take n := by
      cases ha : s.aio with
      | none =>
        rw [ha] at e6
        obtain ⟨rfl, hd⟩ := e6
        exact ⟨(recBytes rsD).length, by simp, by simp [hd]⟩
      | some a =>
        rw [ha] at e6
        obtain ⟨hb, hd⟩ := e6
        refine ⟨(recBytes rsD).length + min a.done (recBytes rsO).length, ?_, ?_⟩
        · rw [recBytes_append, List.length_append]; omega
        · rw [hd, recBytes_append, List.take_append,
            List.take_of_length_le (l := recBytes rsD) (by omega), hb, Nat.add_sub_cancel_left]
          congr 1
          rcases Nat.le_total a.done (s.mem s.dbl).length with hl | hl
          · rw [Nat.min_eq_left hl]
          · rw [Nat.min_eq_right hl, List.take_of_length_le hl, List.take_length]
    obtain ⟨n, n1, n2⟩ := hdisk
    cases hr : rsD ++ rsO with
    | nil => left; rw [n2, hr]; simp [recBytes]
    | cons r rs1 =>
      rw [hr] at e4 hh n1 n2
      simp only [List.cons_append, List.cons.injEq] at e4
      obtain ⟨rfl, rfl⟩ := e4
      exact .inr ⟨c, jk, rs1, _, n, hh, n1, n2⟩

/-- What was in the files stays in front of what comes later. -/
theorem decode_accrues {cfg : Config} {prog : List Site} {s s' : Rt} (h : FInv cfg prog s')
    (hg : ∃ f fs, s'.files = s.closed.map (·.1) ++ f :: fs ∧ s.disk <+: f)
    {ms ms' : List (List OutMsg)} (h1 : s.files.map (decodeFile (cfg.staging + 9)) = ms.map some)
    (h2 : s'.files.map (decodeFile (cfg.staging + 9)) = ms'.map some) : ms.flatten <+: ms'.flatten := by
  obtain ⟨f, fs, e1, p, hp⟩ := hg
  have hf := files_cut h f (by rw [e1]; simp)
  have hgrow : ∃ m1 m2, decodeFile (cfg.staging + 9) s.disk = some m1 ∧
      decodeFile (cfg.staging + 9) f = some (m1 ++ m2) := by
    rcases hf with rfl | ⟨c, jk, rs, msr, n, k1, k2, k3⟩
    · have : s.disk = [] := (List.append_eq_nil_iff.1 hp).1
      rw [this]
      exact ⟨[], [], decodeFile_nil _, decodeFile_nil _⟩
    · have hl : s.disk.length ≤ n := by
        have := congrArg List.length hp
        rw [k3, List.length_append, List.length_take] at this
        omega
      have hd : s.disk = (recBytes (.ckpt jk c :: rs)).take s.disk.length := by
        have := congrArg (List.take s.disk.length) hp
        rw [k3, List.take_left, List.take_take, Nat.min_eq_left hl] at this
        exact this
      obtain ⟨m1, m2, j1, j2⟩ := decodeFile_grow k1 _ n hl k2
      rw [hd, k3]
      exact ⟨m1, m2, j1, j2⟩
  obtain ⟨m1, m2, j1, j2⟩ := hgrow
  rw [Rt.files, List.map_append] at h1
  rw [e1, List.map_append] at h2
  obtain ⟨a, b, rfl, q1, q2⟩ := List.map_eq_append_iff.1 h1.symm
  obtain ⟨a', b', rfl, r1, r2⟩ := List.map_eq_append_iff.1 h2.symm
  rw [← r1] at q1
  obtain rfl := some_inj q1
  simp only [List.map_cons, List.map_nil, j1] at q2
  simp only [List.map_cons, j2] at r2
  obtain ⟨x, b1, rfl, x1, x2⟩ := List.map_eq_cons_iff.1 q2
  obtain ⟨y, b2, rfl, y1, y2⟩ := List.map_eq_cons_iff.1 r2
  simp only [List.map_eq_nil_iff] at x2
  cases x1
  cases y1
  subst x2
  rw [List.flatten_append, List.flatten_append, List.prefix_append_right_inj]
  exact ⟨m2 ++ b2.flatten, by simp⟩

end NanoLog
