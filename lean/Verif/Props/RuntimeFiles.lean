import Verif.Props.Runtime

/-!
# Theorems about the log files of the runtime: C19, C32, C43
-/

namespace NanoLog

/-! ## C19 Static information precedes use -/

/-- The static information that has appeared in records, by identifier; a checkpoint begins a
new execution. -/
def infoIn (rs : List Rec) : List Site :=
  rs.foldl (fun k r => match r with | .ckpt .. => [] | .dict _ new => k ++ new | _ => k) []

theorem after_info (ck : Checkpoint) (known : List Site) (rs : List Rec) :
    (after ck known rs).2 =
      rs.foldl (fun k r => match r with | .ckpt .. => [] | .dict _ new => k ++ new | _ => k) known := by
  induction rs generalizing ck known with
  | nil => rfl
  | cons r rs ih =>
    cases r <;> simp only [after, List.foldl_cons] <;> exact ih _ _

theorem after_prefix {cap : Nat} {ck : Checkpoint} {known : List Site} {rs : List Rec}
    {c : Checkpoint} {k : List Site} {sites : List Site}
    {ms : List OutMsg} (h : Holds cap ck known rs ms) (ha : after ck known rs = (c, k))
    (hk : k <+: sites) (h1 : NoCkpt rs) : known <+: sites := by
  induction h with
  | nil => cases ha; exact hk
  | ckpt hc hj h ih => exact (h1 _ (List.mem_cons_self ..)).elim
  | dict hn hl h ih =>
    exact (List.prefix_append _ _).trans (ih ha fun _ hm => h1 _ (List.mem_cons_of_mem _ hm))
  | ext he hp ht hl hcap h ih => exact ih ha fun _ hm => h1 _ (List.mem_cons_of_mem _ hm)
  | pad hz h ih => exact ih ha fun _ hm => h1 _ (List.mem_cons_of_mem _ hm)

theorem encoded_ok {sites : List Site} {last : Nat} {cs : List LogCall} {bs : List Byte}
    (h : Encoded sites last cs bs) : ∀ c ∈ cs, ∃ site, c.OK sites site := by
  induction h with
  | nil => simp
  | cons ok hm _ ih =>
    intro c hc
    rcases List.mem_cons.1 hc with rfl | hc
    · exact ⟨_, ok⟩
    · exact ih c hc

theorem info_precedes {cap : Nat} {c : Checkpoint} {jk : Nat} {rs : List Rec} {ms : List OutMsg}
    {k sites : List Site} (h : Holds cap c [] (.ckpt jk c :: rs) ms)
    (ha : after c [] (.ckpt jk c :: rs) = (c, k)) (hk : k <+: sites) (hn : NoCkpt rs)
    {a b : List Rec} {tid : Nat} {np : Bool} {cs : List LogCall} {body : List Byte}
    (he : .ckpt jk c :: rs = a ++ .ext tid np cs body :: b) :
    Encoded (infoIn a) 0 cs body ∧ infoIn a <+: sites := by
  have hi : infoIn a = (after c [] a).2 := (after_info c [] a).symm
  rw [he] at h ha
  obtain ⟨m1, m2, -, -, h2⟩ := h.split
  rw [after_append] at ha
  have hnc : NoCkpt (.ext tid np cs body :: b) := by
    cases a with
    | nil => simp at he
    | cons r a =>
      simp only [List.cons_append, List.cons.injEq] at he
      intro r' hm
      exact hn r' (by rw [he.2]; exact List.mem_append_right _ hm)
  rw [hi]
  refine ⟨?_, after_prefix h2 ha hk hnc⟩
  cases h2 with
  | ext he hp ht hl hcap h => exact he

/-- Every log file, at every moment, consists of the first `n` bytes of a checkpoint and records
`rs` with static information or messages (nothing else), and in front of every extent the static information of all its messages
appears, for each identifier that of the statement which the program registered under it.  This
holds for the current file and for those used before `setLogFile`. -/
theorem C19_info_precedes {cfg : Config} {prog : List Site} (hP : ProgOK cfg prog) {ls : List Lbl}
    {s : Rt} (h : RtExec cfg prog ls s) (f : List Byte) (hf : f ∈ s.files) :
    ∃ jk c rs n, f = (recBytes (.ckpt jk c :: rs)).take n ∧ (∀ r ∈ rs, r.isData) ∧
      ∀ a b tid np cs body, .ckpt jk c :: rs = a ++ .ext tid np cs body :: b →
        Encoded (infoIn a) 0 cs body ∧
        ∀ c ∈ cs, ∃ k site, s.ids k = some c.id ∧ prog[k]? = some site ∧
          (infoIn a)[c.id]? = some site := by
  obtain ⟨hC, hF⟩ := h.inv hP
  have key : ∀ (c : Checkpoint) (jk : Nat) (rs : List Rec) (ms : List OutMsg) (k : List Site),
      Holds (cfg.staging + 9) c [] (.ckpt jk c :: rs) ms →
      after c [] (.ckpt jk c :: rs) = (c, k) → k <+: s.sites → NoCkpt rs →
      ∀ a b tid np cs body, .ckpt jk c :: rs = a ++ .ext tid np cs body :: b →
        Encoded (infoIn a) 0 cs body ∧
        ∀ c ∈ cs, ∃ k site, s.ids k = some c.id ∧ prog[k]? = some site ∧
          (infoIn a)[c.id]? = some site := by
    intro c jk rs ms k h1 h2 h3 h4 a b tid np cs body he
    obtain ⟨h5, h6⟩ := info_precedes h1 h2 h3 h4 he
    refine ⟨h5, ?_⟩
    intro x hx
    obtain ⟨site, ok⟩ := encoded_ok h5 x hx
    have hs : s.sites[x.id]? = some site := by
      obtain ⟨z, hz⟩ := h6
      rw [← hz]; exact getElem?_mono ok.1 z
    obtain ⟨i1, i2, i3⟩ := C20_ids hP h
    obtain ⟨k, hk⟩ := i3 x.id (by
      by_contra hn
      rw [List.getElem?_eq_none (by omega)] at hs; cases hs)
    obtain ⟨site', e1, e2⟩ := i1 k _ hk
    rw [hs] at e1
    cases e1
    exact ⟨k, site, hk, e2, ok.1⟩
  simp only [Rt.files, List.mem_append, List.mem_map, List.mem_singleton] at hf
  rcases hf with ⟨p, hp, rfl⟩ | rfl
  · obtain ⟨c, jk, rs, k, ⟨ms, h1, h2, h3⟩, h4, h5, h6⟩ := hF.closed p hp
    exact ⟨jk, c, rs, p.1.length, by rw [h6, List.take_length], h5, key c jk rs ms k h1 h2 h4 h5⟩
  · obtain ⟨c, jk, rsD, rsO, rsB, rs', k1, k2, ⟨m1, a1, a2, -⟩, ⟨m2, b1, b2, -⟩, ⟨m3, c1, c2, -⟩,
      ⟨e4, e5⟩, e6, e7⟩ := hF.cur
    have hh := (a1.append (by rw [a2]; exact b1)).append (b := rsB) (ms' := m3) (by
      rw [after_append, a2, b2]; exact c1)
    have haf : after c [] (rsD ++ rsO ++ rsB) = (c, s.shadow) := by
      rw [after_append, after_append, a2, b2, c2]
    have hk : s.shadow <+: s.sites := by
      have := hF.enc.shadow
      simp only [Rt.enc] at this
      rw [this]; exact List.take_prefix _ _
    rw [e4] at hh haf
    refine ⟨jk, c, rs', s.disk.length, ?_, e5, key c jk rs' _ _ hh haf hk e5⟩
    rw [← e4, recBytes_append, recBytes_append]
    cases ha : s.aio with
    | none =>
      rw [ha] at e7
      rw [e7.2, e7.1, List.append_assoc, List.take_left]
    | some x =>
      rw [ha] at e7
      rw [e7.2, e7.1]
      have : recBytes rsD ++ s.mem s.dbl ++ recBytes rsB = recBytes rsD ++
          List.take x.done (s.mem s.dbl) ++ (List.drop x.done (s.mem s.dbl) ++ recBytes rsB) := by
        conv => lhs; rw [← List.take_append_drop x.done (s.mem s.dbl)]
        simp only [List.append_assoc]
      rw [this, List.take_left]

/-- The log file is switched by thread 1 after three messages; then two more are logged and
written. -/
def exSwitch : List Lbl :=
  exWritten ++ [.setLevel 4, .setFile 1 true, .top, .dict false, .peek 0, .check, .peek 0, .check,
    .scanned none, .top, .dict false, .peek 0, .check, .peek 0, .check, .scanned (some 1), .aio,
    .write, .ret 1, .stop 1, .top, .join 1 0 exCk]

/-- What happens after the switch. -/
def exAfter : List Lbl :=
  exNext 1 0 2000 [.int .i32 9] ++ exNext 2 0 2010 [.int .i32 10] ++
  [.top, .dict false, .peek 1, .encode (fun _ => 0) [], .peek 1, .encode (fun _ => 0) [],
   .scanned none, .aio, .write, .disk 60]

/-- Case for `C19_info_precedes`: two files, both with messages; the static information appears
in both. -/
example : ∃ s, RtExec exCfg exSites (exSwitch ++ exAfter) s ∧
    (s.files.map List.length == [115, 60] && s.gO.length == 2) = true :=
  exExec (by decide +kernel) (by decide +kernel)

/-! ## C43 Double buffering -/

/-- What the outstanding operation still has to write. -/
def Rt.unwritten (s : Rt) : List Byte :=
  match s.aio with
  | none => []
  | some a => (s.mem a.buf).drop a.done

/-- The bytes of the current file, wherever they are. -/
def Rt.stream (s : Rt) : List Byte := s.disk ++ s.unwritten ++ s.mem s.encPtr

/-- What the encoder produced for the current file when step `l` leads from `s` to `s'` and it had
produced `acc` before: only `encodeNewDictionaryEntries` and `encodeLogMsgs` produce output, and
what they append to the encoder's buffer is their output; after a switch a new encoder begins
with its checkpoint. -/
def addOutput (acc : List Byte) (s : Rt) (l : Lbl) (s' : Rt) : List Byte :=
  match l with
  | .dict _ | .encode .. => acc ++ (s'.mem s.encPtr).drop (s.mem s.encPtr).length
  | .join .. => s'.mem s'.encPtr
  | _ => acc

/-- What the encoder has produced for the current file after the steps `ls` from `s`. -/
def produced (cfg : Config) (prog : List Site) (acc : List Byte) (s : Rt) : List Lbl → List Byte
  | [] => acc
  | l :: ls =>
    match s.act cfg prog l with
    | .ok s' => produced cfg prog (addOutput acc s l s') s' ls
    | _ => acc

theorem batch_prefix {cfg : Config} {st e : EncSt} {junk : Nat → Nat} {cs : List LogCall}
    {mem : List Byte} {nbytes tid : Nat} {np : Bool} {n : Option Int}
    (h : st.step cfg (.batch junk cs mem nbytes tid np) = some (e, n)) : st.buf <+: e.buf := by
  simp only [EncSt.step] at h
  split at h <;> cases h
  exact List.prefix_append _ _

theorem stream_eq {s s' : Rt} (h1 : s'.disk = s.disk) (h2 : s'.aio = s.aio) (h3 : s'.mem = s.mem)
    (h4 : s'.encPtr = s.encPtr) : s'.stream = s.stream := by
  simp only [Rt.stream, Rt.unwritten, h1, h2, h3, h4]

theorem advance_fields {s s' : Rt} {j : Nat} (h : s.advance j = .ok s') :
    s'.disk = s.disk ∧ s'.aio = s.aio ∧ s'.mem = s.mem ∧ s'.encPtr = s.encPtr := by
  unfold Rt.advance at h
  split at h <;> cases h
  exact ⟨rfl, rfl, rfl, rfl⟩

theorem notify_fields {s s' : Rt} {w : Option Nat} (h : s.notify w = .ok s') :
    s'.disk = s.disk ∧ s'.aio = s.aio ∧ s'.mem = s.mem ∧ s'.encPtr = s.encPtr := by
  unfold Rt.notify at h
  split at h
  · cases h; exact ⟨rfl, rfl, rfl, rfl⟩
  · split at h <;> cases h
    exact ⟨rfl, rfl, rfl, rfl⟩

/-- The encoder's output goes to the end of the stream. -/
theorem stream_setEnc {s s' : Rt} {b : List Byte} (hC : RtInv s) (hp : s.mem s.encPtr <+: b)
    (h1 : s'.disk = s.disk) (h2 : s'.aio = s.aio) (h3 : s'.mem = upd s.mem s.encPtr b)
    (h4 : s'.encPtr = s.encPtr) :
    s'.stream = s.stream ++ (s'.mem s.encPtr).drop (s.mem s.encPtr).length := by
  obtain ⟨z, rfl⟩ := hp
  have hu : s'.unwritten = s.unwritten := by
    simp only [Rt.unwritten, h2, h3]
    cases ha : s.aio with
    | none => rfl
    | some a =>
      simp only
      rw [upd_other]
      rw [(hC.aioOK a ha).1, hC.ptr2]; simp
  simp only [Rt.stream, hu, h1, h4, h3, upd_same, List.drop_left, List.append_assoc]

theorem act_stream {cfg : Config} {prog : List Site} {s s' : Rt} {l : Lbl} (hC : RtInv s)
    (ha : s.act cfg prog l = .ok s') : s'.stream = addOutput s.stream s l s' := by
  cases l <;> simp only [Rt.act, addOutput] at ha ⊢
  case join t jk c =>
    simp only [Rt.actCtl] at ha
    split at ha <;> try cases ha
    rename_i hd
    split at ha <;> cases ha
    have := hC.pcAio (.inr (.inr hd))
    simp [Rt.stream, Rt.unwritten, Rt.setThr, this]
  case dict skip =>
    simp only [Rt.actScan] at ha
    split at ha
    · cases ha
    split at ha
    · cases ha; simp [Rt.stream, Rt.unwritten]
    · split at ha <;> cases ha
      rename_i e n he
      exact stream_setEnc hC (encodeDict_prefix he).1 rfl rfl rfl rfl
  case encode junk more =>
    simp only [Rt.actScan] at ha
    split at ha
    · cases ha
    split at ha
    · cases ha
    split at ha
    · cases ha
    split at ha <;> try cases ha
    rename_i e n he
    have hp := batch_prefix he
    split at ha
    · obtain ⟨f1, f2, f3, f4⟩ := advance_fields ha
      exact stream_setEnc hC hp f1 f2 f3 f4
    · split at ha
      · cases ha
      split at ha
      · obtain ⟨f1, f2, f3, f4⟩ := advance_fields ha
        exact stream_setEnc hC hp f1 f2 f3 f4
      · cases ha
        exact stream_setEnc hC hp rfl rfl rfl rfl
  case check =>
    simp only [Rt.actScan] at ha
    split at ha
    · cases ha
    split at ha
    · split at ha
      · cases ha; exact stream_eq rfl rfl rfl rfl
      · obtain ⟨f1, f2, f3, f4⟩ := advance_fields ha
        exact stream_eq f1 f2 f3 f4
    · obtain ⟨f1, f2, f3, f4⟩ := advance_fields ha
      exact stream_eq f1 f2 f3 f4
  case scanned w =>
    simp only [Rt.actIo] at ha
    split at ha
    · cases ha
    split at ha
    · cases ha; exact stream_eq rfl rfl rfl rfl
    split at ha
    · cases ha; exact stream_eq rfl rfl rfl rfl
    split at ha
    · obtain ⟨f1, f2, f3, f4⟩ := notify_fields ha
      exact stream_eq f1 f2 f3 f4
    · cases ha; exact stream_eq rfl rfl rfl rfl
  case aioDone w =>
    simp only [Rt.actIo] at ha
    split at ha
    · cases ha
    split at ha
    · obtain ⟨f1, f2, f3, f4⟩ := notify_fields ha
      exact stream_eq f1 f2 f3 f4
    · cases ha; exact stream_eq rfl rfl rfl rfl
  case aio =>
    simp only [Rt.actIo] at ha
    split at ha
    · cases ha
    split at ha
    · cases ha; exact stream_eq rfl rfl rfl rfl
    · rename_i a hs
      split at ha
      · cases ha
        rename_i hd
        obtain ⟨h1, h2, h3⟩ := hC.aioOK a hs
        simp only [Rt.stream, Rt.unwritten, hs]
        rw [List.drop_eq_nil_of_le (by rw [h1, hd, h2]; exact Nat.le_refl _)]
      · split at ha <;> cases ha
        exact stream_eq rfl rfl rfl rfl
  case write =>
    simp only [Rt.actIo] at ha
    split at ha
    · cases ha
    rename_i hpc
    simp only [ne_eq, Decidable.not_not] at hpc
    have hn := hC.pcAio (.inr (.inl hpc))
    split at ha <;> cases ha
    · exact stream_eq rfl rfl rfl rfl
    · simp only [Rt.stream, Rt.unwritten, hn, upd_same, List.append_nil, List.drop_zero]
      rw [upd_other _ _ (by rw [hC.ptr, hC.ptr2]; simp), hC.ptr]
  case disk n =>
    simp only [Rt.actIo] at ha
    split at ha
    · cases ha
    rename_i a hs
    split at ha <;> try cases ha
    split at ha <;> cases ha
    simp only [Rt.stream, Rt.unwritten, hs]
    rw [← List.drop_drop, List.append_assoc s.disk, List.take_append_drop]
  all_goals
    simp only [Rt.actLog, Rt.actBuf, Rt.actCtl, Rt.actScan] at ha
    repeat' split at ha
    all_goals first
      | (cases ha; done)
      | (cases ha; exact stream_eq rfl rfl rfl rfl)

theorem run_stream {cfg : Config} (hroom : 40 ≤ cfg.output) {prog : List Site} {s s' : Rt}
    {ls : List Lbl} (hC : RtInv s) (hr : s.run cfg prog ls = .ok s') :
    produced cfg prog s.stream s ls = s'.stream := by
  induction ls generalizing s with
  | nil => cases hr; rfl
  | cons l ls ih =>
    simp only [Rt.run] at hr
    simp only [produced]
    cases ha : s.act cfg prog l with
    | off => rw [ha] at hr; cases hr
    | ub => rw [ha] at hr; cases hr
    | ok s1 =>
      rw [ha] at hr
      simp only at hr ⊢
      rw [← act_stream hC ha]
      exact ih (act_cinv hroom hC ha) hr

/-- While a buffer is being written, no step changes its content or its length, the amount
written does not decrease, and the encoder works on the other buffer; the operation ends only
when every byte is written. -/
theorem C43_untouched {cfg : Config} {prog : List Site} (hP : ProgOK cfg prog) {ls : List Lbl}
    {s s' : Rt} {l : Lbl} (h : RtExec cfg prog ls s) (ha : s.act cfg prog l = .ok s') {a : Aio}
    (hs : s.aio = some a) :
    s'.mem a.buf = s.mem a.buf ∧ s.encPtr ≠ a.buf ∧
    ((∃ d, a.done ≤ d ∧ d ≤ a.len ∧ s'.aio = some { a with done := d }) ∨
     (s'.aio = none ∧ a.done = a.len)) := by
  obtain ⟨hC, -⟩ := h.inv hP
  obtain ⟨h1, h2, h3⟩ := hC.aioOK a hs
  have hne : a.buf ≠ s.encPtr := by rw [h1, hC.ptr2]; simp
  have key : ∀ s2 : Rt, s2.aio = s.aio → s2.mem a.buf = s.mem a.buf →
      s2.mem a.buf = s.mem a.buf ∧ s.encPtr ≠ a.buf ∧
      ((∃ d, a.done ≤ d ∧ d ≤ a.len ∧ s2.aio = some { a with done := d }) ∨
       (s2.aio = none ∧ a.done = a.len)) := by
    intro s2 e1 e2
    exact ⟨e2, hne.symm, .inl ⟨a.done, Nat.le_refl _, h3, e1.trans hs⟩⟩
  cases l <;> simp only [Rt.act] at ha
  case join t jk c =>
    simp only [Rt.actCtl] at ha
    split at ha <;> try cases ha
    rename_i hd
    have := hC.pcAio (.inr (.inr hd))
    rw [hs] at this; cases this
  case dict skip =>
    simp only [Rt.actScan] at ha
    split at ha
    · cases ha
    split at ha
    · cases ha; exact key _ rfl rfl
    · split at ha <;> cases ha
      exact key _ rfl (upd_other _ _ hne)
  case encode junk more =>
    simp only [Rt.actScan] at ha
    split at ha
    · cases ha
    split at ha
    · cases ha
    split at ha
    · cases ha
    split at ha <;> try cases ha
    split at ha
    · obtain ⟨f1, f2, f3, f4⟩ := advance_fields ha
      exact key _ f2 (by rw [f3]; exact upd_other _ _ hne)
    · split at ha
      · cases ha
      split at ha
      · obtain ⟨f1, f2, f3, f4⟩ := advance_fields ha
        exact key _ f2 (by rw [f3]; exact upd_other _ _ hne)
      · cases ha
        exact key _ rfl (upd_other _ _ hne)
  case check =>
    simp only [Rt.actScan] at ha
    split at ha
    · cases ha
    split at ha
    · split at ha
      · cases ha; exact key _ rfl rfl
      · obtain ⟨f1, f2, f3, f4⟩ := advance_fields ha
        exact key _ f2 (by rw [f3]; rfl)
    · obtain ⟨f1, f2, f3, f4⟩ := advance_fields ha
      exact key _ f2 (by rw [f3])
  case scanned w =>
    simp only [Rt.actIo] at ha
    split at ha
    · cases ha
    split at ha
    · cases ha; exact key _ rfl rfl
    split at ha
    · cases ha; exact key _ rfl rfl
    split at ha
    · obtain ⟨f1, f2, f3, f4⟩ := notify_fields ha
      exact key _ f2 (by rw [f3])
    · cases ha; exact key _ rfl rfl
  case aioDone w =>
    simp only [Rt.actIo] at ha
    split at ha
    · cases ha
    split at ha
    · obtain ⟨f1, f2, f3, f4⟩ := notify_fields ha
      exact key _ f2 (by rw [f3])
    · cases ha; exact key _ rfl rfl
  case aio =>
    simp only [Rt.actIo] at ha
    split at ha
    · cases ha
    split at ha
    · cases ha; exact key _ rfl rfl
    · rename_i a' hs'
      rw [hs] at hs'
      have := Option.some.inj hs'
      subst this
      split at ha
      · cases ha
        exact ⟨rfl, hne.symm, .inr ⟨rfl, by assumption⟩⟩
      · split at ha <;> cases ha
        exact key _ rfl rfl
  case write =>
    simp only [Rt.actIo] at ha
    split at ha
    · cases ha
    rename_i hpc
    simp only [ne_eq, Decidable.not_not] at hpc
    have hn := hC.pcAio (.inr (.inl hpc))
    rw [hs] at hn; cases hn
  case disk n =>
    simp only [Rt.actIo] at ha
    split at ha
    · cases ha
    rename_i a' hs'
    rw [hs] at hs'
    have := Option.some.inj hs'
    subst this
    split at ha <;> try cases ha
    split at ha <;> cases ha
    exact ⟨rfl, hne.symm, .inl ⟨a.done + n, by omega, by assumption, rfl⟩⟩
  all_goals
    simp only [Rt.actLog, Rt.actBuf, Rt.actCtl, Rt.actScan] at ha
    repeat' split at ha
    all_goals first
      | (cases ha; done)
      | (cases ha; exact key _ rfl rfl)

/-- The bytes on disk, followed by those still to be written by the outstanding operation and
those in the encoder's buffer, are exactly what the encoder has produced for this file: every
byte once, in order.  In particular the file is always the beginning of it, and all of it when
the buffers are written. -/
theorem C43_stream {cfg : Config} {prog : List Site} (hP : ProgOK cfg prog) {jk : Nat}
    {c : Checkpoint} {s0 s : Rt} (h0 : Rt.init cfg jk c = some s0) {ls : List Lbl}
    (hr : s0.run cfg prog ls = .ok s) :
    let out := produced cfg prog (s0.mem s0.encPtr) s0 ls
    s.disk ++ s.unwritten ++ s.mem s.encPtr = out ∧ s.disk <+: out ∧
    (s.aio = none → s.mem s.encPtr = [] → s.disk = out) := by
  have hi : s0.stream = s0.mem s0.encPtr := by
    unfold Rt.init at h0
    split at h0 <;> cases h0
    rfl
  have := run_stream hP.room (init_cinv h0) hr
  rw [hi, Rt.stream] at this
  refine ⟨this.symm, ?_, ?_⟩
  · rw [this, List.append_assoc]; exact List.prefix_append _ _
  · intro h1 h2
    rw [this, h2, Rt.unwritten, h1]; simp

/-- A buffer is handed to the disk only when no operation is outstanding, with exactly the bytes
encoded into it, and the encoder continues with the other buffer, which is empty. -/
theorem C43_handed {cfg : Config} {prog : List Site} (hP : ProgOK cfg prog) {ls : List Lbl}
    {s s' : Rt} {l : Lbl} (h : RtExec cfg prog ls s) (ha : s.act cfg prog l = .ok s')
    (hs : s.aio = none) {a : Aio} (hs' : s'.aio = some a) :
    a.done = 0 ∧ s'.mem a.buf = s.mem s.encPtr ∧ a.len = (s.mem s.encPtr).length ∧
    s'.encPtr = !a.buf ∧ s'.mem s'.encPtr = [] := by
  obtain ⟨hC, -⟩ := h.inv hP
  have key : ∀ s2 : Rt, s2.aio = s.aio → s2.aio ≠ some a := by
    intro s2 e1 e2
    rw [e1, hs] at e2; cases e2
  cases l <;> simp only [Rt.act] at ha
  case write =>
    simp only [Rt.actIo] at ha
    split at ha
    · cases ha
    split at ha <;> cases ha
    · exact absurd hs' (key _ rfl)
    · simp only [Option.some.injEq] at hs'
      subst hs'
      simp only [upd_same]
      rw [upd_other _ _ (by rw [hC.ptr, hC.ptr2]; simp), hC.ptr, hC.ptr2]
      simp
  case disk n =>
    simp only [Rt.actIo] at ha
    rw [hs] at ha; cases ha
  case aio =>
    simp only [Rt.actIo] at ha
    rw [hs] at ha
    split at ha <;> cases ha
    cases hs'
  case scanned w =>
    simp only [Rt.actIo] at ha
    split at ha
    · cases ha
    split at ha
    · cases ha; exact absurd hs' (key _ rfl)
    split at ha
    · cases ha; exact absurd hs' (key _ rfl)
    split at ha
    · obtain ⟨f1, f2, f3, f4⟩ := notify_fields ha
      exact absurd hs' (key _ f2)
    · cases ha; exact absurd hs' (key _ rfl)
  case aioDone w =>
    simp only [Rt.actIo] at ha
    split at ha
    · cases ha
    split at ha
    · obtain ⟨f1, f2, f3, f4⟩ := notify_fields ha
      exact absurd hs' (key _ f2)
    · cases ha; exact absurd hs' (key _ rfl)
  all_goals
    simp only [Rt.actLog, Rt.actBuf, Rt.actCtl, Rt.actScan] at ha
    repeat' split at ha
    all_goals first
      | (cases ha; done)
      | (cases ha; exact absurd hs' (key _ rfl))
      | (obtain ⟨f1, f2, f3, f4⟩ := advance_fields ha; exact absurd hs' (key _ f2))

/-- Case for `C43_untouched`: 100 of 115 bytes are written and a new message is encoded. -/
example : ∃ s, RtExec exCfg exSites (exThreads ++ exScan ++ [.disk 100, .setLevel 3] ++
      exNext 1 0 1030 [.int .i32 6] ++ [.top, .dict false, .peek 1]) s ∧
    (s.aio == some ⟨false, 115, 100⟩ && s.pc == .encode) = true :=
  exExec (by decide +kernel) (by decide +kernel)

/-- Case for `C43_handed` (the `write` step) and `C43_stream`. -/
example : ∃ s, RtExec exCfg exSites (exThreads ++ exScan.dropLast) s ∧
    (s.aio == none && s.pc == .write && (s.mem s.encPtr).length == 115) = true :=
  exExec (by decide +kernel) (by decide +kernel)

/-! ## C32 Changing the log file -/

/-- If `setLogFile` throws, nothing changes.  (The function tests the file before it does anything
else, so this is visible in the model's step for it.) -/
theorem C32_throws {cfg : Config} {prog : List Site} {s s' : Rt} {t : Nat}
    (ha : s.act cfg prog (.setFile t false) = .ok s') : s' = s := by
  simp only [Rt.act, Rt.actCtl] at ha
  split at ha <;> cases ha
  rfl

theorem act_files {cfg : Config} {prog : List Site} {s s' : Rt} {l : Lbl}
    (ha : s.act cfg prog l = .ok s') :
    s'.closed = s.closed ∨ s'.closed = s.closed ++ [(s.disk, s.gD)] := by
  cases l <;> simp only [Rt.act] at ha
  case join t jk c =>
    simp only [Rt.actCtl] at ha
    repeat' split at ha
    all_goals cases ha
    exact .inr rfl
  all_goals first
    | exact .inl (actScan_bg ha).closed
    | exact .inl (actIo_bg ha).closed
    | (simp only [Rt.actLog, Rt.actBuf, Rt.actCtl] at ha
       repeat' split at ha
       all_goals first
        | (cases ha; done)
        | (cases ha; exact .inl rfl))

theorem run_closed {cfg : Config} {prog : List Site} {s s' : Rt} {ls : List Lbl}
    (hr : s.run cfg prog ls = .ok s') : s.closed <+: s'.closed := by
  induction ls generalizing s with
  | nil => cases hr; exact List.prefix_refl _
  | cons l ls ih =>
    simp only [Rt.run] at hr
    cases ha : s.act cfg prog l with
    | off => rw [ha] at hr; cases hr
    | ub => rw [ha] at hr; cases hr
    | ok s1 =>
      rw [ha] at hr
      refine List.IsPrefix.trans ?_ (ih hr)
      rcases act_files ha with h | h
      · rw [h]; exact List.prefix_refl _
      · rw [h]; exact List.prefix_append _ _

theorem join_files {cfg : Config} {prog : List Site} {s s1 : Rt} {t jk : Nat} {c : Checkpoint}
    (hj : s.act cfg prog (.join t jk c) = .ok s1) : s1.closed.map (·.1) = s.files := by
  simp only [Rt.act, Rt.actCtl] at hj
  repeat' split at hj
  all_goals cases hj
  simp [Rt.files]

/-- After `setLogFile` the files used before, including the one that was the current file, never
change again; there is a new file. -/
theorem C32_old_files {cfg : Config} {prog : List Site} {s s1 s2 : Rt} {t jk : Nat} {c : Checkpoint}
    {ls' : List Lbl} (hj : s.act cfg prog (.join t jk c) = .ok s1)
    (hr : s1.run cfg prog ls' = .ok s2) : ∃ new, new ≠ [] ∧ s2.files = s.files ++ new := by
  obtain ⟨z, hz⟩ := run_closed hr
  refine ⟨z.map (·.1) ++ [s2.disk], by simp, ?_⟩
  rw [← join_files hj, Rt.files, ← hz]
  simp

theorem mustRecord_prefix (prog : List Site) (t : Nat) (a b : List Lbl) :
    mustRecord prog t a <+: mustRecord prog t (a ++ b) := by
  rw [mustRecord, mustRecord, List.foldl_append]
  generalize a.foldl (recordStep prog t) (3, []) = st
  induction b generalizing st with
  | nil => exact List.prefix_refl _
  | cons l b ih =>
    rw [List.foldl_cons]
    refine List.IsPrefix.trans ?_ (ih _)
    cases l <;> simp only [recordStep] <;> try exact List.prefix_refl _
    split
    · split
      · exact List.prefix_append _ _
      · exact List.prefix_refl _
    · exact List.prefix_refl _

/-- The messages in the files used before the switch are those of calls made before it, the
messages in the files used after it are those of the calls that follow; every file is decoded on
its own, by a new decoder. -/
theorem C32_messages {cfg : Config} {prog : List Site} (hP : ProgOK cfg prog) {ls ls' : List Lbl}
    {s s1 s2 : Rt} {t jk : Nat} {c : Checkpoint} (h : RtExec cfg prog ls s)
    (hj : s.act cfg prog (.join t jk c) = .ok s1) (hr : s1.run cfg prog ls' = .ok s2)
    (hok : ∀ l ∈ .join t jk c :: ls', l.OK cfg prog)
    (hn : allocs (ls ++ .join t jk c :: ls') ≤ 2 ^ 32) :
    ∃ (new : List (List Byte)) (outs outs' : List (List OutMsg)),
      s2.files = s.files ++ new ∧
      s.files.map (decodeFile (cfg.staging + 9)) = outs.map some ∧
      new.map (decodeFile (cfg.staging + 9)) = outs'.map some ∧
      ∀ u b, (s2.thr u).bid = some b → ∃ n m,
        n ≤ (mustRecord prog u ls).length ∧
        List.Forall₂ (MsgOf prog b) ((mustRecord prog u ls).take n)
          (outs.flatten.filter fun m => m.tid == b) ∧
        List.Forall₂ (MsgOf prog b)
          (((mustRecord prog u (ls ++ .join t jk c :: ls')).drop n).take m)
          (outs'.flatten.filter fun m => m.tid == b) := by
  obtain ⟨new, -, hf⟩ := C32_old_files hj hr
  have hrun : s.run cfg prog (.join t jk c :: ls') = .ok s2 := by
    simp only [Rt.run, hj]; exact hr
  have h2 := h.append hok hrun
  have hn1 : allocs ls ≤ 2 ^ 32 := by
    refine Nat.le_trans ?_ hn
    simp only [allocs, List.filter_append, List.length_append]; omega
  obtain ⟨outs, a1, a2, a3⟩ := C30_prefix hP h hn1
  obtain ⟨all, b1, b2, -⟩ := C30_prefix hP h2 hn
  rw [hf, List.map_append] at b1
  obtain ⟨l1, l2, rfl, e1, e2⟩ := List.map_eq_append_iff.1 b1.symm
  have : l1 = outs := by
    rw [a1] at e1
    exact List.map_injective_iff.2 (fun _ _ h => Option.some.inj h) e1
  subst this
  refine ⟨new, l1, l2, hf, a1, e2.symm, ?_⟩
  intro u b hb
  obtain ⟨N, g1, -⟩ := b2 u b hb
  rw [List.flatten_append, List.filter_append] at g1
  have hpre := mustRecord_prefix prog u ls (.join t jk c :: ls')
  -- the calls whose messages are in the old files
  have hold : ∃ n, n ≤ (mustRecord prog u ls).length ∧
      List.Forall₂ (MsgOf prog b) ((mustRecord prog u ls).take n)
        (l1.flatten.filter fun m => m.tid == b) := by
    cases hb1 : (s.thr u).bid with
    | some b1 =>
      have := C34_stable hP h hok hrun u b1 hb1
      rw [hb] at this
      cases this
      obtain ⟨n, g, -⟩ := a2 u b hb1
      refine ⟨min n (mustRecord prog u ls).length, Nat.min_le_right _ _, ?_⟩
      rw [List.take_eq_take_min] at g
      exact g
    | none =>
      refine ⟨0, Nat.zero_le _, ?_⟩
      have : (l1.flatten.filter fun m => m.tid == b) = [] := by
        rw [List.filter_eq_nil_iff]
        intro m hm he
        simp only [beq_iff_eq] at he
        obtain ⟨v, hv⟩ := a3 m hm
        rw [he] at hv
        have hv2 := C34_stable hP h hok hrun v b hv
        have := C34_unique_partial h2 hn u v b hb hv2
        rw [← this, hb1] at hv; cases hv
      rw [this]; exact .nil
  obtain ⟨n, hn3, g2⟩ := hold
  have hlen := g2.length_eq
  rw [List.length_take, Nat.min_eq_left hn3] at hlen
  have hlenN := g1.length_eq
  rw [List.length_take, List.length_append] at hlenN
  refine ⟨n, N - n, hn3, g2, ?_⟩
  have hsplit : (mustRecord prog u (ls ++ .join t jk c :: ls')).take N =
      (mustRecord prog u (ls ++ .join t jk c :: ls')).take n ++
      ((mustRecord prog u (ls ++ .join t jk c :: ls')).drop n).take (N - n) := by
    rw [← List.take_add]; congr 1; omega
  rw [hsplit] at g1
  have hl1 : ((mustRecord prog u (ls ++ .join t jk c :: ls')).take n).length = n := by
    rw [List.length_take, Nat.min_eq_left (Nat.le_trans hn3 hpre.length_le)]
  have key : ∀ (a a' : List (Nat × List Arg)) (x x' : List OutMsg),
      List.Forall₂ (MsgOf prog b) (a ++ a') (x ++ x') → a.length = x.length →
      List.Forall₂ (MsgOf prog b) a' x' := by
    intro a
    induction a with
    | nil =>
      intro a' x x' hh hl
      have : x = [] := List.length_eq_zero_iff.1 hl.symm
      subst this
      exact hh
    | cons r a ih =>
      intro a' x x' hh hl
      cases x with
      | nil => simp at hl
      | cons m x =>
        cases hh with
        | cons _ hh => exact ih a' x x' hh (by simpa using hl)
  exact key _ _ _ _ g1 (by rw [hl1, hlen])

/-- Case for `C32_old_files` and `C32_messages`: the old file has three messages, the new one
two. -/
example : ∃ s, RtExec exCfg exSites exSwitch.dropLast s ∧
    (match s.act exCfg exSites (.join 1 0 exCk) with
     | .ok s1 =>
       match s1.run exCfg exSites (exAfter ++ [.disk 47]) with
       | .ok s2 => (s2.files.map (decodeFile 265)).map (fun o => o.map List.length)
          == [some 3, some 2]
       | _ => false
     | _ => false) = true :=
  exExec (by decide +kernel) (by decide +kernel)

/-- Case for `C32_throws`. -/
example : ∃ s, RtExec exCfg exSites (exThreads ++ [.setFile 1 false]) s ∧
    ((s.thr 1).pc == .idle) = true :=
  exExec (by decide +kernel) (by decide +kernel)

end NanoLog
