import Verif.Stats
import Verif.Props.RuntimeSync
import Verif.Props.RuntimeFiles
import Verif.RuntimeBusy

/-! Helper lemmas about the counters. -/

namespace NanoLog

theorem encodeEvents_queue (cfg : Config) (junk : Nat → Nat) {all sites : List Site}
    (hpre : sites <+: all) (more : List Byte) (cs : List LogCall) (hq : Queue all cs)
    (fuel : Nat) (hf : cs.length < fuel) (remaining : Int) (hr : remaining ≤ queueSize all cs)
    (space last : Nat) {out : List Byte} {rem : Int}
    (h : encodeLoop cfg junk sites fuel remaining space last (queueBytes all cs ++ more) =
      some (out, rem)) :
    ∃ k, k ≤ cs.length ∧
      encodeEvents cfg junk sites fuel remaining space last (queueBytes all cs ++ more) = some k ∧
      rem = remaining - queueSize all (cs.take k) := by
  induction cs generalizing fuel remaining space last out rem with
  | nil =>
    cases fuel with
    | zero => simp at hf
    | succ fuel =>
      have hrem : remaining ≤ 0 := by simpa [queueSize] using hr
      simp only [encodeLoop, hrem, if_true, Option.some.injEq, Prod.mk.injEq] at h
      exact ⟨0, by simp, by simp [encodeEvents, hrem], by simp [queueSize, h.2]⟩
  | cons c cs ih =>
    cases fuel with
    | zero => simp at hf
    | succ fuel =>
      obtain ⟨s, ok, hm⟩ := hq c (by simp)
      have hcs := callSize_eq ok
      have hqb : queueBytes all (c :: cs) ++ more = entryBytes s c ++ (queueBytes all cs ++ more) := by
        simp [queueBytes, ok.site]
      have hqs : queueSize all (c :: cs) = c.size s + queueSize all cs := by
        simp [queueSize, hcs]
      by_cases hrem : remaining ≤ 0
      · simp only [encodeLoop, hrem, if_true, Option.some.injEq, Prod.mk.injEq] at h
        exact ⟨0, by simp, by simp [encodeEvents, hrem], by simp [queueSize, h.2]⟩
      · rw [hqb] at h ⊢
        simp only [encodeLoop, encodeEvents, hrem, if_false] at h ⊢
        have hstep := encodeStep_entry cfg junk hpre ok hm remaining space last
          (queueBytes all cs ++ more)
        rw [hstep] at h ⊢
        by_cases hstop : sites.length ≤ c.id ∨
            ((c.size s : Int) > remaining ∧ c.size s < cfg.staging / 2) ∨
            2 * c.size s + 16 > space
        · rw [if_pos hstop] at h ⊢
          simp only [Option.some.injEq, Prod.mk.injEq] at h
          exact ⟨0, by simp, rfl, by simp [queueSize, h.2]⟩
        · rw [if_neg hstop] at h ⊢
          have hdrop : (entryBytes s c ++ (queueBytes all cs ++ more)).drop (c.size s) =
              queueBytes all cs ++ more := by
            rw [← entryBytes_length ok hm]; simp
          simp only [hdrop] at h ⊢
          split at h
          · cases h
          rename_i outs rem' hl
          cases h
          obtain ⟨k, h1, h2, h3⟩ := ih (fun x hx => hq x (by simp [hx])) fuel
            (by simp at hf; omega) (remaining - c.size s) (by rw [hqs] at hr; push_cast at hr; omega)
            _ _ hl
          refine ⟨k + 1, by simpa using h1, by rw [h2], ?_⟩
          rw [h3, List.take_succ_cons]
          simp only [queueSize, List.map_cons, List.sum_cons, hcs]
          push_cast; omega

/-- The number of messages counted for a chunk is the number of messages encoded. -/
theorem batch_events {cfg : Config} {st : EncSt} {junk : Nat → Nat} {cs : List LogCall}
    (hinv : st.Inv cfg) (hq : Queue st.all cs) {more : List Byte} {nbytes tid : Nat} {np : Bool}
    (hn : nbytes ≤ (queueBytes st.all cs).length) {e : EncSt} {n : Int}
    (h : st.step cfg (.batch junk cs (queueBytes st.all cs ++ more) nbytes tid np) =
      some (e, some n)) :
    ∃ k, k ≤ cs.length ∧ batchEvents cfg junk st.shadow (cfg.output - st.buf.length)
        (queueBytes st.all cs ++ more) nbytes tid = some k ∧
      n = queueSize st.all (cs.take k) := by
  have hpre : st.shadow <+: st.all := by rw [hinv.shadow]; exact List.take_prefix _ _
  simp only [EncSt.step] at h
  split at h
  · cases h
  rename_i bs n' hm
  cases h
  unfold encodeLogMsgs at hm
  unfold batchEvents
  split at hm
  · rename_i h9
    cases hm
    exact ⟨0, by simp, by rw [if_pos h9], by simp [queueSize]⟩
  rename_i h9
  rw [if_neg h9]
  split at hm
  · cases hm
  split at hm
  · cases hm
  rename_i body rem hl
  cases hm
  obtain ⟨h1, h2⟩ := queueBytes_length hq
  obtain ⟨k, k1, k2, k3⟩ := encodeEvents_queue cfg junk hpre more cs hq _ (by simp; omega)
    nbytes (by omega) _ _ hl
  exact ⟨k, k1, k2, by omega⟩

/-- Bytes of all files, and those of the outstanding operation not yet in the file. -/
def Rt.outBytes (s : Rt) : Nat := (s.files.map List.length).sum + s.unwritten.length

/-- The bytes that a step hands to the disk. -/
def Rt.hands (s : Rt) : Lbl → Nat
  | .write => (s.mem s.encPtr).length
  | _ => 0

/-- What a step other than a chunk changes. -/
theorem act_counted {cfg : Config} {prog : List Site} {s s' : Rt} {l : Lbl} (h : RtInv s)
    (ha : s.act cfg prog l = .ok s') (hl : ∀ junk more, l ≠ .encode junk more) :
    s'.encoded = s.encoded ∧
    s'.outBytes = s.outBytes + s.hands l := by
  have same : ∀ s2 : Rt, s2.closed = s.closed → s2.gD = s.gD → s2.gO = s.gO → s2.gB = s.gB →
      s2.disk = s.disk → s2.aio = s.aio → s2.mem s.dbl = s.mem s.dbl →
      s2.encoded = s.encoded ∧ s2.outBytes = s.outBytes + 0 := by
    intro s2 e1 e2 e3 e4 e5 e6 e7
    refine ⟨by simp only [Rt.encoded, e1, e2, e3, e4], ?_⟩
    simp only [Rt.outBytes, Rt.files, Rt.unwritten, e1, e5, e6, Nat.add_zero]
    cases hs : s.aio with
    | none => rfl
    | some a => simp only [(h.aioOK a hs).1, e7]
  have adv : ∀ (s1 s2 : Rt) (j : Nat), s1.advance j = .ok s2 → s1.closed = s.closed → s1.gD = s.gD →
      s1.gO = s.gO → s1.gB = s.gB → s1.disk = s.disk → s1.aio = s.aio → s1.mem s.dbl = s.mem s.dbl →
      s2.encoded = s.encoded ∧ s2.outBytes = s.outBytes + 0 := by
    intro s1 s2 j hj e1 e2 e3 e4 e5 e6 e7
    unfold Rt.advance at hj
    split at hj <;> cases hj
    exact same _ e1 e2 e3 e4 e5 e6 e7
  have ntf : ∀ (s1 s2 : Rt) (w : Option Nat), s1.notify w = .ok s2 → s1.closed = s.closed →
      s1.gD = s.gD → s1.gO = s.gO → s1.gB = s.gB → s1.disk = s.disk → s1.aio = s.aio →
      s1.mem s.dbl = s.mem s.dbl →
      s2.encoded = s.encoded ∧ s2.outBytes = s.outBytes + 0 := by
    intro s1 s2 w hj e1 e2 e3 e4 e5 e6 e7
    unfold Rt.notify at hj
    split at hj
    · cases hj; exact same _ e1 e2 e3 e4 e5 e6 e7
    · split at hj <;> cases hj
      exact same _ e1 e2 e3 e4 e5 e6 e7
  cases l
  case write =>
    simp only [Rt.act, Rt.actIo] at ha
    split at ha
    · cases ha
    rename_i hpc
    simp only [ne_eq, Decidable.not_not] at hpc
    have hn := h.pcAio (.inr (.inl hpc))
    simp only [Rt.hands]
    split at ha <;> cases ha
    · rename_i he
      rw [he]; exact same _ rfl rfl rfl rfl rfl rfl rfl
    · refine ⟨by simp [Rt.encoded], ?_⟩
      have : s.comp ≠ s.dbl := by rw [h.ptr, h.ptr2]; simp
      simp only [Rt.outBytes, Rt.files, Rt.unwritten, hn, List.drop_zero, List.length_nil,
        Nat.add_zero]
      rw [upd_other _ _ this, h.ptr]
  case encode junk more => exact absurd rfl (hl junk more)
  all_goals simp only [Rt.act, Rt.hands] at ha ⊢
  case join t jk c =>
    simp only [Rt.actCtl] at ha
    split at ha <;> try cases ha
    rename_i hd
    split at ha <;> cases ha
    have h0 := h.pcAio (.inr (.inr hd))
    have h1 := h.aioNone h0
    have h2 := h.gB (h.dead hd)
    simp [Rt.encoded, Rt.outBytes, Rt.files, Rt.unwritten, h0, h1, h2, Rt.setThr]
  case disk n =>
    simp only [Rt.actIo] at ha
    split at ha
    · cases ha
    rename_i a hs
    split at ha <;> try cases ha
    rename_i hle
    split at ha <;> cases ha
    rename_i hlen
    refine ⟨rfl, ?_⟩
    have := h.aioOK a hs
    simp only [Rt.outBytes, Rt.files, Rt.unwritten, hs, List.map_append, List.map_cons, List.map_nil,
      List.sum_append, List.sum_cons, List.sum_nil, List.length_append, List.length_take,
      List.length_drop]
    omega
  case dict skip =>
    simp only [Rt.actScan] at ha
    repeat' split at ha
    all_goals cases ha
    · exact same _ rfl rfl rfl rfl rfl rfl rfl
    · exact same _ rfl rfl rfl rfl rfl rfl (upd_other _ _ (by rw [h.ptr2]; simp))
  case aio =>
    simp only [Rt.actIo] at ha
    repeat' split at ha
    all_goals cases ha
    · exact same _ rfl rfl rfl rfl rfl rfl rfl
    · rename_i a hs hd
      refine ⟨by simp [Rt.encoded], ?_⟩
      obtain ⟨a1, a2, a3⟩ := h.aioOK a hs
      simp only [Rt.outBytes, Rt.files, Rt.unwritten, hs, hd, a1, a2, List.drop_length,
        Nat.add_zero]
    · exact same _ rfl rfl rfl rfl rfl rfl rfl
  all_goals
    simp only [Rt.actLog, Rt.actBuf, Rt.actCtl, Rt.actScan, Rt.actIo] at ha
    repeat' split at ha
    all_goals first
      | (cases ha; done)
      | (cases ha; exact same _ rfl rfl rfl rfl rfl rfl rfl)
      | exact adv _ _ _ ha rfl rfl rfl rfl rfl rfl rfl
      | exact ntf _ _ _ ha rfl rfl rfl rfl rfl rfl rfl

/-- The counters agree with what was encoded and written. -/
structure Counted (s : Rt) (st : Stats) : Prop where
  logs : st.logs = s.encoded.length % 2 ^ 64
  bytesIn : st.bytesIn = queueSize s.sites (s.encoded.map Prod.snd) % 2 ^ 64
  bytesOut : st.bytesOut = s.outBytes % 2 ^ 64

theorem queueSize_append (sites : List Site) (a b : List LogCall) :
    queueSize sites (a ++ b) = queueSize sites a + queueSize sites b := by
  simp [queueSize]

theorem chunk_counted {cfg : Config} {prog : List Site} (hP : ProgOK cfg prog) {s s' : Rt}
    {junk : Nat → Nat} {more : List Byte} (h : RtInv s) (hF : FInv cfg prog s)
    (ha : s.act cfg prog (.encode junk more) = .ok s') {st : Stats} (hst : Counted s st) :
    Counted s' (st.chunk cfg s junk more) := by
  simp only [Rt.act, Rt.actScan] at ha
  split at ha
  · cases ha
  split at ha
  · cases ha
  split at ha
  · cases ha
  rename_i b hb
  obtain ⟨e, rs, k, h1, h2, h3, h4, h5, -, -⟩ := batch_step hP h hF exCk hb junk more
  have hall : ∀ x ∈ (s.thr s.cur).q.take s.rem, CallOK cfg s.sites x := by
    intro x hx
    apply hF.log s.cur
    rw [(h.thr s.cur).log]
    exact List.mem_append_right _ (List.mem_of_mem_take hx)
  obtain ⟨ms', hms'⟩ := CallOK.all_prints hall b exCk
  have hq := queue_of_prints hms'
  have h1' := h1
  simp only [s.msgBytes_eq] at h1'
  obtain ⟨k', k1, k2, k3⟩ := batch_events (st := s.enc) hF.enc hq (by simp only [Rt.enc]; omega) h1'
  have hkk : k' = k := by
    have := countBytes_ok (size := s.msgSize) (cs := (s.thr s.cur).q.take s.rem)
      (fun x hx => by have := (hall x hx).size.1; rw [s.msgSize_eq]; omega) k1
    have e1 : (queueSize s.sites (((s.thr s.cur).q.take s.rem).take k)) =
        ((((s.thr s.cur).q.take s.rem).take k').map s.msgSize).sum := by
      have : queueSize s.sites (((s.thr s.cur).q.take s.rem).take k) =
        queueSize s.sites (((s.thr s.cur).q.take s.rem).take k') := by
        have := k3
        simp only [Rt.enc] at this
        omega
      rw [this, s.msgSize_eq]; rfl
    rw [e1, this] at h3
    exact Option.some.inj h3
  subst hkk
  simp only [Rt.enc] at k2
  rw [h1] at ha
  simp only [Stats.chunk, hb, s.msgBytes_eq]
  rw [k2, h1']
  simp only
  have hdbl : s.encPtr ≠ s.dbl := by rw [h.ptr2]; simp
  have hout : ∀ s2 : Rt, s2.closed = s.closed → s2.disk = s.disk → s2.aio = s.aio →
      s2.mem s.dbl = s.mem s.dbl → s2.outBytes = s.outBytes := by
    intro s2 e1 e5 e6 e7
    simp only [Rt.outBytes, Rt.files, Rt.unwritten, e1, e5, e6]
    cases hs : s.aio with
    | none => rfl
    | some a => simp only [(h.aioOK a hs).1, e7]
  have hpos := (queueBytes_length (all := s.sites) (cs := ((s.thr s.cur).q.take s.rem).take k')
    (fun x hx => hq x (List.mem_of_mem_take hx))).2
  simp only at ha
  split at ha
  · rename_i hn
    have hn' : queueSize s.sites (((s.thr s.cur).q.take s.rem).take k') = 0 := by exact_mod_cast hn
    have hk0 : k' = 0 := by rw [hn', List.length_take] at hpos; omega
    rw [if_pos hn, hk0]
    unfold Rt.advance at ha
    split at ha <;> cases ha
    refine ⟨?_, ?_, ?_⟩
    · simp only [hst.logs, Rt.encoded, Rt.setEnc]; omega
    · simp only [hst.bytesIn, Rt.encoded, Rt.setEnc]
    · simp only [hst.bytesOut]
      refine congrArg (· % 2 ^ 64) (Eq.symm ?_)
      exact hout _ rfl rfl rfl (upd_other _ _ hdbl.symm)
  · rename_i hn
    rw [if_neg hn]
    rw [Int.toNat_natCast, h3] at ha
    simp only at ha
    have fin : ∀ s2 : Rt, s2.sites = s.sites → s2.encoded = s.encoded ++
        (((s.thr s.cur).q.take s.rem).take k').map (fun c => (s.cur, c)) →
        s2.outBytes = s.outBytes → Counted s2
          { st with logs := (st.logs + k') % 2 ^ 64
                    bytesIn := (st.bytesIn + ((queueSize s.enc.all
                      (((s.thr s.cur).q.take s.rem).take k') : Nat) : Int).toNat) % 2 ^ 64 } := by
      intro s2 e0 e1 e2
      refine ⟨?_, ?_, ?_⟩
      · simp only [hst.logs, e1, List.length_append, List.length_map]
        rw [List.length_take, Nat.min_eq_left k1]
        omega
      · simp only [hst.bytesIn, e0, e1, List.map_append, queueSize_append, List.map_map, Rt.enc,
          Int.toNat_natCast]
        have : (Prod.snd ∘ fun c : LogCall => (s.cur, c)) = id := rfl
        rw [this, List.map_id]
        omega
      · simp only [hst.bytesOut, e2]
    split at ha
    · unfold Rt.advance at ha
      split at ha <;> cases ha
      exact fin _ rfl (by simp [Rt.encoded, Rt.setEnc, Rt.setThr])
        (hout _ rfl rfl rfl (upd_other _ _ hdbl.symm))
    · cases ha
      exact fin _ rfl (by simp [Rt.encoded, Rt.setEnc, Rt.setThr])
        (hout _ rfl rfl rfl (upd_other _ _ hdbl.symm))

end NanoLog
