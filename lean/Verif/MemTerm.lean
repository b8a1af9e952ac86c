import Verif.MicroMemSim

/-! Progress of the decoder with memory, in both modes: every loop consumes input. -/

namespace NanoLog

theorem nextHeader_progress {bf bf' : BufFrag} {mem' : List Byte} (h : nextHeader bf mem' = some bf') :
    bf'.mem.length ≤ mem'.length ∧ bf'.stor = bf.stor ∧ (bf'.hasMore = true → bf'.mem.length < mem'.length) := by
  unfold nextHeader at h
  simp only at h
  split at h
  · rw [← Option.some.inj h]; simp
  · split at h
    · cases h
    · rw [← Option.some.inj h]; simp
    next hh =>
      have := decompressLogHeader_consumes hh
      rw [← Option.some.inj h]
      exact ⟨by simp only; omega, rfl, fun _ => by simp only; omega⟩

theorem decompressNextP_progress {ck : Checkpoint} {d : PDict} {bf bf' : BufFrag} {m : Option OutMsg}
    (h : decompressNextP ck d bf = some (m, bf')) :
    bf'.mem.length ≤ bf.mem.length ∧ (bf'.hasMore = true → bf'.mem.length < bf.mem.length) := by
  unfold decompressNextP at h
  split at h
  · simp only [Option.some.injEq, Prod.mk.injEq] at h
    rw [← h.2]; simp
  · split at h
    · cases h
    · split at h
      · cases h
      next hd =>
        have hle := decodeArgs_le hd
        simp only [Option.map_eq_some_iff, Prod.mk.injEq] at h
        obtain ⟨b, hb, -, rfl⟩ := h
        obtain ⟨h1, -, h2⟩ := nextHeader_progress hb
        exact ⟨by omega, fun hm => by have := h2 hm; omega⟩

theorem drainP_fuel (ck : Checkpoint) (d : PDict) (n : Nat) (bf : BufFrag) (out : List OutMsg)
    (hn : bf.mem.length + 1 ≤ n) (k : Nat) :
    drainP ck d (n + k) bf out = drainP ck d n bf out ∧
    (∀ bf' out', drainP ck d n bf out = some (bf', out') → bf'.hasMore = false) := by
  induction n generalizing bf out with
  | zero => omega
  | succ n ih =>
    rw [Nat.succ_add]
    simp only [drainP]
    cases hm : bf.hasMore with
    | false =>
      simp only [Bool.false_eq_true, if_false, true_and]
      rintro bf' out' h
      simp only [Option.some.injEq, Prod.mk.injEq] at h
      rw [← h.1]; exact hm
    | true =>
      simp only [if_true]
      cases hd : decompressNextP ck d bf with
      | none => simp
      | some p =>
        obtain ⟨m, bf1⟩ := p
        obtain ⟨h1, h2⟩ := decompressNextP_progress hd
        simp only
        cases hm1 : bf1.hasMore with
        | true => exact ih bf1 _ (by have := h2 hm1; omega)
        | false =>
          have e : ∀ j, drainP ck d j bf1 (out ++ m.toList) = some (bf1, out ++ m.toList) := by
            intro j; cases j <;> simp [drainP, hm1]
          rw [e, e]
          refine ⟨rfl, ?_⟩
          rintro bf' out' h
          simp only [Option.some.injEq, Prod.mk.injEq] at h
          rw [← h.1]; exact hm1

theorem skipFrags_le (raw : List Byte) (newEnd n : Nat) : ∀ {pos pos' : Nat},
    skipFrags raw newEnd n pos = some pos' → pos ≤ pos' := by
  induction n with
  | zero => intro pos pos' h; simp only [skipFrags, Option.some.injEq] at h; omega
  | succ n ih =>
    intro pos pos' h
    rw [skipFrags] at h
    split at h
    · split at h
      · split at h
        · cases h
        · have := ih h; omega
      · cases h
    · simp only [Option.some.injEq] at h; omega

theorem indexLoop_fuel (raw : List Byte) (newEnd n : Nat) (k : Nat) : ∀ (pos : Nat) (ptrs : List Nat),
    newEnd - pos + 1 ≤ n → indexLoop raw newEnd (n + k) pos ptrs = indexLoop raw newEnd n pos ptrs ∧
    ∀ pos' ptrs', indexLoop raw newEnd n pos ptrs = some (pos', ptrs') → newEnd ≤ pos' := by
  induction n with
  | zero => intro pos ptrs h; omega
  | succ n ih =>
    intro pos ptrs hn
    rw [Nat.succ_add]
    simp only [indexLoop]
    split
    next hlt =>
      split
      · simp
      next fm _ _ =>
        split
        · simp
        next pos1 hs =>
          have := skipFrags_le _ _ _ hs
          exact ih pos1 _ (by omega)
    next hge =>
      refine ⟨rfl, fun pos' ptrs' h => ?_⟩
      simp only [Option.some.injEq, Prod.mk.injEq] at h
      omega

theorem readDictLoopM_fuel (n done total : Nat) (d : PDict) (f : FileSt) (hn : f.inp.length + 1 ≤ n) (k : Nat) :
    readDictLoopM (n + k) done total d f = readDictLoopM n done total d f := by
  induction n generalizing done d f with
  | zero => omega
  | succ n ih =>
    rw [Nat.succ_add]
    simp only [readDictLoopM]
    by_cases hc : done < total ∧ f.eof = false
    · rw [if_pos hc, if_pos hc]
      cases hr : readLogInfo f with
      | none => rfl
      | some p =>
        obtain ⟨o, f1⟩ := p
        cases o with
        | none => rfl
        | some q =>
          obtain ⟨i, m⟩ := q
          have := readLogInfo_progress hr
          simp only
          cases ha : d.addInfo i with
          | none => rfl
          | some d1 => exact ih (done + m) d1 f1 (by omega)
    · rw [if_neg hc, if_neg hc]

theorem readLogInfo_measure {f f' : FileSt} {o : Option (LogInfo × Nat)} (h : readLogInfo f = some (o, f')) :
    f'.measure ≤ f.measure := by
  unfold readLogInfo at h
  have r1 := read_measure 9 f
  generalize f.read 9 = x at h r1
  obtain ⟨cli, g1⟩ := x
  simp only at h r1
  split at h
  · simp only [Option.some.injEq, Prod.mk.injEq] at h
    rw [← h.2]; omega
  · have r2 := read_measure (unle ((cli.drop 5).take 2)) g1
    generalize g1.read (unle ((cli.drop 5).take 2)) = y at h r2
    obtain ⟨fileB, g2⟩ := y
    simp only at h r2
    have r3 := read_measure (unle (cli.drop 7)) g2
    generalize g2.read (unle (cli.drop 7)) = z at h r3
    obtain ⟨fmtB, g3⟩ := z
    simp only at h r3
    split at h
    · simp only [Option.some.injEq, Prod.mk.injEq] at h
      rw [← h.2]; omega
    · split at h
      · simp only [Option.some.injEq, Prod.mk.injEq] at h
        rw [← h.2]; omega
      · cases h

theorem readDictLoopM_measure (n : Nat) : ∀ {done total : Nat} {d d' : PDict} {f f' : FileSt} {ok : Bool},
    readDictLoopM n done total d f = some (ok, d', f') → f'.measure ≤ f.measure := by
  induction n with
  | zero =>
    intro done total d d' f f' ok h
    simp only [readDictLoopM, Option.some.injEq, Prod.mk.injEq] at h
    rw [h.2.2]; exact Nat.le_refl _
  | succ n ih =>
    intro done total d d' f f' ok h
    rw [readDictLoopM] at h
    split at h
    · split at h
      · cases h
      next hr =>
        simp only [Option.some.injEq, Prod.mk.injEq] at h
        rw [← h.2.2]; exact readLogInfo_measure hr
      next hr =>
        split at h
        · cases h
        · exact Nat.le_trans (ih h) (readLogInfo_measure hr)
    · simp only [Option.some.injEq, Prod.mk.injEq] at h
      rw [h.2.2]; exact Nat.le_refl _

theorem readDictionaryFragmentM_measure {d d' : PDict} {f f' : FileSt} {ok : Bool} (hf : f.inp ≠ [])
    (h : readDictionaryFragmentM d f = some (ok, d', f')) : f'.measure < f.measure := by
  unfold readDictionaryFragmentM at h
  have r1 := read_measure_lt (n := 8) (by omega) hf
  generalize f.read 8 = x at h r1
  obtain ⟨hdr, f1⟩ := x
  simp only at h r1
  split at h
  · simp only [Option.some.injEq, Prod.mk.injEq] at h
    rw [← h.2.2]; exact r1
  · have := readDictLoopM_measure _ h; omega

theorem readDictP_measure {ck ck' : Checkpoint} {d d' : PDict} {f f' : FileSt} {ok : Bool} (hf : f.inp ≠ [])
    (h : readDictP ck d f = some (ok, ck', d', f')) : f'.measure < f.measure := by
  unfold readDictP at h
  have r1 := read_measure_lt (n := 40) (by omega) hf
  generalize f.read 40 = x at h r1
  obtain ⟨bs, f1⟩ := x
  simp only at h r1
  split at h
  · simp only [Option.some.injEq, Prod.mk.injEq] at h
    rw [← h.2.2.2]; exact r1
  · split at h
    next b c _ _ =>
      split at h
      · cases h
      · have r2 := read_measure c.newBytes f1
        generalize f1.read c.newBytes = y at h r2
        obtain ⟨md, f2⟩ := y
        simp only at h r2
        split at h
        · cases h
        · split at h
          · simp only [Option.some.injEq, Prod.mk.injEq] at h
            rw [← h.2.2.2]; omega
          · split at h
            · cases h
            · simp only [Option.some.injEq, Prod.mk.injEq] at h
              rw [← h.2.2.2]; omega
    · cases h

theorem stepM_measure {s s' : PDec} (he : s.file.eof = false) (h : stepM s = some s') :
    s'.file.measure < s.file.measure := by
  unfold stepM stepP at h
  have hp := skipPad_measure_lt (f := s.file) he
  have hne : (s.file.peek).1 ≠ .invalid → s.file.inp ≠ [] ∧ (s.file.peek).2 = s.file := by
    unfold FileSt.peek
    cases hi : s.file.inp with
    | nil => simp
    | cons b bs => simp
  generalize s.file.peek = p at h hp hne
  obtain ⟨e, f⟩ := p
  simp only at hp hne
  cases e with
  | extent =>
    obtain ⟨h1, h2⟩ := hne (by simp)
    subst h2
    simp only at h
    split at h
    · cases h
    next hr => rw [← Option.some.inj h]; exact readBufferExtent_measure h1 hr
    next hr =>
      split at h
      · cases h
      · rw [← Option.some.inj h]; exact readBufferExtent_measure h1 hr
  | checkpoint =>
    obtain ⟨h1, h2⟩ := hne (by simp)
    subst h2
    simp only at h
    split at h
    · cases h
    next hr => rw [← Option.some.inj h]; exact readDictP_measure h1 hr
  | dict =>
    obtain ⟨h1, h2⟩ := hne (by simp)
    subst h2
    simp only at h
    split at h
    · cases h
    next hr => rw [← Option.some.inj h]; exact readDictionaryFragmentM_measure h1 hr
  | invalid =>
    simp only at h
    rw [← Option.some.inj h]; exact hp rfl

theorem loopM_fuel (n : Nat) (s : PDec) (hn : s.file.measure ≤ n) (k : Nat) :
    loopM (n + k) s = loopM n s ∧
    (∀ s', loopM n s = some s' → ¬ (s'.file.eof = false ∧ s'.good = true)) := by
  induction n generalizing s with
  | zero =>
    have he : s.file.eof = true := by
      unfold FileSt.measure at hn
      cases hh : s.file.eof <;> simp [hh] at hn ⊢
    refine ⟨?_, ?_⟩
    · cases k with
      | zero => rfl
      | succ k => simp [loopM, he]
    · intro s' h; simp [loopM] at h; subst h; simp [he]
  | succ n ih =>
    rw [Nat.succ_add]
    simp only [loopM]
    by_cases hc : s.file.eof = false ∧ s.good = true
    · simp only [hc, and_self, if_true]
      cases hs : stepM s with
      | none => simp
      | some s1 =>
        have := stepM_measure hc.1 hs
        simp only
        exact ih s1 (by omega)
    · rw [if_neg hc, if_neg hc]
      refine ⟨rfl, ?_⟩
      rintro s' h
      simp only [Option.some.injEq] at h; subst h; exact hc

end NanoLog
