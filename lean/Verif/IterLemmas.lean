import Verif.OpsLemmas

/-! Helper lemmas about the iterator interface and about truncated files. -/

namespace NanoLog

/-! ## Fuel of the reading loop -/

theorem peek_cases (f : FileSt) :
    ((f.peek).1 ≠ .invalid → f.inp ≠ [] ∧ (f.peek).2 = f) := by
  unfold FileSt.peek
  cases hi : f.inp with
  | nil => simp
  | cons b bs => simp

theorem iterLoop_fuel (n : Nat) (s : Dec) (hn : s.file.measure ≤ n) (k : Nat) :
    iterLoop (n + k) s = iterLoop n s ∧
    (∀ s', iterLoop n s = some (true, s') →
      ¬ (s'.bf.hasMore = false ∧ s'.file.eof = false ∧ s'.good = true)) := by
  induction n generalizing s with
  | zero =>
    have he : s.file.eof = true := by
      unfold FileSt.measure at hn
      cases hh : s.file.eof <;> simp [hh] at hn ⊢
    refine ⟨?_, ?_⟩
    · cases k with
      | zero => rfl
      | succ k => simp [iterLoop, he]
    · intro s' h; simp [iterLoop] at h; subst h; simp [he]
  | succ n ih =>
    rw [Nat.succ_add]
    simp only [iterLoop]
    by_cases hc : s.bf.hasMore = false ∧ s.file.eof = false ∧ s.good = true
    · rw [if_pos hc, if_pos hc]
      have hp := skipPad_measure_lt (f := s.file) hc.2.1
      have hne := peek_cases s.file
      generalize s.file.peek = p at hp hne ⊢
      obtain ⟨e, f⟩ := p
      simp only at hp hne ⊢
      cases e with
      | extent =>
        obtain ⟨h1, rfl⟩ := hne (by simp)
        simp only
        cases hr : readBufferExtent s.bf s.file with
        | none => simp
        | some q =>
          obtain ⟨ok, np, bf, f1⟩ := q
          have := readBufferExtent_measure h1 hr
          cases ok with
          | false => simp
          | true => exact ih _ (by simp only; omega)
      | checkpoint =>
        obtain ⟨h1, rfl⟩ := hne (by simp)
        simp only
        cases hr : readDictionary s.ck s.dict s.file with
        | none => simp
        | some q =>
          obtain ⟨ok, ck, d, f1⟩ := q
          have := readDictionary_measure h1 hr
          cases ok with
          | false => simp
          | true => exact ih _ (by simp only; omega)
      | dict =>
        obtain ⟨h1, rfl⟩ := hne (by simp)
        simp only
        cases hr : readDictionaryFragment s.dict s.file with
        | none => simp
        | some q =>
          obtain ⟨ok, d, f1⟩ := q
          have := readDictionaryFragment_measure h1 hr
          exact ih _ (by simp only; omega)
      | invalid =>
        have := hp rfl
        exact ih _ (by simp only; omega)
    · rw [if_neg hc, if_neg hc]
      refine ⟨rfl, ?_⟩
      rintro s' h
      simp only [Option.some.injEq, Prod.mk.injEq, true_and] at h; subst h; exact hc

theorem measure_le (f : FileSt) : f.measure ≤ f.inp.length + 1 := by
  unfold FileSt.measure; split <;> omega

/-- The reading loop run to its end. -/
def iterRead (s : Dec) : Option (Bool × Dec) := iterLoop (s.file.inp.length + 2) s

theorem iterRead_eq {s : Dec} {n : Nat} (h : s.file.measure ≤ n) : iterLoop n s = iterRead s := by
  have hm := measure_le s.file
  have h1 := (iterLoop_fuel s.file.measure s (Nat.le_refl _) (n - s.file.measure)).1
  have h2 := (iterLoop_fuel s.file.measure s (Nat.le_refl _)
    (s.file.inp.length + 2 - s.file.measure)).1
  rw [iterRead, show n = s.file.measure + (n - s.file.measure) by omega, h1,
    show s.file.inp.length + 2 = s.file.measure + (s.file.inp.length + 2 - s.file.measure) by omega,
    h2]

/-- If one iteration of the reading loop leads from `s` to `s1`, both calls of the iterator
do the same. -/
theorem iterRead_step {s s1 : Dec} (h : ∀ n, iterLoop (n + 1) s = iterLoop n s1) :
    iterRead s = iterRead s1 := by
  have h1 := h (s.file.measure + s1.file.measure)
  rw [iterRead_eq (by omega), iterRead_eq (by omega)] at h1
  exact h1

/-- A decoder between two records, ready to read on. -/
structure Dec.Ready (s : Dec) : Prop where
  more : s.bf.hasMore = false
  eof : s.file.eof = false
  good : s.good = true

theorem next_eq {s s1 : Dec} (h : s.Ready) (h1 : s1.Ready) (hr : iterRead s = iterRead s1) :
    s.next = s1.next := by
  unfold Dec.next
  rw [if_neg (by simp [h.more]), if_neg (by simp [h.eof, h.good]), if_neg (by simp [h1.more]),
    if_neg (by simp [h1.eof, h1.good])]
  simp only [iterRead] at hr
  rw [hr]

theorem iterate_eq {s s1 : Dec} (h : s.next = s1.next) (n : Nat) :
    s.iterate (n + 1) = s1.iterate (n + 1) := by
  simp only [Dec.iterate, h]

theorem iterLoop_pad {s : Dec} (h : s.Ready) (hp : (s.file.peek).1 = .invalid) (n : Nat) :
    iterLoop (n + 1) s = iterLoop n { s with file := (s.file.peek).2.skipPad } := by
  simp only [iterLoop]
  rw [if_pos ⟨h.more, h.eof, h.good⟩]
  generalize s.file.peek = p at hp ⊢
  obtain ⟨e, f⟩ := p
  simp only at hp
  subst hp
  rfl

theorem iterRead_skipPad {s : Dec} (h : s.Ready) :
    iterRead { s with file := s.file.skipPad } = iterRead s := by
  cases hi : s.file.inp with
  | nil =>
    have hp : (s.file.peek) = (.invalid, ⟨[], true⟩) := by
      simp [FileSt.peek, hi]
    rw [iterRead_step (iterLoop_pad h (by rw [hp]))]
    congr 2
    rw [hp]
    simp [FileSt.skipPad, h.eof, hi]
  | cons b bs =>
    by_cases hb : entryType b = .invalid
    · have hp : (s.file.peek) = (.invalid, s.file) := by simp [FileSt.peek, hi, hb]
      rw [iterRead_step (iterLoop_pad h (by rw [hp]))]
      rw [hp]
    · have : s.file.skipPad = s.file := by
        have he := h.eof
        unfold FileSt.skipPad
        rw [hi, List.dropWhile_cons]
        simp only [hb, decide_false, Bool.false_eq_true, if_false, he]
        rw [← hi, ← he]
      rw [this]

/-! ## Iterating over well-formed records -/

theorem iterate_at {sites : List Site} {ck : Checkpoint} {tid : Nat} {cs : List LogCall}
    {ms : List OutMsg} (hp : List.Forall₂ (Prints sites tid ck) cs ms) (s : Dec)
    (hd : Describes s.dict sites) (hck : s.ck = ck) (ha : At sites s.bf cs)
    (ht : s.bf.tid = tid) :
    ∃ bf', (∀ n, s.iterate (ms.length + n) = { s with bf := bf', out := s.out ++ ms }.iterate n) ∧
      bf'.hasMore = false ∧ bf'.stor.length = s.bf.stor.length := by
  induction hp generalizing s with
  | nil => exact ⟨s.bf, fun n => by simp, ha, rfl⟩
  | @cons c m cs ms h hrest ih =>
    have hm : s.bf.hasMore = true := ha.1
    obtain ⟨bf', h1, h2, h3, h4⟩ := decompressNext_at hd ha (by rw [ht]; exact h)
    obtain ⟨bf'', h5, h6, h7⟩ := ih { s with bf := bf', out := s.out ++ [m] } hd hck h2
      (by simp only; rw [h3, ht])
    refine ⟨bf'', fun n => ?_, h6, by rw [h7]; exact h4⟩
    have hn : s.next = some (true, some m, { s with bf := bf', out := s.out ++ [m] }) := by
      rw [Dec.next, if_pos hm, hck, h1]
      rfl
    rw [List.length_cons, show ms.length + 1 + n = (ms.length + n) + 1 by omega, Dec.iterate, hn]
    simp only
    rw [h5 n]
    simp

theorem next_extent {s s1 : Dec} (h : s.Ready) (hm : s1.bf.hasMore = true)
    (hl : ∀ n, iterLoop (n + 1) s = iterLoop n s1)
    (hd : ∃ m bf, decompressNext s1.ck s1.dict s1.bf = some (some m, bf)) : s.next = s1.next := by
  have h1 : iterRead s1 = some (true, s1) := by
    rw [iterRead]; simp [iterLoop, hm]
  have h2 := iterRead_step hl
  rw [h1] at h2
  unfold Dec.next
  rw [if_neg (by simp [h.more]), if_neg (by simp [h.eof, h.good]), if_pos hm]
  simp only [iterRead] at h2
  rw [h2]
  obtain ⟨m, bf, hd⟩ := hd
  simp only [hd, Option.isSome_some]

/-- Iterating over well-formed records followed by any bytes. -/
theorem iterate_leads {cap : Nat} {ck : Checkpoint} {known : List Site} {rs : List Rec}
    {ms : List OutMsg} (h : Holds cap ck known rs ms) (tail : List Byte) (s : Dec)
    (hr : s.Ready) (hf : s.file = ⟨recBytes rs ++ tail, false⟩) (hck : s.ck = ck)
    (hd : Describes s.dict known) (hb : s.bf.stor.length = cap) :
    ∃ s1 : Dec, (∀ n, s.iterate (ms.length + (n + 1)) = s1.iterate (n + 1)) ∧ s1.Ready ∧
      s1.out = s.out ++ ms ∧
      s1.file = ⟨tail, false⟩ ∧ s1.ck = (after ck known rs).1 ∧
      Describes s1.dict (after ck known rs).2 ∧ s1.bf.stor.length = cap := by
  induction h generalizing s with
  | nil =>
    exact ⟨s, fun _ => by simp, hr, by simp, by simpa [recBytes] using hf, hck, hd, hb⟩
  | @ckpt ck known junk c rs ms hc hj h ih =>
    obtain ⟨b, bs, hbb, ht⟩ := checkpointBytes_head junk c
    have hfile : s.file = ⟨checkpointBytes junk c ++ (recBytes rs ++ tail), false⟩ := by
      rw [hf]; simp [recBytes, Rec.bytes]
    have hpk : s.file.peek = (.checkpoint, s.file) := by
      rw [hfile]; simp [FileSt.peek, hbb, ht]
    have hr2 : Dec.Ready { s with file := ⟨recBytes rs ++ tail, false⟩, ck := c
                                  dict := Dict.empty } := ⟨hr.more, rfl, hr.good⟩
    obtain ⟨s1, h1, h2⟩ := ih _ hr2 rfl rfl describes_empty hb
    refine ⟨s1, fun n => ?_, h2⟩
    rw [← h1 n, ← Nat.add_assoc]
    refine iterate_eq (next_eq hr hr2 (iterRead_step fun n => ?_)) _
    rw [iterLoop, if_pos ⟨hr.more, hr.eof, hr.good⟩, hpk]
    simp only
    rw [hfile, readDictionary_ok hc]
  | @dict ck known total new rs ms hn hl h ih =>
    obtain ⟨b, bs, hbb, ht⟩ := dictBytes_head total new
    have hfile : s.file = ⟨dictBytes total new ++ (recBytes rs ++ tail), false⟩ := by
      rw [hf]; simp [recBytes, Rec.bytes]
    have hpk : s.file.peek = (.dict, s.file) := by
      rw [hfile]; simp [FileSt.peek, hbb, ht]
    obtain ⟨d', hd1, hd2⟩ := readDictionaryFragment_ok hn total hl s.dict hd (recBytes rs ++ tail)
    have hr2 : Dec.Ready { s with file := ⟨recBytes rs ++ tail, false⟩, good := true
                                  dict := d' } := ⟨hr.more, rfl, rfl⟩
    obtain ⟨s1, h1, h2⟩ := ih _ hr2 rfl hck hd2 hb
    refine ⟨s1, fun n => ?_, h2⟩
    rw [← h1 n, ← Nat.add_assoc]
    refine iterate_eq (next_eq hr hr2 (iterRead_step fun n => ?_)) _
    rw [iterLoop, if_pos ⟨hr.more, hr.eof, hr.good⟩, hpk]
    simp only
    rw [hfile, hd1]
  | @ext ck known tid np cs body rs ms' ms hen hp ht hl hcap h ih =>
    obtain ⟨b, bs, hbb, htp⟩ := extentBytes_head tid np body ht
    have hfile : s.file = ⟨extentBytes tid np body ++ (recBytes rs ++ tail), false⟩ := by
      rw [hf]; simp [recBytes, Rec.bytes]
    have hpk : s.file.peek = (.extent, s.file) := by
      rw [hfile]; simp [FileSt.peek, hbb, htp]
    obtain ⟨bf', r1, r2, r3, r4⟩ := readBufferExtent_at s.bf hen np (recBytes rs ++ tail) false ht
      (by omega) (by omega)
    have hl1 : ∀ n, iterLoop (n + 1) s =
        iterLoop n { s with file := ⟨recBytes rs ++ tail, false⟩, bf := bf' } := by
      intro n
      rw [iterLoop, if_pos ⟨hr.more, hr.eof, hr.good⟩, hpk]
      simp only
      rw [hfile, r1]
    obtain ⟨bf'', q1, q2, q3⟩ := iterate_at hp
      { s with file := ⟨recBytes rs ++ tail, false⟩, bf := bf' } hd hck r2 r3
    simp only at q1 q3
    obtain ⟨s1, h1, h1r, h2, h3⟩ := ih { s with file := ⟨recBytes rs ++ tail, false⟩, bf := bf''
                                                out := s.out ++ ms' } ⟨q2, rfl, hr.good⟩ rfl hck hd
      (by simp only; omega)
    refine ⟨s1, fun n => ?_, h1r, by rw [h2]; simp, h3⟩
    have hnext : s.next = ({ s with file := ⟨recBytes rs ++ tail, false⟩, bf := bf' } : Dec).next := by
      cases hp with
      | nil => exact next_eq hr ⟨r2, rfl, hr.good⟩ (iterRead_step hl1)
      | @cons c m cs ms hpr _ =>
        refine next_extent hr r2.1 hl1 ?_
        obtain ⟨bfx, x1, -⟩ := decompressNext_at (d := s.dict) (ck := ck) (m := m) hd r2
          (by rw [r3]; exact hpr)
        exact ⟨m, bfx, by simp only [hck]; exact x1⟩
    have e1 : (ms' ++ ms).length + (n + 1) = ms'.length + (ms.length + (n + 1)) := by
      simp only [List.length_append]; omega
    rw [e1]
    have e2 : ms'.length + (ms.length + (n + 1)) = (ms'.length + (ms.length + n)) + 1 := by omega
    rw [e2, iterate_eq hnext, ← e2, q1, h1]
  | @pad ck known bs rs ms hz h ih =>
    have hfile : s.file = ⟨bs ++ (recBytes rs ++ tail), false⟩ := by
      rw [hf]; simp [recBytes, Rec.bytes]
    have hr2 : Dec.Ready { s with file := ⟨recBytes rs ++ tail, false⟩ } := ⟨hr.more, rfl, hr.good⟩
    obtain ⟨s1, h1, h2⟩ := ih _ hr2 rfl hck hd hb
    refine ⟨s1, fun n => ?_, h2⟩
    rw [← h1 n, ← Nat.add_assoc]
    refine iterate_eq (next_eq hr hr2 ?_) _
    rw [← iterRead_skipPad hr2, ← iterRead_skipPad hr, hfile]
    simp only
    rw [skipPad_append hz]

/-- At the end of the file the iterator returns `false`. -/
theorem iterate_end {s : Dec} (hr : s.Ready) (hf : s.file = ⟨[], false⟩) (n : Nat) :
    ∃ s', s.iterate (n + 1) = some s' ∧ s'.out = s.out ∧ s'.good = true ∧
      s'.file = ⟨[], true⟩ ∧ s'.bf.hasMore = false ∧ s'.bf.stor = s.bf.stor := by
  have hrd : iterRead s = some (true, { s with file := ⟨[], true⟩ }) := by
    rw [← iterRead_skipPad hr]
    simp [hf, FileSt.skipPad, iterRead, iterLoop]
  refine ⟨{ s with file := ⟨[], true⟩, bf := { s.bf with hasMore := false } }, ?_, rfl, hr.good,
    rfl, rfl, rfl⟩
  have hn : s.next = some (false, none,
      { s with file := ⟨[], true⟩, bf := { s.bf with hasMore := false } }) := by
    unfold Dec.next
    simp only [iterRead] at hrd
    rw [if_neg (by simp [hr.more]), if_neg (by simp [hr.eof, hr.good]), hrd]
    simp [decompressNext, hr.more]
  rw [Dec.iterate, hn]

end NanoLog
