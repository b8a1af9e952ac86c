import Verif.MemIter
import Verif.MemTerm
import Verif.IterLemmas
import Verif.PreDec

/-! Helper lemmas about the iterator of the decoder with memory. -/

namespace NanoLog

theorem decompressNextP_progress2 {ck : Checkpoint} {d : PDict} {bf bf' : BufFrag} {m : Option OutMsg}
    (h : decompressNextP ck d bf = some (m, bf')) :
    bf'.mem.length ≤ bf.mem.length ∧ bf'.stor = bf.stor ∧ (bf'.hasMore = true → bf'.mem.length < bf.mem.length) ∧
      (m.isSome = true → bf.hasMore = true) := by
  have hp := decompressNextP_progress h
  refine ⟨hp.1, ?_, hp.2, ?_⟩
  · unfold decompressNextP at h
    split at h
    · simp only [Option.some.injEq, Prod.mk.injEq] at h
      rw [← h.2]
    · split at h
      · cases h
      · split at h
        · cases h
        · simp only [Option.map_eq_some_iff, Prod.mk.injEq] at h
          obtain ⟨b, hb, -, rfl⟩ := h
          exact (nextHeader_progress hb).2.1
  · intro hm
    unfold decompressNextP at h
    split at h
    · simp only [Option.some.injEq, Prod.mk.injEq] at h
      rw [← h.1] at hm; cases hm
    next hc =>
      by_contra hn
      exact hc (.inr (by simpa using hn))

theorem iterLoopM_fuel (n : Nat) (s : PDec) (hn : s.file.measure ≤ n) (k : Nat) :
    iterLoopM (n + k) s = iterLoopM n s ∧
    (∀ s', iterLoopM n s = some (true, s') →
      ¬ (s'.bf.hasMore = false ∧ s'.file.eof = false ∧ s'.good = true)) := by
  induction n generalizing s with
  | zero =>
    have he : s.file.eof = true := by
      unfold FileSt.measure at hn
      cases hh : s.file.eof <;> simp [hh] at hn ⊢
    refine ⟨?_, ?_⟩
    · cases k with
      | zero => rfl
      | succ k => simp [iterLoopM, he]
    · intro s' h; simp [iterLoopM] at h; subst h; simp [he]
  | succ n ih =>
    rw [Nat.succ_add]
    simp only [iterLoopM]
    by_cases hc : s.bf.hasMore = false ∧ s.file.eof = false ∧ s.good = true
    · rw [if_pos hc, if_pos hc]
      have hp := skipPad_measure_lt (f := s.file) hc.2.1
      have hne := peek_cases s.file
      generalize s.file.peek = p at hp hne ⊢
      obtain ⟨e, f⟩ := p
      simp only at hp hne ⊢
      cases e with
      | extent =>
        obtain ⟨h1, rfl⟩ := hne (by simp)
        simp only
        cases hr : readBufferExtent s.bf s.file with
        | none => simp
        | some q =>
          obtain ⟨ok, np, bf, f1⟩ := q
          have := readBufferExtent_measure h1 hr
          cases ok with
          | false => simp
          | true => exact ih _ (by simp only; omega)
      | checkpoint =>
        obtain ⟨h1, rfl⟩ := hne (by simp)
        simp only
        cases hr : readDictP s.ck s.dict s.file with
        | none => simp
        | some q =>
          obtain ⟨ok, ck, d, f1⟩ := q
          have := readDictP_measure h1 hr
          cases ok with
          | false => simp
          | true => exact ih _ (by simp only; omega)
      | dict =>
        obtain ⟨h1, rfl⟩ := hne (by simp)
        simp only
        cases hr : readDictionaryFragmentM s.dict s.file with
        | none => simp
        | some q =>
          obtain ⟨ok, d, f1⟩ := q
          have := readDictionaryFragmentM_measure h1 hr
          exact ih _ (by simp only; omega)
      | invalid =>
        have := hp rfl
        exact ih _ (by simp only; omega)
    · rw [if_neg hc, if_neg hc]
      refine ⟨rfl, ?_⟩
      rintro s' h
      simp only [Option.some.injEq, Prod.mk.injEq, true_and] at h; subst h; exact hc

/-- The reading loop run to its end. -/
def iterReadM (s : PDec) : Option (Bool × PDec) := iterLoopM (s.file.inp.length + 2) s

theorem iterReadM_eq {s : PDec} {n : Nat} (h : s.file.measure ≤ n) : iterLoopM n s = iterReadM s := by
  have hm := measure_le s.file
  have h1 := (iterLoopM_fuel s.file.measure s (Nat.le_refl _) (n - s.file.measure)).1
  have h2 := (iterLoopM_fuel s.file.measure s (Nat.le_refl _)
    (s.file.inp.length + 2 - s.file.measure)).1
  rw [iterReadM, show n = s.file.measure + (n - s.file.measure) by omega, h1,
    show s.file.inp.length + 2 = s.file.measure + (s.file.inp.length + 2 - s.file.measure) by omega,
    h2]

/-- If one iteration of the reading loop leads from `s` to `s1`, both calls of the iterator
do the same. -/
theorem iterReadM_step {s s1 : PDec} (h : ∀ n, iterLoopM (n + 1) s = iterLoopM n s1) :
    iterReadM s = iterReadM s1 := by
  have h1 := h (s.file.measure + s1.file.measure)
  rw [iterReadM_eq (by omega), iterReadM_eq (by omega)] at h1
  exact h1

/-- A decoder between two records, ready to read on. -/
structure PDec.Ready (s : PDec) : Prop where
  more : s.bf.hasMore = false
  eof : s.file.eof = false
  good : s.good = true

theorem nextM_eq {s s1 : PDec} (h : s.Ready) (h1 : s1.Ready) (hr : iterReadM s = iterReadM s1) :
    s.next = s1.next := by
  unfold PDec.next
  rw [if_neg (by simp [h.more]), if_neg (by simp [h.eof, h.good]), if_neg (by simp [h1.more]),
    if_neg (by simp [h1.eof, h1.good])]
  simp only [iterReadM] at hr
  rw [hr]

theorem iterateM_eq {s s1 : PDec} (h : s.next = s1.next) (n : Nat) :
    s.iterate (n + 1) = s1.iterate (n + 1) := by
  simp only [PDec.iterate, h]

theorem iterLoopM_pad {s : PDec} (h : s.Ready) (hp : (s.file.peek).1 = .invalid) (n : Nat) :
    iterLoopM (n + 1) s = iterLoopM n { s with file := (s.file.peek).2.skipPad } := by
  simp only [iterLoopM]
  rw [if_pos ⟨h.more, h.eof, h.good⟩]
  generalize s.file.peek = p at hp ⊢
  obtain ⟨e, f⟩ := p
  simp only at hp
  subst hp
  rfl

theorem iterReadM_skipPad {s : PDec} (h : s.Ready) :
    iterReadM { s with file := s.file.skipPad } = iterReadM s := by
  cases hi : s.file.inp with
  | nil =>
    have hp : (s.file.peek) = (.invalid, ⟨[], true⟩) := by
      simp [FileSt.peek, hi]
    rw [iterReadM_step (iterLoopM_pad h (by rw [hp]))]
    congr 2
    rw [hp]
    simp [FileSt.skipPad, h.eof, hi]
  | cons b bs =>
    by_cases hb : entryType b = .invalid
    · have hp : (s.file.peek) = (.invalid, s.file) := by simp [FileSt.peek, hi, hb]
      rw [iterReadM_step (iterLoopM_pad h (by rw [hp]))]
      rw [hp]
    · have : s.file.skipPad = s.file := by
        have he := h.eof
        unfold FileSt.skipPad
        rw [hi, List.dropWhile_cons]
        simp only [hb, decide_false, Bool.false_eq_true, if_false, he]
        rw [← hi, ← he]
      rw [this]

theorem nextM_extent {s s1 : PDec} (h : s.Ready) (hm : s1.bf.hasMore = true)
    (hl : ∀ n, iterLoopM (n + 1) s = iterLoopM n s1)
    (hd : ∃ m bf, decompressNextP s1.ck s1.dict s1.bf = some (some m, bf)) : s.next = s1.next := by
  have h1 : iterReadM s1 = some (true, s1) := by
    rw [iterReadM]; simp [iterLoopM, hm]
  have h2 := iterReadM_step hl
  rw [h1] at h2
  unfold PDec.next
  rw [if_neg (by simp [h.more]), if_neg (by simp [h.eof, h.good]), if_pos hm]
  simp only [iterReadM] at h2
  rw [h2]
  obtain ⟨m, bf, hd⟩ := hd
  simp only [hd, Option.isSome_some]

/-- At the end of the file the iterator returns `false`. -/
theorem iterateM_end {s : PDec} (hr : s.Ready) (hf : s.file = ⟨[], false⟩) (n : Nat) :
    ∃ s', s.iterate (n + 1) = some s' ∧ s'.out = s.out ∧ s'.good = true ∧
      s'.file = ⟨[], true⟩ ∧ s'.bf.hasMore = false ∧ s'.bf.stor = s.bf.stor := by
  have hrd : iterReadM s = some (true, { s with file := ⟨[], true⟩ }) := by
    rw [← iterReadM_skipPad hr]
    simp [hf, FileSt.skipPad, iterReadM, iterLoopM]
  refine ⟨{ s with file := ⟨[], true⟩, bf := { s.bf with hasMore := false } }, ?_, rfl, hr.good,
    rfl, rfl, rfl⟩
  have hn : s.next = some (false, none,
      { s with file := ⟨[], true⟩, bf := { s.bf with hasMore := false } }) := by
    unfold PDec.next
    simp only [iterReadM] at hrd
    rw [if_neg (by simp [hr.more]), if_neg (by simp [hr.eof, hr.good]), hrd]
    simp [decompressNextP, hr.more]
  rw [PDec.iterate, hn]

theorem iterLoopM_progress (n : Nat) {s s1 : PDec} {r : Bool} (h : iterLoopM n s = some (r, s1)) :
    s1.bf.room = s.bf.room ∧
    ((s1.file.measure ≤ s.file.measure ∧ s1.bf = s.bf) ∨
     (s1.file.measure < s.file.measure ∧ s1.bf.mem.length ≤ s.bf.room)) := by
  induction n generalizing s with
  | zero =>
    simp only [iterLoopM, Option.some.injEq, Prod.mk.injEq] at h
    rw [← h.2]; simp
  | succ n ih =>
    simp only [iterLoopM] at h
    by_cases hc : s.bf.hasMore = false ∧ s.file.eof = false ∧ s.good = true
    · rw [if_pos hc] at h
      have hp := skipPad_measure_lt (f := s.file) hc.2.1
      have hne := peek_cases s.file
      generalize s.file.peek = p at hp hne h
      obtain ⟨e, f⟩ := p
      simp only at hp hne h
      cases e with
      | extent =>
        obtain ⟨h1, rfl⟩ := hne (by simp)
        simp only at h
        cases hr : readBufferExtent s.bf s.file with
        | none => simp [hr] at h
        | some q =>
          obtain ⟨ok, np, bf, f1⟩ := q
          have hm := readBufferExtent_measure h1 hr
          have hroom := readBufferExtent_room hr
          rw [hr] at h
          cases ok with
          | false =>
            simp only [Option.some.injEq, Prod.mk.injEq] at h
            rw [← h.2]; simp only
            refine ⟨hroom.1, .inr ⟨hm, by omega⟩⟩
          | true =>
            simp only at h
            have := ih h
            simp only at this
            refine ⟨by omega, .inr ?_⟩
            rcases this.2 with ⟨h2, h3⟩ | ⟨h2, h3⟩
            · rw [h3]; omega
            · omega
      | checkpoint =>
        obtain ⟨h1, rfl⟩ := hne (by simp)
        simp only at h
        cases hr : readDictP s.ck s.dict s.file with
        | none => simp [hr] at h
        | some q =>
          obtain ⟨ok, ck, d, f1⟩ := q
          have hm := readDictP_measure h1 hr
          rw [hr] at h
          cases ok with
          | false =>
            simp only [Option.some.injEq, Prod.mk.injEq] at h
            rw [← h.2]; simp only
            refine ⟨trivial, .inl ⟨by omega, trivial⟩⟩
          | true =>
            simp only at h
            have := ih h
            simp only at this
            refine ⟨this.1, this.2.imp (fun h => ⟨by omega, h.2⟩) (fun h => ⟨by omega, h.2⟩)⟩
      | dict =>
        obtain ⟨h1, rfl⟩ := hne (by simp)
        simp only at h
        cases hr : readDictionaryFragmentM s.dict s.file with
        | none => simp [hr] at h
        | some q =>
          obtain ⟨ok, d, f1⟩ := q
          have hm := readDictionaryFragmentM_measure h1 hr
          rw [hr] at h
          simp only at h
          have := ih h
          simp only at this
          refine ⟨this.1, this.2.imp (fun h => ⟨by omega, h.2⟩) (fun h => ⟨by omega, h.2⟩)⟩
      | invalid =>
        have hm := hp rfl
        simp only at h
        have := ih h
        simp only at this
        refine ⟨this.1, this.2.imp (fun h => ⟨by omega, h.2⟩) (fun h => ⟨by omega, h.2⟩)⟩
    · rw [if_neg hc] at h
      simp only [Option.some.injEq, Prod.mk.injEq] at h
      rw [← h.2]; simp

/-- Upper bound on the number of messages the iterator can still deliver. -/
def PDec.bound (s : PDec) : Nat :=
  s.file.measure * (s.bf.room + 2) + (if s.bf.hasMore then s.bf.mem.length + 1 else 0)

theorem nextM_progress {s s1 : PDec} {m : Option OutMsg} (h : s.next = some (true, m, s1)) :
    s1.bound < s.bound := by
  unfold PDec.next at h
  split at h
  · rename_i hm
    cases hd : decompressNextP s.ck s.dict s.bf with
    | none => simp [hd] at h
    | some p =>
      obtain ⟨m', bf⟩ := p
      rw [hd] at h
      simp only [Option.some.injEq, Prod.mk.injEq, true_and] at h
      obtain ⟨h1, h2, h3, -⟩ := decompressNextP_progress2 hd
      rw [← h.2]
      simp only [PDec.bound, BufFrag.room, h2, hm, if_true]
      cases hb : bf.hasMore with
      | true => have := h3 hb; simp only [if_true]; omega
      | false => simp only [Bool.false_eq_true, if_false]; omega
  · rename_i hm
    split at h
    · simp at h
    · cases hl : iterLoopM (s.file.inp.length + 2) s with
      | none => simp [hl] at h
      | some p =>
        obtain ⟨r, s2⟩ := p
        rw [hl] at h
        cases r with
        | false => simp at h
        | true =>
          simp only at h
          cases hd : decompressNextP s2.ck s2.dict s2.bf with
          | none => simp [hd] at h
          | some p =>
            obtain ⟨m', bf⟩ := p
            rw [hd] at h
            simp only [Option.some.injEq, Prod.mk.injEq] at h
            obtain ⟨h1, h2, h3, h4⟩ := decompressNextP_progress2 hd
            have hmore := h4 h.1
            obtain ⟨hr, hp⟩ := iterLoopM_progress _ hl
            rcases hp with ⟨-, hb⟩ | ⟨hlt, hmem⟩
            · rw [hb] at hmore; exact absurd hmore hm
            · rw [← h.2.2]
              have hroom : bf.room = s.bf.room := by
                rw [← hr]; unfold BufFrag.room; rw [h2]
              simp only [PDec.bound, hroom]
              rw [if_neg hm]
              have hmul : (s2.file.measure + 1) * (s.bf.room + 2) ≤
                  s.file.measure * (s.bf.room + 2) := Nat.mul_le_mul_right _ hlt
              rw [Nat.add_mul] at hmul
              split <;> omega


theorem iterateM_at {ss es fns} (hp : Program ss es fns) {ck : Checkpoint} (tid : Nat) (cs : List PCall) (s : PDec)
    (hck : SameTimes ck s.ck) (hd : KnowsP es s.dict) (ha : AtP fns s.bf cs) (ht : s.bf.tid = tid) :
    ∃ ms bf', (∀ n, s.iterate (ms.length + n) = { s with bf := bf', out := s.out ++ ms }.iterate n) ∧
      All2 (PPrints ss) (cs.map (tid, ck, ·)) ms ∧ bf'.hasMore = false ∧ bf'.stor.length = s.bf.stor.length := by
  induction cs generalizing s with
  | nil => exact ⟨[], s.bf, fun n => by simp, .nil, ha, rfl⟩
  | cons c cs ih =>
    have hm : s.bf.hasMore = true := ha.1
    obtain ⟨m, bf', h1, h2, h3, h4, h5⟩ := decompressNextP_at hp hck hd ha
    obtain ⟨ms, bf'', h6, h7, h8, h9⟩ := ih { s with bf := bf', out := s.out ++ [m] } hck hd h3
      (by simp only; rw [h4, ht])
    refine ⟨m :: ms, bf'', fun n => ?_, .cons (ht ▸ h2) h7, h8, by rw [h9]; exact h5⟩
    have hn : s.next = some (true, some m, { s with bf := bf', out := s.out ++ [m] }) := by
      rw [PDec.next, if_pos hm, h1]
      rfl
    rw [List.length_cons, show ms.length + 1 + n = (ms.length + n) + 1 by omega, PDec.iterate, hn]
    simp only
    rw [h6 n]
    simp

/-- Iterating over well-formed bytes. -/
theorem iterateM_holds {ss es fns} (hp : Program ss es fns) (hf : ∀ e ∈ es, e.Fits) {space cap : Nat}
    (hs : space < 2 ^ 32) (hcap : cap < 2 ^ 32) {ck : Option Checkpoint} {bytes : List Byte}
    {l : List (Nat × Checkpoint × PCall)} (h : HoldsP es fns space cap ck bytes l) (s : PDec)
    (hfile : s.file = ⟨bytes, false⟩) (hr : s.Ready)
    (hck : ∀ c, ck = some c → SameTimes c s.ck ∧ KnowsP es s.dict) (hm : MemP es s.dict)
    (hraw : 2 * space ≤ s.dict.raw.length) (hb : s.bf.stor.length = cap) :
    ∃ (s1 : PDec) (ms : List OutMsg), (∀ n, s.iterate (ms.length + (n + 1)) = s1.iterate (n + 1)) ∧ s1.Ready ∧
      s1.out = s.out ++ ms ∧ s1.file = ⟨[], false⟩ ∧ All2 (PPrints ss) l ms := by
  induction h generalizing s with
  | nil => exact ⟨s, [], fun _ => by simp, hr, by simp, hfile, .nil⟩
  | @ckpt ck junk j c b rest l hc hbb h ih =>
    obtain ⟨x, xs, hx, hxt⟩ := checkpointP_head hbb
    obtain ⟨c', d', r1, r2, r3, r4, r5⟩ := readDictP_ok hf hbb hc hs hm hraw s.ck rest false
    have hpk : s.file.peek = (.checkpoint, s.file) := by
      rw [hfile, hx]; simp [FileSt.peek, hxt]
    have hr2 : PDec.Ready { s with file := ⟨rest, false⟩, ck := c', dict := d' } := ⟨hr.more, rfl, hr.good⟩
    obtain ⟨s1, ms, h1, h2⟩ := ih _ rfl hr2 (fun c0 h0 => by cases h0; exact ⟨r2, r3⟩) r4
      (by simp only [r5]; exact hraw) hb
    refine ⟨s1, ms, fun n => ?_, h2⟩
    rw [← h1 n, ← Nat.add_assoc]
    refine iterateM_eq (nextM_eq hr hr2 (iterReadM_step fun n => ?_)) _
    rw [iterLoopM, if_pos ⟨hr.more, hr.eof, hr.good⟩, hpk]
    simp only
    rw [hfile, r1]
  | @ext ck tid np cs body rest l he ht hl h ih =>
    obtain ⟨x, xs, hx, hxt⟩ := extentBytes_head tid np body ht
    obtain ⟨hst, hkn⟩ := hck ck rfl
    have hpk : s.file.peek = (.extent, s.file) := by
      rw [hfile, hx]; simp [FileSt.peek, hxt]
    obtain ⟨bf', r1, r2, r3, r4⟩ := readBufferExtent_atP s.bf he np rest false ht (by omega) (by omega)
    have hl1 : ∀ n, iterLoopM (n + 1) s = iterLoopM n { s with file := ⟨rest, false⟩, bf := bf' } := by
      intro n
      rw [iterLoopM, if_pos ⟨hr.more, hr.eof, hr.good⟩, hpk]
      simp only
      rw [hfile, r1]
    obtain ⟨ms1, bf'', q1, q2, q3, q4⟩ := iterateM_at hp tid cs
      { s with file := ⟨rest, false⟩, bf := bf' } hst hkn r2 r3
    simp only at q1 q4
    obtain ⟨s1, ms, h1, h1r, h2, h3⟩ := ih { s with file := ⟨rest, false⟩, bf := bf'', out := s.out ++ ms1 } rfl
      ⟨q3, rfl, hr.good⟩ (fun c0 h0 => by cases h0; exact ⟨hst, hkn⟩) hm hraw (by simp only; omega)
    refine ⟨s1, ms1 ++ ms, fun n => ?_, h1r, by rw [h2]; simp, h3.1, q2.append h3.2⟩
    have hnext : s.next = ({ s with file := ⟨rest, false⟩, bf := bf' } : PDec).next := by
      cases cs with
      | nil => exact nextM_eq hr ⟨r2, rfl, hr.good⟩ (iterReadM_step hl1)
      | cons c cs =>
        refine nextM_extent hr r2.1 hl1 ?_
        obtain ⟨m, bfx, x1, -⟩ := decompressNextP_at hp hst hkn r2
        exact ⟨m, bfx, x1⟩
    have e1 : (ms1 ++ ms).length + (n + 1) = ms1.length + (ms.length + (n + 1)) := by
      simp only [List.length_append]; omega
    rw [e1]
    have e2 : ms1.length + (ms.length + (n + 1)) = (ms1.length + (ms.length + n)) + 1 := by omega
    rw [e2, iterateM_eq hnext, ← e2, q1, h1]

end NanoLog
