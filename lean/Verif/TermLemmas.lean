import Verif.CutLemmas

/-! Helper lemmas: every decoding loop makes progress. -/

namespace NanoLog

theorem takeN_length {n : Nat} {l a r : List Byte} (h : takeN n l = some (a, r)) :
    r.length ≤ l.length := by
  unfold takeN at h
  split at h
  · simp only [Option.some.injEq, Prod.mk.injEq] at h
    rw [← h.2, List.length_drop]; omega
  · simp at h

theorem takeCStr_le {l s r : List Byte} (h : takeCStr l = some (s, r)) : r.length ≤ l.length := by
  induction l generalizing s r with
  | nil => simp [takeCStr] at h
  | cons b l ih =>
    simp only [takeCStr] at h
    split at h
    · simp only [Option.some.injEq, Prod.mk.injEq] at h
      rw [← h.2]; simp
    · cases hh : takeCStr l with
      | none => simp [hh] at h
      | some p =>
        obtain ⟨s', r'⟩ := p
        simp [hh] at h
        have := ih hh
        rw [← h.2]; simp; omega

theorem takeWStr_le {l : List Byte} {s : List Nat} {r : List Byte}
    (h : takeWStr l = some (s, r)) : r.length ≤ l.length := by
  generalize hn : l.length = n
  induction n using Nat.strongRecOn generalizing l s r with
  | ind n ih =>
    match l, h with
    | [], h => simp [takeWStr] at h
    | [_], h => simp [takeWStr] at h
    | [_, _], h => simp [takeWStr] at h
    | [_, _, _], h => simp [takeWStr] at h
    | a :: b :: c :: d :: bs, h =>
      simp only [List.length_cons] at hn
      simp only [takeWStr] at h
      split at h
      · simp only [Option.some.injEq, Prod.mk.injEq] at h
        rw [← h.2]; omega
      · cases hh : takeWStr bs with
        | none => simp [hh] at h
        | some p =>
          obtain ⟨s', r'⟩ := p
          simp [hh] at h
          have := ih bs.length (by omega) hh rfl
          rw [← h.2]; omega

theorem decodeFrag_le {nb nb' : Nibbler} {strs strs' : List Byte} {f : Frag} {d : Decoded}
    (h : decodeFrag nb strs f = some (d, nb', strs')) : strs'.length ≤ strs.length := by
  unfold decodeFrag at h
  simp only [Option.bind_eq_bind, Option.bind_eq_some_iff] at h
  obtain ⟨⟨w, nb1⟩, -, ⟨p, nb2⟩, -, h⟩ := h
  simp only at h
  split at h
  · simp only [Option.some.injEq, Prod.mk.injEq] at h
    exact Nat.le_of_eq (congrArg List.length h.2.2.symm)
  · rw [Option.bind_eq_some_iff] at h
    obtain ⟨⟨s, r⟩, h1, h⟩ := h
    simp only [Option.some.injEq, Prod.mk.injEq] at h
    rw [← h.2.2]; exact takeCStr_le h1
  · rw [Option.bind_eq_some_iff] at h
    obtain ⟨⟨s, r⟩, h1, h⟩ := h
    simp only [Option.some.injEq, Prod.mk.injEq] at h
    rw [← h.2.2]; exact takeWStr_le h1
  · rw [Option.bind_eq_some_iff] at h
    obtain ⟨r, -, h⟩ := h
    rw [Option.bind_eq_some_iff] at h
    obtain ⟨⟨v, nb3⟩, -, h⟩ := h
    simp only [Option.some.injEq, Prod.mk.injEq] at h
    exact Nat.le_of_eq (congrArg List.length h.2.2.symm)

theorem decodeFrags_le {nb : Nibbler} {strs strs' : List Byte} {fs : List Frag} {ds : List Decoded}
    (h : decodeFrags nb strs fs = some (ds, strs')) : strs'.length ≤ strs.length := by
  induction fs generalizing nb strs ds strs' with
  | nil =>
    simp only [decodeFrags, Option.some.injEq, Prod.mk.injEq] at h
    exact Nat.le_of_eq (congrArg List.length h.2.symm)
  | cons f fs ih =>
    simp only [decodeFrags, Option.bind_eq_bind, Option.bind_eq_some_iff] at h
    obtain ⟨⟨d, nb1, s1⟩, h1, ⟨ds', s2⟩, h2, h⟩ := h
    simp only [Option.some.injEq, Prod.mk.injEq] at h h2
    have e1 := decodeFrag_le h1
    have e2 := ih h2
    rw [← h.2]; omega

theorem decodeArgs_le {n : Nat} {fs : List Frag} {mem mem' : List Byte} {ds : List Decoded}
    (h : decodeArgs n fs mem = some (ds, mem')) : mem'.length ≤ mem.length := by
  simp only [decodeArgs, Option.bind_eq_bind, Option.bind_eq_some_iff] at h
  obtain ⟨⟨nb, strs⟩, h1, h2⟩ := h
  have e1 := decodeFrags_le h2
  simp only [Nibbler.new, Option.bind_eq_bind, Option.bind_eq_some_iff] at h1
  obtain ⟨⟨a, cur⟩, h3, sz, -, ⟨b, st⟩, h4, h5⟩ := h1
  simp only [Option.some.injEq, Prod.mk.injEq] at h5
  have e2 := takeN_length h3
  simp only at h4
  have e3 := takeN_length h4
  rw [← h5.2] at e1; simp only at e1; omega

theorem decompressNext_progress {ck : Checkpoint} {d : Dict} {bf bf' : BufFrag}
    {m : Option OutMsg} (h : decompressNext ck d bf = some (m, bf')) :
    bf'.mem.length ≤ bf.mem.length ∧ bf'.stor = bf.stor ∧
    (bf'.hasMore = true → bf'.mem.length < bf.mem.length) ∧
    (m.isSome = true → bf.hasMore = true) := by
  unfold decompressNext at h
  split at h
  · simp only [Option.some.injEq, Prod.mk.injEq] at h
    rw [← h.1, ← h.2]; simp
  · rename_i hc
    split at h
    · simp at h
    · split at h
      · simp at h
      · rename_i ds mem' hd
        have hle := decodeArgs_le hd
        have hmore : bf.hasMore = true := by
          by_contra hn; apply hc; right; simpa using hn
        simp only at h
        split at h
        · simp only [Option.some.injEq, Prod.mk.injEq] at h
          rw [← h.1, ← h.2]; simp [hle, hmore]
        · split at h
          · simp at h
          · simp only [Option.some.injEq, Prod.mk.injEq] at h
            rw [← h.1, ← h.2]; simp [hle, hmore]
          · rename_i id ts rest hh
            have := decompressLogHeader_consumes hh
            simp only [Option.some.injEq, Prod.mk.injEq] at h
            rw [← h.1, ← h.2]; simp only [hmore]
            refine ⟨by omega, trivial, fun _ => by omega, fun _ => trivial⟩

theorem drain_fuel (ck : Checkpoint) (d : Dict) (n : Nat) (bf : BufFrag) (out : List OutMsg)
    (hn : bf.mem.length + 1 ≤ n) (k : Nat) :
    drain ck d (n + k) bf out = drain ck d n bf out ∧
    (∀ bf' out', drain ck d n bf out = some (bf', out') → bf'.hasMore = false) := by
  induction n generalizing bf out with
  | zero => omega
  | succ n ih =>
    rw [Nat.succ_add]
    simp only [drain]
    cases hm : bf.hasMore with
    | false =>
      simp only [Bool.false_eq_true, if_false, true_and]
      rintro bf' out' h
      simp only [Option.some.injEq, Prod.mk.injEq] at h
      rw [← h.1]; exact hm
    | true =>
      simp only [if_true]
      cases hd : decompressNext ck d bf with
      | none => simp
      | some p =>
        obtain ⟨m, bf1⟩ := p
        obtain ⟨h1, -, h2, -⟩ := decompressNext_progress hd
        simp only
        cases hm1 : bf1.hasMore with
        | true => exact ih bf1 _ (by have := h2 hm1; omega)
        | false =>
          have e : ∀ j, drain ck d j bf1 (out ++ m.toList) = some (bf1, out ++ m.toList) := by
            intro j; cases j <;> simp [drain, hm1]
          rw [e, e]
          refine ⟨rfl, ?_⟩
          rintro bf' out' h
          simp only [Option.some.injEq, Prod.mk.injEq] at h
          rw [← h.1]; exact hm1

theorem readLogInfo_progress {f f' : FileSt} {i : LogInfo} {n : Nat}
    (h : readLogInfo f = some (some (i, n), f')) : f'.inp.length + 9 ≤ f.inp.length ∧ 9 ≤ n := by
  have hrd : ∀ (n : Nat) (g : FileSt), (g.read n).2.inp.length ≤ g.inp.length ∧
      ((g.read n).1.length = n → (g.read n).2.inp.length + n ≤ g.inp.length) := by
    intro n g
    unfold FileSt.read
    split
    · simp only [List.length_drop, List.length_take]; omega
    · simp only [List.length_nil]; omega
  unfold readLogInfo at h
  have m1 := hrd 9 f
  generalize f.read 9 = r at h m1
  obtain ⟨cli, g1⟩ := r
  simp only at h m1
  split at h
  · simp at h
  · rename_i h9
    have m2 := hrd (unle ((cli.drop 5).take 2)) g1
    generalize g1.read (unle ((cli.drop 5).take 2)) = r at h m2
    obtain ⟨fb, g2⟩ := r
    have m3 := hrd (unle (cli.drop 7)) g2
    simp only at h m2
    generalize g2.read (unle (cli.drop 7)) = r at h m3
    obtain ⟨mb, g3⟩ := r
    simp only at h m3
    split at h
    · simp at h
    · split at h
      · simp only [Option.some.injEq, Prod.mk.injEq] at h
        have := m1.2 (by omega)
        rw [← h.2, ← h.1.2]; omega
      · simp at h

theorem readDictLoop_fuel (n done total : Nat) (d : Dict) (f : FileSt) (hn : f.inp.length + 1 ≤ n)
    (k : Nat) :
    readDictLoop (n + k) done total d f = readDictLoop n done total d f := by
  induction n generalizing done d f with
  | zero => omega
  | succ n ih =>
    rw [Nat.succ_add]
    simp only [readDictLoop]
    by_cases hc : done < total ∧ f.eof = false
    · rw [if_pos hc, if_pos hc]
      cases hr : readLogInfo f with
      | none => rfl
      | some p =>
        obtain ⟨o, f1⟩ := p
        cases o with
        | none => rfl
        | some q =>
          obtain ⟨i, m⟩ := q
          have := readLogInfo_progress hr
          exact ih _ _ _ (by omega)
    · rw [if_neg hc, if_neg hc]

/-- The largest size of the memory of a fragment. -/
def BufFrag.room (bf : BufFrag) : Nat := max bf.stor.length 5

theorem overlay_length (a b : List Byte) : (overlay a b).length = max a.length b.length := by
  simp only [overlay, List.length_append, List.length_drop]; omega

theorem unpackInt_le {t : ITy} {nib : Nat} {l r : List Byte} {v : Int}
    (h : unpackInt t nib l = some (v, r)) : r.length ≤ l.length := by
  unfold unpackInt at h
  split at h
  all_goals
    simp only [Option.bind_eq_bind, Option.bind_eq_some_iff] at h
    obtain ⟨⟨bs, rest⟩, h1, h2⟩ := h
    simp only [Option.some.injEq, Prod.mk.injEq] at h2
    rw [← h2.2]; exact takeN_length h1

theorem start_room {bf bf' : BufFrag} {b : Byte} {bs : List Byte} {ok : Bool}
    (h : bf.start b bs = some (ok, bf')) (hl : bs.length ≤ bf.room) :
    bf'.room = bf.room ∧ bf'.mem.length ≤ bf'.room := by
  have hov := overlay_length bs bf.stor
  unfold BufFrag.start at h
  simp only at h
  split at h
  · simp at h
  · rename_i tid mem hf
    have hm : mem.length ≤ (overlay bs bf.stor).length := by
      split at hf
      · simp only [Option.some.injEq, Prod.mk.injEq] at hf
        rw [← hf.2, List.length_drop]; omega
      · simp only [Option.bind_eq_bind, Option.bind_eq_some_iff] at hf
        obtain ⟨⟨v, m⟩, h1, h2⟩ := hf
        simp only [Option.some.injEq, Prod.mk.injEq] at h2
        have := unpackInt_le h1
        rw [List.length_drop] at this
        rw [← h2.2]; omega
    unfold BufFrag.room at *
    split at h
    · simp only [Option.some.injEq, Prod.mk.injEq] at h
      rw [← h.2]; simp only; omega
    · split at h
      · simp at h
      · simp only [Option.some.injEq, Prod.mk.injEq] at h
        rw [← h.2]; simp only [BufFrag.reset, List.length_nil]; omega
      · rename_i hh
        have := decompressLogHeader_consumes hh
        simp only [Option.some.injEq, Prod.mk.injEq] at h
        rw [← h.2]; simp only; omega

theorem read_length_le (n : Nat) (f : FileSt) : (f.read n).1.length ≤ n := by
  unfold FileSt.read
  split
  · simp only [List.length_take]; omega
  · simp only; omega

theorem readBufferExtent_room {bf bf' : BufFrag} {f f' : FileSt} {ok np : Bool}
    (h : readBufferExtent bf f = some (ok, np, bf', f')) :
    bf'.room = bf.room ∧ bf'.mem.length ≤ bf'.room := by
  unfold readBufferExtent at h
  have h5 := read_length_le 5 f
  generalize f.read 5 = r at h h5
  obtain ⟨hdr, f1⟩ := r
  simp only at h h5
  cases hdr with
  | nil =>
    simp only [Option.some.injEq, Prod.mk.injEq] at h
    rw [← h.2.2.1]; simp [BufFrag.reset, BufFrag.room]
  | cons b lenB =>
    simp only at h
    split at h
    · simp only [Option.some.injEq, Prod.mk.injEq] at h
      rw [← h.2.2.1]; simp only [BufFrag.reset, BufFrag.room, overlay_length, List.length_nil]
      omega
    · rename_i hc
      have hle : unle lenB ≤ bf.stor.length := by
        by_contra hn; apply hc; right; right; omega
      split at h
      · simp at h
      · rename_i hge
        have hb := read_length_le (unle lenB - 5) f1
        generalize f1.read (unle lenB - 5) = r at h hb
        obtain ⟨body, f2⟩ := r
        simp only at h hb
        have hl : (b :: lenB ++ body).length ≤ bf.stor.length := by
          simp only [List.length_append] at *; omega
        split at h
        · simp only [Option.some.injEq, Prod.mk.injEq] at h
          rw [← h.2.2.1]
          simp only [BufFrag.reset, BufFrag.room, overlay_length, List.length_nil]
          omega
        · split at h
          · simp at h
          · rename_i hs
            simp only [Option.some.injEq, Prod.mk.injEq] at h
            have hl' : (b :: lenB ++ body).length ≤ bf.room := by
              unfold BufFrag.room; omega
            have := start_room hs hl'
            rw [← h.2.2.1]; exact this

theorem iterLoop_progress (n : Nat) {s s1 : Dec} {r : Bool} (h : iterLoop n s = some (r, s1)) :
    s1.bf.room = s.bf.room ∧
    ((s1.file.measure ≤ s.file.measure ∧ s1.bf = s.bf) ∨
     (s1.file.measure < s.file.measure ∧ s1.bf.mem.length ≤ s.bf.room)) := by
  induction n generalizing s with
  | zero =>
    simp only [iterLoop, Option.some.injEq, Prod.mk.injEq] at h
    rw [← h.2]; simp
  | succ n ih =>
    simp only [iterLoop] at h
    by_cases hc : s.bf.hasMore = false ∧ s.file.eof = false ∧ s.good = true
    · rw [if_pos hc] at h
      have hp := skipPad_measure_lt (f := s.file) hc.2.1
      have hne := peek_cases s.file
      generalize s.file.peek = p at hp hne h
      obtain ⟨e, f⟩ := p
      simp only at hp hne h
      cases e with
      | extent =>
        obtain ⟨h1, rfl⟩ := hne (by simp)
        simp only at h
        cases hr : readBufferExtent s.bf s.file with
        | none => simp [hr] at h
        | some q =>
          obtain ⟨ok, np, bf, f1⟩ := q
          have hm := readBufferExtent_measure h1 hr
          have hroom := readBufferExtent_room hr
          rw [hr] at h
          cases ok with
          | false =>
            simp only [Option.some.injEq, Prod.mk.injEq] at h
            rw [← h.2]; simp only
            refine ⟨hroom.1, .inr ⟨hm, by omega⟩⟩
          | true =>
            simp only at h
            have := ih h
            simp only at this
            refine ⟨by omega, .inr ?_⟩
            rcases this.2 with ⟨h2, h3⟩ | ⟨h2, h3⟩
            · rw [h3]; omega
            · omega
      | checkpoint =>
        obtain ⟨h1, rfl⟩ := hne (by simp)
        simp only at h
        cases hr : readDictionary s.ck s.dict s.file with
        | none => simp [hr] at h
        | some q =>
          obtain ⟨ok, ck, d, f1⟩ := q
          have hm := readDictionary_measure h1 hr
          rw [hr] at h
          cases ok with
          | false =>
            simp only [Option.some.injEq, Prod.mk.injEq] at h
            rw [← h.2]; simp only
            refine ⟨trivial, .inl ⟨by omega, trivial⟩⟩
          | true =>
            simp only at h
            have := ih h
            simp only at this
            refine ⟨this.1, this.2.imp (fun h => ⟨by omega, h.2⟩) (fun h => ⟨by omega, h.2⟩)⟩
      | dict =>
        obtain ⟨h1, rfl⟩ := hne (by simp)
        simp only at h
        cases hr : readDictionaryFragment s.dict s.file with
        | none => simp [hr] at h
        | some q =>
          obtain ⟨ok, d, f1⟩ := q
          have hm := readDictionaryFragment_measure h1 hr
          rw [hr] at h
          simp only at h
          have := ih h
          simp only at this
          refine ⟨this.1, this.2.imp (fun h => ⟨by omega, h.2⟩) (fun h => ⟨by omega, h.2⟩)⟩
      | invalid =>
        have hm := hp rfl
        simp only at h
        have := ih h
        simp only at this
        refine ⟨this.1, this.2.imp (fun h => ⟨by omega, h.2⟩) (fun h => ⟨by omega, h.2⟩)⟩
    · rw [if_neg hc] at h
      simp only [Option.some.injEq, Prod.mk.injEq] at h
      rw [← h.2]; simp

/-- Upper bound on the number of messages the iterator can still deliver. -/
def Dec.bound (s : Dec) : Nat :=
  s.file.measure * (s.bf.room + 2) + (if s.bf.hasMore then s.bf.mem.length + 1 else 0)

theorem next_progress {s s1 : Dec} {m : Option OutMsg} (h : s.next = some (true, m, s1)) :
    s1.bound < s.bound := by
  unfold Dec.next at h
  split at h
  · rename_i hm
    cases hd : decompressNext s.ck s.dict s.bf with
    | none => simp [hd] at h
    | some p =>
      obtain ⟨m', bf⟩ := p
      rw [hd] at h
      simp only [Option.some.injEq, Prod.mk.injEq, true_and] at h
      obtain ⟨h1, h2, h3, -⟩ := decompressNext_progress hd
      rw [← h.2]
      simp only [Dec.bound, BufFrag.room, h2, hm, if_true]
      cases hb : bf.hasMore with
      | true => have := h3 hb; simp only [if_true]; omega
      | false => simp only [Bool.false_eq_true, if_false]; omega
  · rename_i hm
    split at h
    · simp at h
    · cases hl : iterLoop (s.file.inp.length + 2) s with
      | none => simp [hl] at h
      | some p =>
        obtain ⟨r, s2⟩ := p
        rw [hl] at h
        cases r with
        | false => simp at h
        | true =>
          simp only at h
          cases hd : decompressNext s2.ck s2.dict s2.bf with
          | none => simp [hd] at h
          | some p =>
            obtain ⟨m', bf⟩ := p
            rw [hd] at h
            simp only [Option.some.injEq, Prod.mk.injEq] at h
            obtain ⟨h1, h2, h3, h4⟩ := decompressNext_progress hd
            have hmore := h4 h.1
            obtain ⟨hr, hp⟩ := iterLoop_progress _ hl
            rcases hp with ⟨-, hb⟩ | ⟨hlt, hmem⟩
            · rw [hb] at hmore; exact absurd hmore hm
            · rw [← h.2.2]
              have hroom : bf.room = s.bf.room := by
                rw [← hr]; unfold BufFrag.room; rw [h2]
              simp only [Dec.bound, hroom]
              rw [if_neg hm]
              have hmul : (s2.file.measure + 1) * (s.bf.room + 2) ≤
                  s.file.measure * (s.bf.room + 2) := Nat.mul_le_mul_right _ hlt
              rw [Nat.add_mul] at hmul
              split <;> omega

end NanoLog
