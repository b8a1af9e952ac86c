import Verif.IterLemmas

/-! Helper lemmas: decoding a file cut inside a record; the fuel of all loops. -/

namespace NanoLog

theorem append_split {a b p q : List Byte} (h : a ++ b = p ++ q) :
    (∃ p', p = a ++ p' ∧ b = p' ++ q) ∨ (p.length < a.length) := by
  rcases List.append_eq_append_iff.1 h with ⟨c, rfl, rfl⟩ | ⟨c, rfl, rfl⟩
  · exact .inl ⟨c, rfl, rfl⟩
  · by_cases hc : c = []
    · subst hc; exact .inl ⟨[], by simp, by simp⟩
    · right
      have : 0 < c.length := List.length_pos_iff.2 hc
      simp only [List.length_append]; omega

theorem read_short {n : Nat} {p : List Byte} (e : Bool) (h : p.length < n) :
    FileSt.read n ⟨p, e⟩ = (p, ⟨[], true⟩) := by
  simp only [FileSt.read]
  rw [if_neg (by omega)]

theorem readDictionary_cut (ck : Checkpoint) (d : Dict) {p : List Byte} (h : p.length < 40) :
    readDictionary ck d ⟨p, false⟩ = some (false, ck, d, ⟨[], true⟩) := by
  rw [readDictionary, read_short _ h]
  simp only
  rw [if_pos (by omega)]

theorem readLogInfo_cut {i : LogInfo} (hf : i.Fits) {p q : List Byte}
    (h : logInfoBytes i = p ++ q) (hq : q ≠ []) :
    readLogInfo ⟨p, false⟩ = some (none, ⟨[], true⟩) := by
  have hql : 0 < q.length := List.length_pos_iff.2 hq
  have hlen := congrArg List.length h
  rw [logInfoBytes_length, logInfoSize, List.length_append] at hlen
  have hb : logInfoBytes i =
      (le 1 i.sev ++ le 4 i.line ++ le 2 (i.file.length + 1) ++ le 2 (i.fmt.length + 1)) ++
      ((i.file ++ [0]) ++ (i.fmt ++ [0])) := by
    simp [logInfoBytes]
  rw [hb] at h
  have h3 : unle (le 2 (i.file.length + 1)) = i.file.length + 1 :=
    unle_le_of_lt (by have := hf.fileLen; simp; omega)
  have h4 : unle (le 2 (i.fmt.length + 1)) = i.fmt.length + 1 :=
    unle_le_of_lt (by have := hf.fmtLen; simp; omega)
  rcases append_split h with ⟨p', rfl, hp⟩ | hs
  · rw [readLogInfo, read_append' _ _ _ (by simp [le_length])]
    simp only
    rw [if_neg (by simp [le_length])]
    have d5 : ((le 1 i.sev ++ le 4 i.line ++ le 2 (i.file.length + 1) ++
        le 2 (i.fmt.length + 1)).drop 5).take 2 = le 2 (i.file.length + 1) := by
      rw [List.append_assoc, List.drop_left' (by simp [le_length])]
      exact List.take_left' (by simp [le_length])
    have d7 : (le 1 i.sev ++ le 4 i.line ++ le 2 (i.file.length + 1) ++
        le 2 (i.fmt.length + 1)).drop 7 = le 2 (i.fmt.length + 1) :=
      List.drop_left' (by simp [le_length])
    rw [d5, d7, h3, h4]
    simp only [List.length_append, le_length] at hlen
    by_cases hfl : i.file.length + 1 ≤ p'.length
    · have e1 : FileSt.read (i.file.length + 1) ⟨p', false⟩ =
          (p'.take (i.file.length + 1), ⟨p'.drop (i.file.length + 1), false⟩) := by
        simp [FileSt.read, hfl]
      rw [e1]
      simp only
      rw [read_short _ (by simp only [List.length_drop]; omega)]
      simp only
      rw [if_pos (by simp only [List.length_take, List.length_drop]; omega)]
    · rw [read_short _ (by omega)]
      simp only
      rw [read_short _ (by simp)]
      simp only
      rw [if_pos (by simp only [List.length_nil]; omega)]
  · rw [readLogInfo, read_short _ (by simpa [le_length] using hs)]
    simp only
    rw [if_pos (by simp [le_length] at hs; omega)]

theorem readDictLoop_cut {new : List Site} (hn : AllSupported new) {p q : List Byte}
    (h : (new.flatMap fun s => logInfoBytes s.info) = p ++ q) (hq : q ≠ []) (fuel : Nat)
    (hf : p.length < fuel) (done total : Nat) (d : Dict)
    (ht : total = done + (new.flatMap fun s => logInfoBytes s.info).length) :
    ∃ d', readDictLoop fuel done total d ⟨p, false⟩ = some (false, d', ⟨[], true⟩) ∧
      ∀ sites, Describes d sites → ∃ new', Describes d' (sites ++ new') := by
  induction new generalizing fuel done d p with
  | nil =>
    rw [List.flatMap_nil] at h
    have := congrArg List.length h
    have hql : 0 < q.length := List.length_pos_iff.2 hq
    simp only [List.length_nil, List.length_append] at this; omega
  | cons s new ih =>
    cases fuel with
    | zero => simp at hf
    | succ fuel =>
      obtain ⟨is, hs⟩ := hn s (by simp)
      have hl := logInfoBytes_length s.info
      have hpos : 0 < logInfoSize s.info := by simp only [logInfoSize]; omega
      simp only [List.flatMap_cons, List.length_append] at ht
      rw [List.flatMap_cons] at h
      simp only [readDictLoop]
      rw [if_pos ⟨by omega, trivial⟩]
      rcases append_split h with ⟨p', rfl, hp⟩ | hsh
      · rw [readLogInfo_ok hs.fits]
        simp only
        simp only [List.length_append] at hf
        obtain ⟨d', e1, e2⟩ := ih (fun x hx => hn x (by simp [hx])) hp fuel (by omega)
          (done + logInfoSize s.info) (d.add s.info) (by omega)
        refine ⟨d', e1, fun sites hd => ?_⟩
        obtain ⟨new', h'⟩ := e2 _ (hd.add hs)
        exact ⟨s :: new', by simpa using h'⟩
      · have hh : ∃ q', logInfoBytes s.info = p ++ q' ∧ q' ≠ [] := by
          rcases List.append_eq_append_iff.1 h with ⟨c, rfl, h2⟩ | ⟨c, h2, -⟩
          · simp only [List.length_append] at hsh; omega
          · refine ⟨c, h2, ?_⟩
            rintro rfl
            rw [h2] at hsh; simp at hsh
        obtain ⟨q', h1, h2⟩ := hh
        rw [readLogInfo_cut hs.fits h1 h2]
        exact ⟨_, rfl, fun sites hd => ⟨[], by simpa using hd⟩⟩

theorem readDictionaryFragment_cut {new : List Site} (hn : AllSupported new) (total : Nat)
    (hlen : (dictBytes total new).length < 2 ^ 30) (d : Dict) {p q : List Byte}
    (h : dictBytes total new = p ++ q) (hq : q ≠ []) :
    ∃ d', readDictionaryFragment d ⟨p, false⟩ = some (false, d', ⟨[], true⟩) ∧
      ∀ sites, Describes d sites → ∃ new', Describes d' (sites ++ new') := by
  have hL : 8 + (new.flatMap fun s => logInfoBytes s.info).length < 2 ^ 30 := by
    simp only [dictBytes, List.length_append, le_length] at hlen; omega
  have hmod := Nat.mod_eq_of_lt hL
  have h1 : unle (le 4 (1 + 4 * (8 + (new.flatMap fun s => logInfoBytes s.info).length))) / 4 =
      8 + (new.flatMap fun s => logInfoBytes s.info).length := by
    rw [unle_le_of_lt (by rw [show 256 ^ 4 = 2 ^ 32 by rfl]; omega)]; omega
  rw [dictBytes, hmod] at h
  rcases append_split h with ⟨p', rfl, hp⟩ | hs
  · rw [readDictionaryFragment, read_append' _ _ _ (by simp [le_length])]
    simp only
    rw [if_neg (by simp [le_length]), List.take_left' (by simp [le_length]), h1]
    exact readDictLoop_cut hn hp hq _ (by omega) _ _ d rfl
  · rw [readDictionaryFragment, read_short _ (by simpa [le_length] using hs)]
    simp only
    rw [if_pos (by simp [le_length] at hs; omega)]
    exact ⟨_, rfl, fun sites hd => ⟨[], by simpa using hd⟩⟩

theorem readBufferExtent_cut (bf : BufFrag) {tid : Nat} (np : Bool) {body p q : List Byte}
    (ht : tid < 2 ^ 32) (hc : (extentBytes tid np body).length ≤ bf.stor.length)
    (h32 : (extentBytes tid np body).length < 2 ^ 32) (h : extentBytes tid np body = p ++ q)
    (hp : p ≠ []) (hq : q ≠ []) :
    ∃ bf', readBufferExtent bf ⟨p, false⟩ = some (false, false, bf', ⟨[], true⟩) ∧
      bf'.hasMore = false := by
  obtain ⟨b, hb, he, -⟩ := extent_first tid np ht
  have hql : 0 < q.length := List.length_pos_iff.2 hq
  have hlen := extentBytes_length tid np body
  have h5 := (extentHeaderSize_le ht).1
  have hcl := congrArg List.length h
  rw [List.length_append] at hcl
  generalize hL : extentHeaderSize tid + body.length = L at *
  have hhdr : extentBytes tid np body = (b :: le 4 L) ++ ((extentId tid).2.2 ++ body) := by
    rw [hb, hL]; simp
  have hul : unle (le 4 L) = L := unle_le_of_lt (by simp; omega)
  rw [hhdr] at h
  rcases append_split h with ⟨p', rfl, hp'⟩ | hs
  · rw [readBufferExtent, read_append' _ _ _ (by simp [le_length])]
    simp only
    simp only [List.length_append, List.length_cons, le_length] at hcl
    rw [if_neg (by simp [he, le_length, hul]; omega), hul, if_neg (by omega),
      read_short _ (by omega)]
    simp only
    rw [if_pos (by omega)]
    exact ⟨_, rfl, rfl⟩
  · simp only [List.length_cons, le_length] at hs
    rw [readBufferExtent, read_short _ hs]
    cases p with
    | nil => exact absurd rfl hp
    | cons c p =>
      simp only
      rw [if_pos (.inr (.inl (by omega)))]
      exact ⟨_, rfl, rfl⟩

theorem peek_of_head {b : Byte} {bs p q : List Byte} (h : b :: bs = p ++ q) (hp : p ≠ []) :
    FileSt.peek ⟨p, false⟩ = (entryType b, ⟨p, false⟩) := by
  cases p with
  | nil => exact absurd rfl hp
  | cons c p =>
    simp only [List.cons_append, List.cons.injEq] at h
    simp [FileSt.peek, h.1]

theorem skipPad_all {p : List Byte} (h : ∀ b ∈ p, entryType b = .invalid) :
    FileSt.skipPad ⟨p, false⟩ = ⟨[], true⟩ := by
  have := skipPad_append (r := []) h
  rw [List.append_nil] at this
  rw [this]; simp [FileSt.skipPad]

/-- Unordered decoding of a record that was cut. -/
theorem unordered_cut {cap : Nat} {ck : Checkpoint} {known : List Site} {r : Rec}
    {rs : List Rec} {ms : List OutMsg} (h : Holds cap ck known (r :: rs) ms) {p q : List Byte}
    (hr : r.bytes = p ++ q) (hq : q ≠ []) (s : Dec) (hf : s.file = ⟨p, false⟩)
    (hg : s.good = true) (hb : s.bf.stor.length = cap) :
    ∃ s', URuns s s' ∧ s'.out = s.out := by
  by_cases hp : p = []
  · subst hp
    exact ⟨_, URuns.end hf hg, rfl⟩
  have he : s.file.eof = false := by rw [hf]
  have hql : 0 < q.length := List.length_pos_iff.2 hq
  cases h with
  | @ckpt _ _ junk c _ _ hc hj h =>
    obtain ⟨b, bs, hbb, ht⟩ := checkpointBytes_head junk c
    have hl := checkpointBytes_length (junk := junk) hc.1
    simp only [Rec.bytes] at hr
    have hpk : s.file.peek = (.checkpoint, s.file) := by
      rw [hf, peek_of_head (hbb ▸ hr) hp, ht]
    have := congrArg List.length hr
    rw [hl, List.length_append] at this
    refine ⟨{ s with file := ⟨[], true⟩, good := false }, URuns.step he hg ?_ (URuns.stop (by simp)),
      rfl⟩
    simp only [unorderedStep, hpk]
    rw [hf, readDictionary_cut _ _ (by omega)]
  | @dict _ _ total new _ _ hn hl h =>
    obtain ⟨b, bs, hbb, ht⟩ := dictBytes_head total new
    simp only [Rec.bytes] at hr
    have hpk : s.file.peek = (.dict, s.file) := by
      rw [hf, peek_of_head (hbb ▸ hr) hp, ht]
    obtain ⟨d', hd, -⟩ := readDictionaryFragment_cut hn total hl s.dict hr hq
    refine ⟨{ s with file := ⟨[], true⟩, good := false, dict := d' },
      URuns.step he hg ?_ (URuns.stop (by simp)), rfl⟩
    simp only [unorderedStep, hpk]
    rw [hf, hd]
  | @ext _ _ tid np cs body _ ms' ms hen hpr ht hl hcap h =>
    obtain ⟨b, bs, hbb, htp⟩ := extentBytes_head tid np body ht
    simp only [Rec.bytes] at hr
    have hpk : s.file.peek = (.extent, s.file) := by
      rw [hf, peek_of_head (hbb ▸ hr) hp, htp]
    obtain ⟨bf', hd, -⟩ := readBufferExtent_cut s.bf np ht (by omega) (by omega) hr hp hq
    refine ⟨{ s with file := ⟨[], true⟩, bf := bf' },
      URuns.step he hg ?_ (URuns.stop (by simp)), rfl⟩
    simp only [unorderedStep, hpk]
    rw [hf, hd]
  | @pad _ _ bs _ _ hz h =>
    simp only [Rec.bytes] at hr
    have hz' : ∀ b ∈ p, entryType b = .invalid := fun b hb => hz b (by rw [hr]; simp [hb])
    refine ⟨{ s with file := ⟨[], true⟩ }, URuns.step he hg ?_ (URuns.stop (by simp)), rfl⟩
    have hpk : s.file.peek = (.invalid, s.file) := by
      rw [hf]
      cases p with
      | nil => exact absurd rfl hp
      | cons c p => simp [FileSt.peek, hz' c (by simp)]
    simp only [unorderedStep, hpk]
    rw [hf, skipPad_all hz']

/-- If the reading loop stops with an unsuccessful read, the iterator returns `false`. -/
theorem iterate_fails {s s1 : Dec} (hr : s.Ready) (h : iterRead s = some (false, s1)) (n : Nat) :
    s.iterate (n + 1) = some s1 := by
  have hn : s.next = some (false, none, s1) := by
    unfold Dec.next
    simp only [iterRead] at h
    rw [if_neg (by simp [hr.more]), if_neg (by simp [hr.eof, hr.good]), h]
  rw [Dec.iterate, hn]

/-- If the reading loop stops without a message, the iterator returns `false`. -/
theorem iterate_dry {s s1 : Dec} (hr : s.Ready) (h : iterRead s = some (true, s1))
    (hm : s1.bf.hasMore = false) (n : Nat) :
    s.iterate (n + 1) = some { s1 with bf := { s1.bf with hasMore := false } } := by
  have hn : s.next = some (false, none, { s1 with bf := { s1.bf with hasMore := false } }) := by
    unfold Dec.next
    simp only [iterRead] at h
    rw [if_neg (by simp [hr.more]), if_neg (by simp [hr.eof, hr.good]), h]
    simp [decompressNext, hm]
  rw [Dec.iterate, hn]

/-- The iterator on a record that was cut. -/
theorem iterate_cut {cap : Nat} {ck : Checkpoint} {known : List Site} {r : Rec}
    {rs : List Rec} {ms : List OutMsg} (h : Holds cap ck known (r :: rs) ms) {p q : List Byte}
    (hr : r.bytes = p ++ q) (hq : q ≠ []) (s : Dec) (hs : s.Ready) (hf : s.file = ⟨p, false⟩)
    (hb : s.bf.stor.length = cap) :
    ∃ s', (∀ n, s.iterate (n + 1) = some s') ∧ s'.out = s.out := by
  by_cases hp : p = []
  · subst hp
    obtain ⟨s', -, -⟩ := iterate_end hs hf 0
    have hrd : iterRead s = some (true, { s with file := ⟨[], true⟩ }) := by
      rw [← iterRead_skipPad hs]
      simp [hf, FileSt.skipPad, iterRead, iterLoop]
    exact ⟨_, fun n => iterate_dry hs hrd hs.more n, rfl⟩
  have hql : 0 < q.length := List.length_pos_iff.2 hq
  have hc : s.bf.hasMore = false ∧ s.file.eof = false ∧ s.good = true := ⟨hs.more, hs.eof, hs.good⟩
  cases h with
  | @ckpt _ _ junk c _ _ hck hj h =>
    obtain ⟨b, bs, hbb, ht⟩ := checkpointBytes_head junk c
    have hl := checkpointBytes_length (junk := junk) hck.1
    simp only [Rec.bytes] at hr
    have hpk : s.file.peek = (.checkpoint, s.file) := by
      rw [hf, peek_of_head (hbb ▸ hr) hp, ht]
    have := congrArg List.length hr
    rw [hl, List.length_append] at this
    have hrd : iterRead s = some (false, { s with file := ⟨[], true⟩, good := false }) := by
      rw [iterRead, iterLoop, if_pos hc, hpk]
      simp only
      rw [hf, readDictionary_cut _ _ (by omega)]
    exact ⟨_, fun n => iterate_fails hs hrd n, rfl⟩
  | @dict _ _ total new _ _ hn hl h =>
    obtain ⟨b, bs, hbb, ht⟩ := dictBytes_head total new
    simp only [Rec.bytes] at hr
    have hpk : s.file.peek = (.dict, s.file) := by
      rw [hf, peek_of_head (hbb ▸ hr) hp, ht]
    obtain ⟨d', hd, -⟩ := readDictionaryFragment_cut hn total hl s.dict hr hq
    have hrd : iterRead s = some (true, { s with file := ⟨[], true⟩, good := false, dict := d' }) := by
      rw [iterRead, iterLoop, if_pos hc, hpk]
      simp only
      rw [hf, hd]
      simp [iterLoop]
    exact ⟨_, fun n => iterate_dry hs hrd hs.more n, rfl⟩
  | @ext _ _ tid np cs body _ ms' ms hen hpr ht hl hcap h =>
    obtain ⟨b, bs, hbb, htp⟩ := extentBytes_head tid np body ht
    simp only [Rec.bytes] at hr
    have hpk : s.file.peek = (.extent, s.file) := by
      rw [hf, peek_of_head (hbb ▸ hr) hp, htp]
    obtain ⟨bf', hd, -⟩ := readBufferExtent_cut s.bf np ht (by omega) (by omega) hr hp hq
    have hrd : iterRead s = some (false, { s with file := ⟨[], true⟩, bf := bf', good := false }) := by
      rw [iterRead, iterLoop, if_pos hc, hpk]
      simp only
      rw [hf, hd]
    exact ⟨_, fun n => iterate_fails hs hrd n, rfl⟩
  | @pad _ _ bs _ _ hz h =>
    simp only [Rec.bytes] at hr
    have hz' : ∀ b ∈ p, entryType b = .invalid := fun b hb => hz b (by rw [hr]; simp [hb])
    have hrd : iterRead s = some (true, { s with file := ⟨[], true⟩ }) := by
      rw [← iterRead_skipPad hs, hf, skipPad_all hz']
      simp [iterRead, iterLoop]
    exact ⟨_, fun n => iterate_dry hs hrd hs.more n, rfl⟩

/-- Where a cut falls in a sequence of records. -/
theorem cut_records (rs : List Rec) (n : Nat) (hn : n ≤ (recBytes rs).length) :
    (recBytes rs).take n = recBytes rs ∨
    ∃ a r b p q, rs = a ++ r :: b ∧ (recBytes rs).take n = recBytes a ++ p ∧ r.bytes = p ++ q ∧
      q ≠ [] ∧ n = (recBytes a).length + p.length := by
  induction rs generalizing n with
  | nil => left; simp [recBytes] at hn ⊢
  | cons r rs ih =>
    have hb : recBytes (r :: rs) = r.bytes ++ recBytes rs := by simp [recBytes]
    rw [hb] at hn ⊢
    by_cases h : n < r.bytes.length
    · right
      refine ⟨[], r, rs, r.bytes.take n, r.bytes.drop n, rfl, ?_, by simp, ?_, ?_⟩
      · rw [List.take_append_of_le_length (by omega)]; simp [recBytes]
      · intro h0; rw [List.drop_eq_nil_iff] at h0; omega
      · simp [recBytes]; omega
    · rw [List.length_append] at hn
      have e : (r.bytes ++ recBytes rs).take n = r.bytes ++ (recBytes rs).take (n - r.bytes.length) := by
        rw [List.take_append, List.take_of_length_le (by omega)]
      rcases ih (n - r.bytes.length) (by omega) with h1 | ⟨a, r', b, p, q, h1, h2, h3, h4, h5⟩
      · left; rw [e, h1]
      · right
        refine ⟨r :: a, r', b, p, q, by simp [h1], ?_, h3, h4, ?_⟩
        · rw [e, h2]; simp [recBytes]
        · simp [recBytes] at h5 ⊢; omega

/-- Splitting well-formed records. -/
theorem Holds.split {cap : Nat} {ck : Checkpoint} {known : List Site} {a b : List Rec}
    {ms : List OutMsg} (h : Holds cap ck known (a ++ b) ms) :
    ∃ m1 m2, ms = m1 ++ m2 ∧ Holds cap ck known a m1 ∧
      Holds cap (after ck known a).1 (after ck known a).2 b m2 := by
  induction a generalizing ck known ms with
  | nil => exact ⟨[], ms, rfl, .nil, h⟩
  | cons r a ih =>
    cases h with
    | ckpt hc hj h =>
      obtain ⟨m1, m2, rfl, h1, h2⟩ := ih h; exact ⟨m1, m2, rfl, .ckpt hc hj h1, h2⟩
    | dict hn hl h =>
      obtain ⟨m1, m2, rfl, h1, h2⟩ := ih h; exact ⟨m1, m2, rfl, .dict hn hl h1, h2⟩
    | ext he hp ht hl hcap h =>
      obtain ⟨m1, m2, rfl, h1, h2⟩ := ih h
      exact ⟨_ ++ m1, m2, by simp, .ext he hp ht hl hcap h1, h2⟩
    | pad hz h =>
      obtain ⟨m1, m2, rfl, h1, h2⟩ := ih h; exact ⟨m1, m2, rfl, .pad hz h1, h2⟩

/-- Decoding a cut sequence of records, both interfaces. -/
theorem decode_cut {cap : Nat} {ck : Checkpoint} {known : List Site} {rs : List Rec}
    {ms : List OutMsg} (h : Holds cap ck known rs ms) (n : Nat) (hn : n ≤ (recBytes rs).length)
    (s : Dec) (hr : s.Ready) (hf : s.file = ⟨(recBytes rs).take n, false⟩) (hck : s.ck = ck)
    (hd : Describes s.dict known) (hb : s.bf.stor.length = cap) :
    ∃ a b m1 m2, rs = a ++ b ∧ ms = m1 ++ m2 ∧ Holds cap ck known a m1 ∧
      (∀ a' b', rs = a' ++ b' → (recBytes a').length ≤ n → a' <+: a) ∧
      (∃ s', URuns s s' ∧ s'.out = s.out ++ m1) ∧
      (∃ s', (∀ k, s.iterate (m1.length + (k + 1)) = some s') ∧ s'.out = s.out ++ m1) := by
  rcases cut_records rs n hn with h1 | ⟨a, r, b, p, q, h1, h2, h3, h4, h5⟩
  · rw [h1] at hf
    refine ⟨rs, [], ms, [], by simp, by simp, h, ?_, ?_, ?_⟩
    · rintro a' b' rfl -; exact List.prefix_append _ _
    · obtain ⟨s', u1, u2, -⟩ := unordered_holds h s hf hr.good hck hd hb
      exact ⟨s', u1, u2⟩
    · obtain ⟨s1, i1, i2, i3, i4, -⟩ := iterate_leads h [] s hr (by simpa using hf) hck hd hb
      have hrd : iterRead s1 = some (true, { s1 with file := ⟨[], true⟩ }) := by
        rw [← iterRead_skipPad i2]
        simp [i4, FileSt.skipPad, iterRead, iterLoop]
      exact ⟨_, fun k => (i1 k).trans (iterate_dry i2 hrd i2.more k), i3⟩
  · rw [h2] at hf
    rw [h1] at h
    obtain ⟨m1, m2, g1, g2, g3⟩ := h.split
    refine ⟨a, r :: b, m1, m2, h1, g1, g2, ?_, ?_, ?_⟩
    · rintro a' b' hab hle
      by_contra hnp
      have hlt : a.length < a'.length := by
        by_contra hge
        apply hnp
        have e := congrArg (List.take a'.length) (h1.symm.trans hab)
        rw [List.take_left, List.take_append_of_le_length (by omega)] at e
        rw [← e]; exact List.take_prefix _ _
      have e := congrArg (List.take (a.length + 1)) (h1.symm.trans hab)
      rw [List.take_append_of_le_length (l₂ := b') (by omega)] at e
      have e2 : (a ++ r :: b).take (a.length + 1) = a ++ [r] := by
        rw [List.take_append, List.take_of_length_le (by omega)]; simp
      rw [e2] at e
      have : recBytes a' = recBytes a ++ r.bytes ++ recBytes (a'.drop (a.length + 1)) := by
        have : a' = (a ++ [r]) ++ a'.drop (a.length + 1) := by rw [e, List.take_append_drop]
        rw [this]; simp [recBytes]
      have hql : 0 < q.length := List.length_pos_iff.2 h4
      rw [this, h3] at hle
      simp only [List.length_append] at hle
      omega
    · obtain ⟨s1, u1, u2, u3, u4, -, -, u5⟩ := unordered_leads g2 p s hf hr.good hck hd hb
      obtain ⟨s', v1, v2⟩ := unordered_cut g3 h3 h4 s1 u4 u3 u5
      exact ⟨s', u1 _ v1, by rw [v2, u2]⟩
    · obtain ⟨s1, i1, i2, i3, i4, -, -, i5⟩ := iterate_leads g2 p s hr hf hck hd hb
      obtain ⟨s', v1, v2⟩ := iterate_cut g3 h3 h4 s1 i2 i4 i5
      exact ⟨s', fun k => by rw [i1 k, v1], by rw [v2, i3]⟩

end NanoLog
