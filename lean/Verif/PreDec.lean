import Verif.PreEnc

/-! Helper lemmas about the decoder of preprocessor mode. -/

namespace NanoLog

/-! ## Statements -/

theorem entriesOf_get {ss : List PStmt} : ∀ {es}, entriesOf ss = some es → es.length = ss.length ∧
    ∀ (i : Nat) (s : PStmt), ss[i]? = some s → ∃ e, es[i]? = some e ∧ s.entry = some e := by
  induction ss with
  | nil => intro es h; cases h; exact ⟨rfl, fun i s h => by simp at h⟩
  | cons s ss ih =>
    intro es h
    rw [entriesOf] at h
    cases he : s.entry with
    | none => rw [he] at h; cases h
    | some e =>
      cases hes : entriesOf ss with
      | none => rw [he, hes] at h; cases h
      | some es' =>
        rw [he, hes] at h
        obtain rfl := Option.some.inj h
        obtain ⟨i1, i2⟩ := ih hes
        refine ⟨by simp [i1], fun i t ht => ?_⟩
        cases i with
        | zero => simp at ht; subst ht; exact ⟨e, rfl, he⟩
        | succ i => simpa using i2 i t (by simpa using ht)

theorem fnsOf_get {ss : List PStmt} : ∀ {fns}, fnsOf ss = some fns → fns.length = ss.length ∧
    ∀ (i : Nat) (fs : List PyFmt), fns[i]? = some fs → ∃ s, ss[i]? = some s ∧ pySplit s.fmt = some fs := by
  induction ss with
  | nil => intro es h; cases h; exact ⟨rfl, fun i s h => by simp at h⟩
  | cons s ss ih =>
    intro es h
    rw [fnsOf] at h
    cases he : pySplit s.fmt with
    | none => rw [he] at h; cases h
    | some e =>
      cases hes : fnsOf ss with
      | none => rw [he, hes] at h; cases h
      | some es' =>
        rw [he, hes] at h
        obtain rfl := Option.some.inj h
        obtain ⟨i1, i2⟩ := ih hes
        refine ⟨by simp [i1], fun i t ht => ?_⟩
        cases i with
        | zero => simp at ht; subst ht; exact ⟨s, rfl, he⟩
        | succ i => simpa using i2 i t (by simpa using ht)

theorem entry_inv {s : PStmt} {e : PEntry} (h : s.entry = some e) : ∃ fs gs name frags,
    pySplit s.fmt = some fs ∧ pyFrags fs = some gs ∧ cLit s.file = some name ∧ litFrags gs = some frags ∧
      e = ⟨pyNibbles fs, s.level, s.line, s.file.length + 1, name, frags⟩ := by
  unfold PStmt.entry at h
  cases h1 : pySplit s.fmt with
  | none => rw [h1] at h; cases h
  | some fs =>
    rw [h1] at h
    dsimp only at h
    cases h2 : pyFrags fs with
    | none => rw [h2] at h; cases h
    | some gs =>
      rw [h2] at h
      dsimp only at h
      cases h3 : cLit s.file with
      | none => rw [h3] at h; cases h
      | some name =>
        cases h4 : litFrags gs with
        | none => rw [h3, h4] at h; cases h
        | some frags =>
          rw [h3, h4] at h
          exact ⟨fs, gs, name, frags, rfl, h2, rfl, h4, (Option.some.inj h).symm⟩

/-! ## Texts -/

theorem decodeFrag_text {nb : Nibbler} {strs : List Byte} {f : Frag} {d : Decoded} {nb' : Nibbler}
    {strs' : List Byte} (h : decodeFrag nb strs f = some (d, nb', strs')) (t : List Byte) :
    d.text = f.text ∧
      decodeFrag nb strs { f with text := t } = some ({ d with text := t }, nb', strs') := by
  unfold decodeFrag at h ⊢
  cases h1 : takeStar f.dynW nb with
  | none => simp [h1] at h
  | some p1 =>
    obtain ⟨w, nb1⟩ := p1
    simp only [h1, Option.bind_eq_bind, Option.bind_some] at h ⊢
    cases h2 : takeStar f.dynP nb1 with
    | none => simp [h2] at h
    | some p2 =>
      obtain ⟨p, nb2⟩ := p2
      simp only [h2, Option.bind_some] at h ⊢
      split at h
      · rename_i hty
        simp only [Option.some.injEq, Prod.mk.injEq] at h
        obtain ⟨rfl, rfl, rfl⟩ := h
        simp
      · cases h3 : takeCStr strs with
        | none => simp [h3] at h
        | some q =>
          simp only [h3, Option.bind_some, Option.some.injEq, Prod.mk.injEq] at h ⊢
          obtain ⟨rfl, rfl, rfl⟩ := h
          simp
      · cases h3 : takeWStr strs with
        | none => simp [h3] at h
        | some q =>
          simp only [h3, Option.bind_some, Option.some.injEq, Prod.mk.injEq] at h ⊢
          obtain ⟨rfl, rfl, rfl⟩ := h
          simp
      · rename_i ty _ _ _
        cases h3 : ty.rty with
        | none => simp [h3] at h
        | some r =>
          simp only [h3, Option.bind_some] at h ⊢
          cases h4 : nb2.getNext r with
          | none => simp [h4] at h
          | some q =>
            simp only [h4, Option.bind_some, Option.some.injEq, Prod.mk.injEq] at h ⊢
            obtain ⟨rfl, rfl, rfl⟩ := h
            simp

theorem decodeFrags_lit {gs : List Frag} : ∀ {gs'}, litFrags gs = some gs' → ∀ {nb strs ds r},
    decodeFrags nb strs gs = some (ds, r) →
    ∃ ds', decodeFrags nb strs gs' = some (ds', r) ∧ All2 Compiled ds ds' := by
  induction gs with
  | nil =>
    intro gs' h nb strs ds r hd
    cases h
    cases hd
    exact ⟨[], rfl, .nil⟩
  | cons g gs ih =>
    intro gs' h nb strs ds r hd
    rw [litFrags] at h
    cases ht : cLit g.text with
    | none => rw [ht] at h; cases h
    | some t =>
      cases hg : litFrags gs with
      | none => rw [ht, hg] at h; cases h
      | some gs2 =>
        rw [ht, hg] at h
        obtain rfl := Option.some.inj h
        rw [decodeFrags] at hd
        cases h1 : decodeFrag nb strs g with
        | none => simp [h1] at hd
        | some x =>
          obtain ⟨d, nb1, strs1⟩ := x
          simp only [h1, Option.bind_eq_bind, Option.bind_some] at hd
          cases h2 : decodeFrags nb1 strs1 gs with
          | none => simp [h2] at hd
          | some y =>
            obtain ⟨ds2, strs2⟩ := y
            simp only [h2, Option.bind_some, Option.some.injEq, Prod.mk.injEq] at hd
            obtain ⟨rfl, rfl⟩ := hd
            obtain ⟨e1, e2⟩ := decodeFrag_text h1 t
            obtain ⟨ds', i1, i2⟩ := ih hg h2
            refine ⟨{ d with text := t } :: ds', ?_, .cons ⟨by rw [e1]; exact ht, rfl, rfl, rfl⟩ i2⟩
            rw [decodeFrags, e2]
            simp [i1]

/-! ## Dictionary -/

/-- The dictionary describes the statements. -/
def KnowsP (es : List PEntry) (d : PDict) : Prop :=
  d.ptrs.map (fun p => metaAt (d.raw.drop p)) = es.map fun e => some e.info

theorem KnowsP.lookup {es : List PEntry} {d : PDict} (h : KnowsP es d) {i : Nat} {e : PEntry}
    (he : es[i]? = some e) : d.lookup i = some e.info := by
  have h2 : (es.map fun e => some e.info)[i]? = some (some e.info) := by simp [he]
  rw [← h, List.getElem?_map] at h2
  cases hp : d.ptrs[i]? with
  | none => rw [hp] at h2; cases h2
  | some p =>
    rw [hp] at h2
    simp only [Option.map_some, Option.some.injEq] at h2
    simp only [PDict.lookup, hp, h2]

/-- Size of the dictionary. -/
def dictLen (es : List PEntry) : Nat :=
  (es.map fun e => 9 + ((cstr e.name).length + 1) +
    (e.frags.map fun f => 3 + ((cstr f.text).length + 1)).sum).sum

theorem writeFrags_length (junk : Nat → Nat) (fs : List Frag) (space : Nat) (bs : List Byte)
    (h : writeFrags junk space fs = some bs) :
    bs.length = (fs.map fun f => 3 + ((cstr f.text).length + 1)).sum ∧ bs.length ≤ space := by
  induction fs generalizing space bs with
  | nil => cases h; simp
  | cons f fs ih =>
    rw [writeFrags] at h
    split at h
    · cases h
    · rename_i hsp
      dsimp only at h
      cases hw : writeFrags junk (space - (fragBytes (junk space) f).length) fs with
      | none => rw [hw] at h; cases h
      | some bs' =>
        rw [hw] at h
        simp only [Option.map_some, Option.some.injEq] at h
        subst h
        have hl : (fragBytes (junk space) f).length = 3 + ((cstr f.text).length + 1) := by
          simp [fragBytes]; omega
        have hc := cstr_length_le f.text
        obtain ⟨i1, i2⟩ := ih _ _ hw
        rw [List.length_append, hl, List.map_cons, List.sum_cons]
        rw [hl] at i2
        omega

/-- The size of the dictionary does not depend on the memory, and the generated code never writes beyond
the end of the buffer. -/
theorem writeDict_size (junk : Nat → Nat) (es : List PEntry) (hn : ∀ e ∈ es, e.name.length < e.nameLen)
    (space : Nat) (bs : List Byte) (h : writeDict junk space es = some bs) :
    bs.length = dictLen es ∧ bs.length ≤ space := by
  induction es generalizing space bs with
  | nil => cases h; simp [dictLen]
  | cons e es ih =>
    rw [writeDict] at h
    split at h
    · cases h
    · rename_i hsp
      cases hw : writeFrags junk (space - (entryHead e).length) e.frags with
      | none => rw [hw] at h; cases h
      | some fb =>
        rw [hw] at h
        dsimp only at h
        cases hd : writeDict junk (space - (entryHead e).length - fb.length) es with
        | none => rw [hd] at h; cases h
        | some bs' =>
          rw [hd] at h
          simp only [Option.map_some, Option.some.injEq] at h
          subst h
          have hl : (entryHead e).length = 9 + ((cstr e.name).length + 1) := by simp [entryHead]; omega
          obtain ⟨f1, f2⟩ := writeFrags_length junk _ _ _ hw
          obtain ⟨i1, i2⟩ := ih (fun x hx => hn x (List.mem_cons_of_mem _ hx)) _ _ hd
          have hc := cstr_length_le e.name
          have hne := hn e List.mem_cons_self
          simp only [dictLen, List.map_cons, List.sum_cons, List.length_append, hl] at *
          omega

theorem fits_name {es : List PEntry} (hf : ∀ e ∈ es, e.Fits) : ∀ e ∈ es, e.name.length < e.nameLen := by
  intro e he; rw [(hf e he).nameLen]; omega

/-- State of the decoder's memory: nothing read yet, or a dictionary of the same statements at the start
of the memory. -/
def MemP (es : List PEntry) (d : PDict) : Prop :=
  d.fin = 0 ∨ ∃ junk space bs rest, writeDict junk space es = some bs ∧ d.raw = bs ++ rest ∧
    d.fin = bs.length

/-- The checkpoint as it is in the file, with the size of the dictionary behind it. -/
def fileCk (es : List PEntry) (c : Checkpoint) : Checkpoint :=
  { c with newBytes := dictLen es, total := es.length }

theorem readDictP_ck {es : List PEntry} (hf : ∀ e ∈ es, e.Fits) {junk : Nat → Nat} {j space : Nat}
    {c : Checkpoint} {b : List Byte} (hb : checkpointP junk j space c es = some b) (hc : c.TimesOK)
    (hs : space < 2 ^ 32) {d : PDict} (hd : MemP es d) (hr : 2 * space ≤ d.raw.length) (ck : Checkpoint)
    (rest : List Byte) (e : Bool) :
    ∃ d', readDictP ck d ⟨b ++ rest, e⟩ = some (true, fileCk es c, d', ⟨rest, e⟩) ∧
      KnowsP es d' ∧ MemP es d' ∧ d'.raw.length = d.raw.length := by
  unfold checkpointP at hb
  split at hb
  · cases hb
  · rename_i h40
    cases hw : writeDict junk (space - 40) es with
    | none => rw [hw] at hb; cases hb
    | some bs =>
      rw [hw] at hb
      obtain rfl := Option.some.inj hb
      obtain ⟨l1, l2⟩ := writeDict_size junk es (fits_name hf) _ _ hw
      have l3 := writeDict_length junk es _ _ hw
      have m1 : bs.length % 2 ^ 32 = bs.length := Nat.mod_eq_of_lt (by omega)
      have m2 : es.length % 2 ^ 32 = es.length := Nat.mod_eq_of_lt (by omega)
      rw [m1, m2]
      have hfc : fileCk es c = { c with newBytes := bs.length, total := es.length } := by rw [fileCk, l1]
      rw [hfc]
      generalize hcc : { c with newBytes := bs.length, total := es.length } = c'
      have hv : c'.Valid := by
        subst hcc
        exact ⟨hc.1, hc.2.1, hc.2.2, by simp; omega, by simp; omega⟩
      have hnb : c'.newBytes = bs.length := by rw [← hcc]
      have htot : c'.total = es.length := by rw [← hcc]
      have h40' := checkpointBytes_length (junk := j) hv
      obtain ⟨x, xs, hx, hxt⟩ := checkpointBytes_head j c'
      -- the memory after reading starts with a dictionary of the statements
      have key : ∃ junk' space' bs0 rest0, writeDict junk' space' es = some bs0 ∧
          pokeAt d.fin bs d.raw = bs0 ++ rest0 ∧ bs0.length = bs.length ∧ d.fin + bs.length ≤ d.raw.length ∧
          (pokeAt d.fin bs d.raw).length = d.raw.length := by
        rcases hd with h0 | ⟨junk', space', bs0, rest0, w0, r0, f0⟩
        · refine ⟨_, _, bs, d.raw.drop bs.length, hw, by simp [pokeAt, h0], rfl, by omega, ?_⟩
          simp [pokeAt, h0]; omega
        · have l0 := (writeDict_size junk' es (fits_name hf) _ _ w0).1
          refine ⟨junk', space', bs0, bs ++ d.raw.drop (d.fin + bs.length), w0, ?_, by omega, by omega, ?_⟩
          · rw [pokeAt, r0, f0, List.take_left, List.append_assoc]
          · simp [pokeAt]; omega
      obtain ⟨junk', space', bs0, rest0, w0, p0, e0, e1, e2⟩ := key
      obtain ⟨ps, q1, q2⟩ := writeDict_ok junk' es hf _ _ w0 rest0 (pokeAt d.fin bs d.raw) 0 bs.length
        (by simpa using p0) (by omega) (bs.length + 1) (by omega) []
      refine ⟨⟨pokeAt d.fin bs d.raw, bs.length, ps⟩, ?_, q2, .inr ⟨_, _, _, _, w0, p0, e0.symm⟩, e2⟩
      unfold readDictP
      rw [List.append_assoc, read_append' _ _ _ h40']
      simp only [h40', parseCheckpoint_ok hv]
      rw [if_neg (by simp), hx]
      simp only [List.head?_cons, hxt, hnb]
      rw [if_neg (by simp), read_append' _ _ _ rfl]
      simp only
      rw [if_neg (by omega), if_neg (by simp), q1]
      have : ps.length = es.length := by
        have := congrArg List.length q2; simpa using this
      simp [htot, this]

theorem readDictP_ok {es : List PEntry} (hf : ∀ e ∈ es, e.Fits) {junk : Nat → Nat} {j space : Nat}
    {c : Checkpoint} {b : List Byte} (hb : checkpointP junk j space c es = some b) (hc : c.TimesOK)
    (hs : space < 2 ^ 32) {d : PDict} (hd : MemP es d) (hr : 2 * space ≤ d.raw.length) (ck : Checkpoint)
    (rest : List Byte) (e : Bool) :
    ∃ c' d', readDictP ck d ⟨b ++ rest, e⟩ = some (true, c', d', ⟨rest, e⟩) ∧ SameTimes c c' ∧
      KnowsP es d' ∧ MemP es d' ∧ d'.raw.length = d.raw.length := by
  obtain ⟨d', h⟩ := readDictP_ck hf hb hc hs hd hr ck rest e
  exact ⟨_, d', h.1, ⟨rfl, rfl, rfl⟩, h.2⟩

/-! ## Messages -/

/-- The fragment is positioned at the calls. -/
def AtP (fns : GenFns) (bf : BufFrag) : List PCall → Prop
  | [] => bf.hasMore = false
  | c :: cs => bf.hasMore = true ∧ bf.id = c.id ∧ bf.ts = c.ts ∧
      ∃ fs out body tail, c.OK fns fs ∧ GoodArgs fs c.args out ∧ bf.mem = out ++ (body ++ tail) ∧
        bf.left = ((out ++ body).length : Nat) ∧ EncodedP fns c.ts cs body

theorem EncodedP.length_le {fns : GenFns} {last : Nat} {cs : List PCall} {bs : List Byte}
    (h : EncodedP fns last cs bs) : cs.length ≤ bs.length := by
  induction h with
  | nil => simp
  | @cons last c fs out cs bs ok hg ht ih =>
    have := compressLogHeader_length (ts := c.ts) (last := last) ok.id
    simp only [List.length_cons, List.length_append]; omega

theorem readBufferExtent_atP (bf : BufFrag) {fns : GenFns} {cs : List PCall}
    {body : List Byte} (he : EncodedP fns 0 cs body) {tid : Nat} (np : Bool) (rest : List Byte)
    (e : Bool) (ht : tid < 2 ^ 32)
    (hc : (extentBytes tid np body).length ≤ bf.stor.length)
    (h32 : (extentBytes tid np body).length < 2 ^ 32) :
    ∃ bf', readBufferExtent bf ⟨extentBytes tid np body ++ rest, e⟩ =
        some (true, np, bf', ⟨rest, e⟩) ∧ AtP fns bf' cs ∧ bf'.tid = tid ∧
      bf'.stor.length = bf.stor.length := by
  have hr := readBufferExtent_ok bf np body rest e ht hc h32
  have hst : (overlay (extentBytes tid np body) bf.stor).length = bf.stor.length := by
    simp [overlay]; omega
  cases he with
  | nil =>
    rw [if_pos rfl] at hr
    exact ⟨_, hr, rfl, rfl, hst⟩
  | @cons _ c fs out cs bs ok hg hb =>
    have hhl := compressLogHeader_length (ts := c.ts) (last := 0) ok.id
    have hne : ¬ compressLogHeader c.id c.ts 0 ++ out ++ bs = [] := by
      intro h0
      have := congrArg List.length h0
      simp only [List.length_append, List.length_nil] at this
      omega
    generalize hT : bf.stor.drop (extentBytes tid np (compressLogHeader c.id c.ts 0 ++ out ++ bs)).length = T at hr
    have hh := header_round_trip (last := 0) ok.id ok.ts (out ++ (bs ++ T))
    have e1 : compressLogHeader c.id c.ts 0 ++ out ++ bs ++ T =
        compressLogHeader c.id c.ts 0 ++ (out ++ (bs ++ T)) := by simp
    rw [if_neg hne, e1, hh] at hr
    refine ⟨_, hr, ⟨rfl, rfl, rfl, fs, out, bs, _, ok, hg, rfl, ?_, hb⟩, rfl, hst⟩
    simp only [List.length_append]
    push_cast; omega

/-- After a message the fragment is positioned at the next one. -/
theorem nextHeader_at {fns : GenFns} {bf : BufFrag} {out body tail : List Byte} {cs : List PCall}
    (hmem : bf.mem = out ++ (body ++ tail)) (hleft : bf.left = ((out ++ body).length : Nat))
    (henc : EncodedP fns bf.ts cs body) :
    ∃ bf', nextHeader bf (body ++ tail) = some bf' ∧ AtP fns bf' cs ∧ bf'.tid = bf.tid ∧
      bf'.stor.length = bf.stor.length := by
  have hle : bf.left - ((bf.mem.length : Int) - (body ++ tail).length) = body.length := by
    rw [hleft, hmem]; simp only [List.length_append]; push_cast; omega
  unfold nextHeader
  simp only [hle]
  generalize hts : bf.ts = ts at henc
  cases henc with
  | nil =>
    rw [if_pos (by simp)]
    exact ⟨_, rfl, by simp [AtP], rfl, rfl⟩
  | @cons _ c2 fs2 out2 cs2 bs2 ok2 hg2 ht2 =>
    have hpos := compressLogHeader_length (ts := c2.ts) (last := ts) ok2.id
    have hh := header_round_trip (last := ts) ok2.id ok2.ts (out2 ++ (bs2 ++ tail))
    have e1 : compressLogHeader c2.id c2.ts ts ++ out2 ++ bs2 ++ tail =
        compressLogHeader c2.id c2.ts ts ++ (out2 ++ (bs2 ++ tail)) := by simp
    rw [if_neg (by simp only [List.length_append]; push_cast; omega), e1, hh]
    refine ⟨_, rfl, ⟨rfl, rfl, rfl, fs2, out2, bs2, tail, ok2, hg2, rfl, ?_, ht2⟩, rfl, rfl⟩
    simp only [List.length_append]
    push_cast; omega

/-- Statements, generated functions and dictionary of one program. -/
structure Program (ss : List PStmt) (es : List PEntry) (fns : GenFns) : Prop where
  entries : entriesOf ss = some es
  fns : fnsOf ss = some fns

theorem decompressNextP_at {ss es fns} (hp : Program ss es fns) {ck ck' : Checkpoint}
    (hck : SameTimes ck ck') {d : PDict} (hd : KnowsP es d) {bf : BufFrag} {c : PCall} {cs : List PCall}
    (ha : AtP fns bf (c :: cs)) :
    ∃ m bf', decompressNextP ck' d bf = some (some m, bf') ∧ PPrints ss (bf.tid, ck, c) m ∧
      AtP fns bf' cs ∧ bf'.tid = bf.tid ∧ bf'.stor.length = bf.stor.length := by
  obtain ⟨hmore, hid, hts, fs, out, body, tail, ok, hg, hmem, hleft, henc⟩ := ha
  obtain ⟨s, hs, hsp⟩ := (fnsOf_get hp.fns).2 _ _ ok.fn
  obtain ⟨e, he, hent⟩ := (entriesOf_get hp.entries).2 _ _ hs
  obtain ⟨fs', gs, name, frags, i1, i2, i3, i4, i5⟩ := entry_inv hent
  rw [hsp] at i1
  obtain rfl := Option.some.inj i1
  obtain ⟨ds, d1, d2⟩ := hg.dict gs i2 (body ++ tail)
  -- the literals only change the texts
  unfold decodeArgs at d1
  cases hn : Nibbler.new (out ++ (body ++ tail)) (pyNibbles fs) with
  | none => simp [hn] at d1
  | some x =>
    obtain ⟨nb, strs⟩ := x
    simp only [hn, Option.bind_eq_bind, Option.bind_some] at d1
    obtain ⟨ds', t1, t2⟩ := decodeFrags_lit i4 d1
    have hdec : decodeArgs (pyNibbles fs) frags (out ++ (body ++ tail)) = some (ds', body ++ tail) := by
      rw [decodeArgs, hn]; exact t1
    obtain ⟨bf', n1, n2, n3, n4⟩ := nextHeader_at hmem hleft (hts ▸ henc)
    refine ⟨_, bf', ?_, .mk hs hsp hck i3 d2 t2, n2, n3, n4⟩
    have hl0 : ¬ (bf.left < 0 ∨ bf.hasMore = false) := by simp [hmore, hleft]; omega
    rw [decompressNextP, if_neg hl0, hid, hd.lookup he]
    simp only [i5, PEntry.info, hmem, hdec, n1, Option.map_some, hts]

theorem drainP_at {ss es fns} (hp : Program ss es fns) {ck ck' : Checkpoint}
    (hck : SameTimes ck ck') {d : PDict} (hd : KnowsP es d) (tid : Nat) (cs : List PCall) (fuel : Nat)
    (hf : cs.length ≤ fuel) (bf : BufFrag) (out : List OutMsg) (ha : AtP fns bf cs) (ht : bf.tid = tid) :
    ∃ ms bf', drainP ck' d fuel bf out = some (bf', out ++ ms) ∧
      All2 (PPrints ss) (cs.map (tid, ck, ·)) ms ∧ bf'.stor.length = bf.stor.length := by
  induction cs generalizing fuel bf out with
  | nil =>
    have hm : bf.hasMore = false := ha
    exact ⟨[], bf, by cases fuel <;> simp [drainP, hm], .nil, rfl⟩
  | cons c cs ih =>
    cases fuel with
    | zero => simp at hf
    | succ fuel =>
      have hm : bf.hasMore = true := ha.1
      obtain ⟨m, bf', h1, h2, h3, h4, h5⟩ := decompressNextP_at hp hck hd ha
      obtain ⟨ms, bf'', h6, h7, h8⟩ := ih fuel (by simp at hf; omega) bf' (out ++ [m]) h3 (by rw [h4, ht])
      refine ⟨m :: ms, bf'', ?_, .cons (ht ▸ h2) h7, by rw [h8, h5]⟩
      simp only [drainP, hm, if_true, h1, Option.toList_some, h6]
      simp

theorem AtP.length_le {fns : GenFns} {bf : BufFrag} {cs : List PCall}
    (h : AtP fns bf cs) : cs.length ≤ bf.mem.length + 1 := by
  cases cs with
  | nil => simp
  | cons c cs =>
    obtain ⟨_, _, _, fs, out, body, tail, _, _, hmem, _, henc⟩ := h
    have := henc.length_le
    rw [hmem]; simp only [List.length_append, List.length_cons]; omega

/-! ## Files -/

/-- Well-formed bytes of a file, and the calls they hold. -/
inductive HoldsP (es : List PEntry) (fns : GenFns) (space cap : Nat) :
    Option Checkpoint → List Byte → List (Nat × Checkpoint × PCall) → Prop where
  | nil {ck} : HoldsP es fns space cap ck [] []
  | ckpt {ck junk j c b rest l} (hc : c.TimesOK) (hb : checkpointP junk j space c es = some b)
      (h : HoldsP es fns space cap (some c) rest l) : HoldsP es fns space cap ck (b ++ rest) l
  | ext {ck tid np cs body rest l} (he : EncodedP fns 0 cs body) (ht : tid < 2 ^ 32)
      (hl : (extentBytes tid np body).length ≤ cap) (h : HoldsP es fns space cap (some ck) rest l) :
      HoldsP es fns space cap (some ck) (extentBytes tid np body ++ rest) (cs.map (tid, ck, ·) ++ l)

theorem checkpointP_head {junk : Nat → Nat} {j space : Nat} {c : Checkpoint} {es : List PEntry}
    {b : List Byte} (h : checkpointP junk j space c es = some b) :
    ∃ x xs, b = x :: xs ∧ entryType x = .checkpoint := by
  unfold checkpointP at h
  split at h
  · cases h
  · cases hw : writeDict junk (space - 40) es with
    | none => rw [hw] at h; cases h
    | some bs =>
      rw [hw] at h
      obtain rfl := Option.some.inj h
      obtain ⟨x, xs, hx, hxt⟩ := checkpointBytes_head j
        { c with newBytes := bs.length % 2 ^ 32, total := es.length % 2 ^ 32 }
      exact ⟨x, xs ++ bs, by rw [hx]; rfl, hxt⟩

/-- Decoding well-formed bytes. -/
theorem loopP_holds {ss es fns} (hp : Program ss es fns) (hf : ∀ e ∈ es, e.Fits) {space cap : Nat}
    (hs : space < 2 ^ 32) (hcap : cap < 2 ^ 32) {ck : Option Checkpoint} {bytes : List Byte}
    {l : List (Nat × Checkpoint × PCall)} (h : HoldsP es fns space cap ck bytes l) (s : PDec)
    (hfile : s.file = ⟨bytes, false⟩) (hg : s.good = true)
    (hck : ∀ c, ck = some c → SameTimes c s.ck ∧ KnowsP es s.dict) (hm : MemP es s.dict)
    (hr : 2 * space ≤ s.dict.raw.length) (hb : s.bf.stor.length = cap) (fuel : Nat)
    (hfu : bytes.length < fuel) :
    ∃ s' ms, loopP fuel s = some s' ∧ s'.good = true ∧ s'.out = s.out ++ ms ∧ All2 (PPrints ss) l ms := by
  induction h generalizing s fuel with
  | nil =>
    cases fuel with
    | zero => omega
    | succ fuel =>
      refine ⟨{ s with file := ⟨[], true⟩ }, [], ?_, hg, by simp, .nil⟩
      rw [loopP, if_pos ⟨by rw [hfile], hg⟩]
      simp only [stepP, hfile, FileSt.peek, FileSt.skipPad]
      cases fuel with
      | zero => rfl
      | succ fuel => rw [loopP]; simp
  | @ckpt ck junk j c b rest l hc hbb h ih =>
    cases fuel with
    | zero => omega
    | succ fuel =>
      obtain ⟨x, xs, hx, hxt⟩ := checkpointP_head hbb
      obtain ⟨c', d', r1, r2, r3, r4, r5⟩ := readDictP_ok hf hbb hc hs hm hr s.ck rest false
      have hpk : s.file.peek = (.checkpoint, s.file) := by
        rw [hfile, hx]; simp [FileSt.peek, hxt]
      have hbl : 0 < b.length := by rw [hx]; simp
      obtain ⟨s', ms, i1, i2, i3, i4⟩ := ih { s with file := ⟨rest, false⟩, good := true, ck := c', dict := d' }
        rfl rfl (fun c0 h0 => by cases h0; exact ⟨r2, r3⟩) r4 (by rw [r5]; exact hr) hb fuel
        (by simp at hfu; omega)
      refine ⟨s', ms, ?_, i2, i3, i4⟩
      rw [loopP, if_pos ⟨by rw [hfile], hg⟩]
      simp only [stepP, hpk]
      rw [hfile, r1]
      exact i1
  | @ext ck tid np cs body rest l he ht hl h ih =>
    cases fuel with
    | zero => omega
    | succ fuel =>
      obtain ⟨x, xs, hx, hxt⟩ := extentBytes_head tid np body ht
      obtain ⟨hst, hkn⟩ := hck ck rfl
      have hpk : s.file.peek = (.extent, s.file) := by
        rw [hfile, hx]; simp [FileSt.peek, hxt]
      obtain ⟨bf', r1, r2, r3, r4⟩ := readBufferExtent_atP s.bf he np rest false ht (by omega) (by omega)
      obtain ⟨ms1, bf'', q1, q2, q3⟩ := drainP_at hp hst hkn tid cs (bf'.mem.length + 1) r2.length_le
        bf' s.out r2 r3
      have hbl : 0 < (extentBytes tid np body).length := by rw [hx]; simp
      obtain ⟨s', ms, i1, i2, i3, i4⟩ := ih { s with file := ⟨rest, false⟩, bf := bf'', out := s.out ++ ms1 }
        rfl hg (fun c0 h0 => by cases h0; exact ⟨hst, hkn⟩) hm hr (by simp; omega) fuel
        (by simp at hfu; omega)
      refine ⟨s', ms1 ++ ms, ?_, i2, by rw [i3]; simp, q2.append i4⟩
      rw [loopP, if_pos ⟨by rw [hfile], hg⟩]
      simp only [stepP, hpk]
      rw [hfile, r1]
      simp only
      rw [q1]
      exact i1

end NanoLog
